import Verif.Proofs.Cand

/-! A whole level: the stages one after the other. -/

namespace OsUrl
open Spec

/-! ### Which stage settles a piece -/

section defs
variable (cfg : LevelCfg) (E : List Ent) (p : ParsedPiece)

/-- The piece goes to the base stage. -/
def inB : Bool := decide (dstPiece cfg p = .base)
/-- What the base stage settles. -/
def stB : Option Str := settle cfg.mcn false multiView (E.filter (fun e => inB cfg e.1)) p
/-- The piece goes to the mixed stage. -/
def inM : Bool := decide (dstPiece cfg p = .mixed) || (inB cfg p && (stB cfg E p).isNone && decide (dstBase cfg p = .mixed))
/-- What the mixed stage settles. -/
def stM : Option Str := settle cfg.mcn false mixedView (E.filter (fun e => inM cfg E e.1)) p
/-- The piece goes to the last dot stage. -/
def inL : Bool := decide (dstPiece cfg p = .lastDot) ||
  ((inB cfg p && (stB cfg E p).isNone && decide (dstBase cfg p = .lastDot)) ||
  (inM cfg E p && (stM cfg E p).isNone && decide (dstMixed cfg p = .lastDot)))
/-- What the last dot stage settles. -/
def stL : Option Str := settle cfg.mcn true lastDotView (E.filter (fun e => inL cfg E e.1)) p
/-- The piece goes to the length stage. -/
def inN : Bool := decide (dstPiece cfg p = .length) ||
  ((inB cfg p && (stB cfg E p).isNone && decide (dstBase cfg p = .length)) ||
  ((inM cfg E p && (stM cfg E p).isNone && decide (dstMixed cfg p = .length)) ||
  (inL cfg E p && (stL cfg E p).isNone)))

/-- The stage that settles the piece. -/
def stageOf : Dst :=
  if inB cfg p && (stB cfg E p).isSome then .base
  else if inM cfg E p && (stM cfg E p).isSome then .mixed
  else if inL cfg E p && (stL cfg E p).isSome then .lastDot
  else .length

/-- The pattern of the piece after all stages. -/
def stagePat : Str :=
  match stageOf cfg E p with
  | .base => (stB cfg E p).getD []
  | .mixed => (stM cfg E p).getD []
  | .lastDot => (stL cfg E p).getD []
  | .length => lenPat cfg.mcn (E.filter (fun e => inN cfg E e.1)) p

/-- Pieces with the same pattern were settled by the same stage. -/
def StageSep : Prop := ∀ e ∈ E, ∀ e' ∈ E, stagePat cfg E e.1 = stagePat cfg E e'.1 → stageOf cfg E e.1 = stageOf cfg E e'.1

end defs

section facts
variable {cfg : LevelCfg} {E E' : List Ent} {p : ParsedPiece}

theorem stB_perm (h : E.Perm E') : stB cfg E p = stB cfg E' p := settle_perm (h.filter _) p
theorem inM_perm (h : E.Perm E') : inM cfg E p = inM cfg E' p := by unfold inM; rw [stB_perm h]
theorem filter_perm_congr {α : Type} {l l' : List α} {f g : α → Bool} (h : l.Perm l') (e : ∀ x, f x = g x) :
    (l.filter f).Perm (l'.filter g) := by rw [show f = g from funext e]; exact h.filter _
theorem stM_perm (h : E.Perm E') : stM cfg E p = stM cfg E' p :=
  settle_perm (filter_perm_congr h (fun _ => inM_perm h)) p
theorem inL_perm (h : E.Perm E') : inL cfg E p = inL cfg E' p := by
  unfold inL; rw [stB_perm h, stM_perm h, inM_perm h]
theorem stL_perm (h : E.Perm E') : stL cfg E p = stL cfg E' p :=
  settle_perm (filter_perm_congr h (fun _ => inL_perm h)) p
theorem inN_perm (h : E.Perm E') : inN cfg E p = inN cfg E' p := by
  unfold inN; rw [stB_perm h, stM_perm h, inM_perm h, inL_perm h, stL_perm h]
theorem stageOf_perm (h : E.Perm E') : stageOf cfg E p = stageOf cfg E' p := by
  unfold stageOf; rw [stB_perm h, stM_perm h, inM_perm h, inL_perm h, stL_perm h]
theorem stagePat_perm (h : E.Perm E') : stagePat cfg E p = stagePat cfg E' p := by
  unfold stagePat
  rw [stB_perm h, stM_perm h, stL_perm h, stageOf_perm h, lenPat_perm (filter_perm_congr h (fun _ => inN_perm h))]

theorem dstBase_ne (cfg : LevelCfg) (p : ParsedPiece) : dstBase cfg p ≠ .base := by
  unfold dstBase routeBase
  simp only
  repeat' split
  all_goals simp [Route.dst]

theorem dstMixed_or (cfg : LevelCfg) (p : ParsedPiece) : dstMixed cfg p = .lastDot ∨ dstMixed cfg p = .length := by
  unfold dstMixed routeMixed
  simp only
  repeat' split
  all_goals simp [Route.dst]

theorem stageOf_base : stageOf cfg E p = .base ↔ inB cfg p = true ∧ (stB cfg E p).isSome := by
  unfold stageOf
  cases inB cfg p <;> cases (stB cfg E p).isSome <;> simp
  all_goals (repeat' split)
  all_goals simp

theorem stageOf_mixed : stageOf cfg E p = .mixed ↔ inM cfg E p = true ∧ (stM cfg E p).isSome := by
  unfold stageOf
  by_cases h : (inB cfg p && (stB cfg E p).isSome) = true
  · rw [if_pos h]
    simp only [Bool.and_eq_true] at h
    have : inM cfg E p = false := by
      unfold inM
      have h1 : dstPiece cfg p = .base := by simpa [inB] using h.1
      rw [h1]
      cases hs : stB cfg E p with
      | none => rw [hs] at h; simp at h
      | some _ => simp
    rw [this]; simp
  · rw [if_neg h]
    by_cases h2 : (inM cfg E p && (stM cfg E p).isSome) = true
    · rw [if_pos h2]; simpa using h2
    · rw [if_neg h2]
      constructor
      · intro h3
        split at h3 <;> cases h3
      · intro h3; exact absurd (by simpa using h3) h2

theorem stageOf_lastDot : stageOf cfg E p = .lastDot ↔ inL cfg E p = true ∧ (stL cfg E p).isSome := by
  have hb := dstBase_ne cfg p
  have hm := dstMixed_or cfg p
  unfold stageOf
  generalize hx : (stL cfg E p).isSome = x
  unfold inL inM inB
  cases stB cfg E p <;> cases stM cfg E p <;> cases dstPiece cfg p <;> cases hdb : dstBase cfg p <;> cases hdm : dstMixed cfg p <;> cases x <;>
    simp_all

theorem stageOf_length : stageOf cfg E p = .length ↔ inN cfg E p = true := by
  have hb := dstBase_ne cfg p
  have hm := dstMixed_or cfg p
  unfold stageOf inN
  generalize stL cfg E p = x
  unfold inL inM inB
  cases stB cfg E p <;> cases stM cfg E p <;> cases dstPiece cfg p <;> cases hdb : dstBase cfg p <;> cases hdm : dstMixed cfg p <;> cases x <;>
    simp_all

theorem filter_or_perm {α : Type} {f g : α → Bool} : ∀ l : List α, (∀ x ∈ l, ¬ (f x = true ∧ g x = true)) →
    (l.filter f ++ l.filter g).Perm (l.filter (fun x => f x || g x)) := by
  intro l
  induction l with
  | nil => intro _; exact .nil
  | cons x l ih =>
    intro h
    have ih := ih (fun y hy => h y (by simp [hy]))
    have hx := h x (by simp)
    cases hf : f x <;> cases hg : g x <;> simp [hf, hg] at hx ⊢
    · exact ih
    · exact List.perm_middle.trans (ih.cons _)
    · exact ih

end facts

end OsUrl
