import Verif.Proofs.Top2
import Verif.Proofs.RowClose

/-! Rows whose pieces have one run only: the stages for views have nothing to do. -/

namespace OsUrl
open Spec

theorem dstPiece_one {cfg : LevelCfg} {p : ParsedPiece} (h : p.pieces.length = 1) : dstPiece cfg p = .length := by
  unfold dstPiece routePiece
  simp only
  rw [if_pos h]
  rfl

theorem stagePat_one {cfg : LevelCfg} {E : List Ent} (hE : ∀ e ∈ E, e.1.pieces.length = 1) {p : ParsedPiece} (hp : p.pieces.length = 1) :
    stagePat cfg E p = lenPat cfg.mcn E p := by
  have hB : ∀ q : ParsedPiece, q.pieces.length = 1 → inB cfg q = false := fun q hq => by unfold inB; rw [dstPiece_one hq]; rfl
  have hM : ∀ q : ParsedPiece, q.pieces.length = 1 → inM cfg E q = false := fun q hq => by
    unfold inM; rw [dstPiece_one hq, hB q hq]; rfl
  have hL : ∀ q : ParsedPiece, q.pieces.length = 1 → inL cfg E q = false := fun q hq => by
    unfold inL; rw [dstPiece_one hq, hB q hq, hM q hq]; rfl
  have hN : ∀ q : ParsedPiece, q.pieces.length = 1 → inN cfg E q = true := fun q hq => by
    unfold inN; rw [dstPiece_one hq]; rfl
  have hs : stageOf cfg E p = .length := stageOf_length.mpr (hN p hp)
  unfold stagePat
  rw [hs]
  simp only
  rw [List.filter_eq_self.mpr (fun e he => hN e.1 (hE e he))]

theorem part_one {p : ParsedPiece} (h : Part p) : p.pieces.length = 1 := by
  obtain ⟨g, w, -, rfl⟩ := h; rfl

theorem lab_top {mcn : Int} (hm : 2 ≤ mcn) {m : URLMeta} {kw : Bool} {n N j : Nat} {S : List Ins} (hS : FlatRows n S) (hj : j < n) {x : Ins} (hx : x ∈ S) :
    lab (topF mcn m kw N) j S x = lab (flatF mcn kw N) j S x := by
  unfold lab topF flatF
  rcases hS.part j hj with hp | hb
  · rw [stagePat_one (cfg := cfgAt mcn m kw N j) (E := ent j S) ?_ (part_one (hp x hx))]
    · rfl
    · intro e he
      obtain ⟨p, c⟩ := e
      obtain ⟨z, hz, e⟩ := List.mem_map.mp (mem_ent.mp he).1
      rw [← show z.pp j = p from e]
      exact part_one (hp z hz)
  · have h1 : litStop mcn (ent j S) = true := litStop_blank hm hS.pos hb hx
    rw [h1, Bool.or_true, if_pos rfl, if_pos rfl]

theorem labs_top {mcn : Int} (hm : 2 ≤ mcn) {m : URLMeta} {kw : Bool} {n N : Nat} : ∀ {k j : Nat} {S : List Ins}, FlatRows n S → j + k ≤ n → ∀ {x : Ins}, x ∈ S →
    labs (topF mcn m kw N) k j S x = labs (flatF mcn kw N) k j S x := by
  intro k
  induction k with
  | zero => intros; rfl
  | succ k ih =>
    intro j S hS hj x hx
    have e : nxt (topF mcn m kw N) j S x = nxt (flatF mcn kw N) j S x := by
      unfold nxt
      apply List.filter_congr
      intro y hy
      rw [lab_top hm hS (by omega) hy, lab_top hm hS (by omega) hx]
    rw [labs, labs, lab_top hm hS (by omega) hx, e]
    congr 1
    exact ih (hS.sub (fun z hz => (List.mem_filter.mp hz).1)) (by omega) (List.mem_filter.mpr ⟨hx, by simp⟩)

theorem unif_top {mcn : Int} (hm : 2 ≤ mcn) {m : URLMeta} {kw : Bool} {n N : Nat} {S : List Ins} (hS : FlatRows n S) :
    unif (topF mcn m kw N) n S = unif (flatF mcn kw N) n S := by
  rw [Bool.eq_iff_iff, unif_iff, unif_iff]
  constructor
  · intro h x hx y hy
    rw [← labs_top hm (m := m) hS (by omega) hx, ← labs_top hm (m := m) hS (by omega) hy]; exact h x hx y hy
  · intro h x hx y hy
    rw [labs_top hm hS (by omega) hx, labs_top hm hS (by omega) hy]; exact h x hx y hy

theorem famN_top {mcn : Int} (hm : 2 ≤ mcn) {m : URLMeta} {kw : Bool} {n N : Nat} : ∀ (f : Nat) (S : List Ins), FlatRows n S → ∀ {x : Ins}, x ∈ S →
    famN (topF mcn m kw N) n f S x = famN (flatF mcn kw N) n f S x := by
  intro f
  induction f with
  | zero => intros; rfl
  | succ f ih =>
    intro S hS x hx
    have e : S.filter (fun y => decide (labs (topF mcn m kw N) n 0 S y = labs (topF mcn m kw N) n 0 S x)) =
        S.filter (fun y => decide (labs (flatF mcn kw N) n 0 S y = labs (flatF mcn kw N) n 0 S x)) := by
      apply List.filter_congr
      intro y hy
      rw [labs_top hm hS (by omega) hx, labs_top hm hS (by omega) hy]
    rw [famN, famN, unif_top hm hS, e]
    split
    · rfl
    · exact ih _ (hS.sub (fun z hz => (List.mem_filter.mp hz).1)) (List.mem_filter.mpr ⟨hx, by simp⟩)

end OsUrl
