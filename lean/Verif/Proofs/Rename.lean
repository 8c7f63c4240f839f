import Verif.Spec.Rename
import Verif.Proofs.Closed5
import Verif.Proofs.Table

/-!
# Renaming of characters: the closed form of the clusters commutes with it
-/

namespace OsUrl
open Spec

/-- `t'` is `t` renamed, whatever follows. -/
def Ren (f : Char → Char) (t t' : Str) : Prop := ∀ s, renamed f .out (t ++ s) = t' ++ renamed f .out s

theorem ren_append {f : Char → Char} {t t' u u' : Str} (h : Ren f t t') (h' : Ren f u u') : Ren f (t ++ u) (t' ++ u') := by
  intro s
  rw [List.append_assoc, h, h', List.append_assoc]

theorem ren_nil (f : Char → Char) : Ren f [] [] := fun _ => rfl

theorem ren_eq {f : Char → Char} {t t' : Str} (h : Ren f t t') : renamed f .out t = t' := by
  have := h []
  simpa [renamed] using this

theorem renamed_inj {f : Char → Char} (hf : Renaming f) : ∀ (t u : Str) (p : Place), renamed f p t = renamed f p u → t = u
  | [], [], _, _ => rfl
  | [], _ :: _, p, h => by
    cases p <;> simp only [renamed] at h
    · split at h
      · cases h
      · split at h <;> cases h
    all_goals cases h
  | _ :: _, [], p, h => by
    cases p <;> simp only [renamed] at h
    · split at h
      · cases h
      · split at h <;> cases h
    all_goals cases h
  | a :: t, b :: u, p, h => by
    have key : ∀ c : Char, ∀ x ∈ ['[', '{'], f c = x → c = x := by
      intro c x hx e
      have := hf.2 c
      rw [e] at this
      simp only [List.mem_cons, List.not_mem_nil, or_false] at hx
      rcases hx with rfl | rfl
      · exact space_sign this.symm
      · exact space_sign this.symm
    cases p with
    | out =>
      simp only [renamed] at h
      by_cases a1 : a = '['
      · rw [if_pos a1] at h
        by_cases b1 : b = '['
        · rw [if_pos b1] at h
          injection h with h1 h2
          rw [h1, renamed_inj hf t u _ h2]
        · rw [if_neg b1] at h
          by_cases b2 : b = '{'
          · rw [if_pos b2] at h
            injection h with h1 h2
            exact absurd (h1.symm.trans a1) b1
          · rw [if_neg b2] at h
            injection h with h1 h2
            exact absurd (key b '[' (by simp) (h1.symm.trans a1)) b1
      · rw [if_neg a1] at h
        by_cases a2 : a = '{'
        · rw [if_pos a2] at h
          by_cases b1 : b = '['
          · rw [if_pos b1] at h
            injection h with h1 h2
            exact absurd (h1.trans b1) a1
          · rw [if_neg b1] at h
            by_cases b2 : b = '{'
            · rw [if_pos b2] at h
              injection h with h1 h2
              rw [h1, renamed_inj hf t u _ h2]
            · rw [if_neg b2] at h
              injection h with h1 h2
              exact absurd (key b '{' (by simp) (h1.symm.trans a2)) b2
        · rw [if_neg a2] at h
          by_cases b1 : b = '['
          · rw [if_pos b1] at h
            injection h with h1 h2
            exact absurd (key a '[' (by simp) (h1.trans b1)) a1
          · rw [if_neg b1] at h
            by_cases b2 : b = '{'
            · rw [if_pos b2] at h
              injection h with h1 h2
              exact absurd (key a '{' (by simp) (h1.trans b2)) a2
            · rw [if_neg b2] at h
              injection h with h1 h2
              rw [hf.1 _ _ h1, renamed_inj hf t u _ h2]
    | cls =>
      simp only [renamed] at h
      injection h with h1 h2
      subst h1
      rw [renamed_inj hf t u _ h2]
    | esc =>
      simp only [renamed] at h
      injection h with h1 h2
      rw [h1, renamed_inj hf t u _ h2]
    | num =>
      simp only [renamed] at h
      injection h with h1 h2
      subst h1
      rw [renamed_inj hf t u _ h2]

theorem renamed_iff {f : Char → Char} (hf : Renaming f) {t u t' u' : Str} (h : Ren f t t') (h' : Ren f u u') : t' = u' ↔ t = u := by
  rw [← ren_eq h, ← ren_eq h']
  exact ⟨renamed_inj hf t u _, fun e => by rw [e]⟩

/-- Between brackets nothing is renamed. -/
def ClsText (k : Str) : Prop := ∀ (f : Char → Char) (s : Str), renamed f .cls (k ++ s) = k ++ renamed f .cls s

theorem inner_append {a b : Str} (ha : ClsText a) (hb : ClsText b) : ClsText (a ++ b) := by
  intro f s
  rw [List.append_assoc, ha, hb, List.append_assoc]

theorem inner_text (sp : Space) : ClsText sp.text := by
  intro f s
  cases sp with
  | lower => simp [Space.text, renamed]
  | upper => simp [Space.text, renamed]
  | digit => simp [Space.text, renamed]
  | sign c =>
    simp only [Space.text]
    by_cases h : c ∈ bareSigns
    · rw [if_pos h]
      have h1 : c ≠ ']' := fun e => by rw [e] at h; exact absurd h (by decide)
      have h2 : c ≠ '\\' := fun e => by rw [e] at h; exact absurd h (by decide)
      simp [renamed, h1, h2]
    · rw [if_neg h]
      simp [renamed]

theorem inner_flatten : ∀ (l : List Space), ClsText (l.map Space.text).flatten
  | [] => fun _ _ => rfl
  | sp :: l => by
    rw [List.map_cons, List.flatten_cons]
    exact inner_append (inner_text sp) (inner_flatten l)

theorem inner_cls (g : Chunk) : ClsText (clsText g) := inner_flatten _

theorem renamed_num (f : Char → Char) : ∀ (ds s : Str), '}' ∉ ds → renamed f .num (ds ++ s) = ds ++ renamed f .num s
  | [], _, _ => rfl
  | d :: ds, s, h => by
    simp only [List.mem_cons, not_or] at h
    simp only [List.cons_append, renamed]
    rw [if_neg (fun e => h.1 e.symm), renamed_num f ds s h.2]

theorem ren_class {f : Char → Char} {k : Str} (hk : ClsText k) : Ren f ('[' :: k ++ [']']) ('[' :: k ++ [']']) := by
  intro s
  have : ('[' :: k ++ [']']) ++ s = '[' :: (k ++ ']' :: s) := by simp
  rw [this, renamed, if_pos rfl, hk]
  simp [renamed]

theorem ren_quant (f : Char → Char) (n : Nat) : Ren f ('{' :: decimal n ++ ['}']) ('{' :: decimal n ++ ['}']) := by
  intro s
  have : ('{' :: decimal n ++ ['}']) ++ s = '{' :: (decimal n ++ '}' :: s) := by simp
  have hn : '}' ∉ decimal n := fun h => by
    have := natStr_digits _ (natStr_decimal n ▸ h)
    revert this; decide
  rw [this, renamed, if_neg (by decide), if_pos rfl, renamed_num f _ _ hn]
  simp [renamed]

theorem ren_plus {f : Char → Char} (hf : Renaming f) : Ren f ['+'] ['+'] := by
  intro s
  have : f '+' = '+' := space_sign (by rw [hf.2]; decide)
  simp [renamed, this]

theorem ren_word {f : Char → Char} : ∀ {w : Str}, (∀ c ∈ w, c ≠ '[' ∧ c ≠ '{') → Ren f w (w.map f)
  | [], _ => ren_nil f
  | c :: w, h => by
    have := ren_word (f := f) (w := w) (fun x hx => h x (List.mem_cons_of_mem _ hx))
    intro s
    have hc := h c (by simp)
    simp only [List.cons_append, renamed, List.map_cons]
    rw [if_neg hc.1, if_neg hc.2, this]

/-- A chunk with its characters renamed. -/
def ren1 (f : Char → Char) (g : Chunk) : Chunk := g.map (fun r => (r.1, r.2.map f))

theorem ren1_fst (f : Char → Char) (g : Chunk) : (ren1 f g).map (·.1) = g.map (·.1) := by
  unfold ren1; rw [List.map_map]; rfl

theorem ren1_length (f : Char → Char) (g : Chunk) : (ren1 f g).length = g.length := by unfold ren1; rw [List.length_map]

theorem ren1_cls (f : Char → Char) (g : Chunk) : clsText (ren1 f g) = clsText g := by unfold clsText; rw [ren1_fst]

theorem ren1_written (f : Char → Char) (g : Chunk) : writtenLength (ren1 f g) = writtenLength g := by
  unfold writtenLength ren1; rw [List.map_map]; congr 1; apply List.map_congr_left; intro r _; simp

theorem ren1_inj {f : Char → Char} (hf : Renaming f) {g g' : Chunk} (h : ren1 f g = ren1 f g') : g = g' := by
  unfold ren1 at h
  refine (List.map_inj_right ?_).mp h
  intro a b e
  injection e with e1 e2
  exact Prod.ext e1 ((List.map_inj_right (fun x y => hf.1 x y)).mp e2)

/-- The characters of every run are of its space. -/
def TrueChunk (g : Chunk) : Prop := ∀ r ∈ g, ∀ c ∈ r.2, space? c = some r.1

theorem ren_run {f : Char → Char} {r : Space × Str} (hr : ∀ c ∈ r.2, space? c = some r.1) :
    Ren f (runText r) (runText (r.1, r.2.map f)) := by
  unfold runText
  by_cases hs : r.1.isSign = true
  · simp only [hs, if_true, List.length_map]
    have := ren_class (f := f) (inner_text r.1)
    split
    · exact this
    · have e : '[' :: r.1.text ++ ']' :: ('{' :: decimal r.2.length ++ ['}']) = ('[' :: r.1.text ++ [']']) ++ ('{' :: decimal r.2.length ++ ['}']) := by simp
      rw [e]
      exact ren_append this (ren_quant f _)
  · rw [if_neg hs, if_neg hs]
    apply ren_word
    intro c hc
    have := hr c hc
    constructor
    · rintro rfl
      rw [show space? '[' = some (.sign '[') by decide] at this
      injection this with this
      rw [← this] at hs; exact hs rfl
    · rintro rfl
      rw [show space? '{' = some (.sign '{') by decide] at this
      injection this with this
      rw [← this] at hs; exact hs rfl

theorem ren_lit {f : Char → Char} : ∀ {g : Chunk}, TrueChunk g → Ren f (litText g) (litText (ren1 f g))
  | [], _ => ren_nil f
  | r :: g, h => by
    have := ren_lit (f := f) (g := g) (fun x hx => h x (List.mem_cons_of_mem _ hx))
    show Ren f (runText r ++ litText g) (runText (r.1, r.2.map f) ++ litText (ren1 f g))
    exact ren_append (ren_run (h r (by simp))) this

theorem ren_len (f : Char → Char) (g : Chunk) : Ren f (lenText g) (lenText (ren1 f g)) := by
  unfold lenText
  rw [ren1_cls, ren1_written]
  have := ren_class (f := f) (inner_cls g)
  split
  · exact this
  · have e : '[' :: clsText g ++ ']' :: ('{' :: decimal (writtenLength g) ++ ['}']) =
      ('[' :: clsText g ++ [']']) ++ ('{' :: decimal (writtenLength g) ++ ['}']) := by simp
    rw [e]
    exact ren_append this (ren_quant f _)

theorem ren_wild {f : Char → Char} (hf : Renaming f) (g : Chunk) : Ren f (wildText g) (wildText (ren1 f g)) := by
  unfold wildText
  rw [ren1_cls]
  have e : '[' :: clsText g ++ [']', '+'] = ('[' :: clsText g ++ [']']) ++ ['+'] := by simp
  rw [e]
  exact ren_append (ren_class (inner_cls g)) (ren_plus hf)

end OsUrl
