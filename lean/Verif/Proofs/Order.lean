import Verif.Model.Py

/-! Order on strings and `sorted(set(..))`. -/

namespace OsUrl

theorem charLt_iff {a b : Char} : charLt a b = true ↔ a.toNat < b.toNat := by simp [charLt]

theorem char_eq_of_not_lt {a b : Char} (h1 : charLt a b = false) (h2 : charLt b a = false) : a = b := by
  simp [charLt] at h1 h2
  have : a.toNat = b.toNat := by omega
  exact Char.toNat_inj.mp this

theorem strLt_irrefl (s : Str) : strLt s s = false := by
  induction s with
  | nil => rfl
  | cons a as ih => simp [strLt, charLt, ih]

theorem strLt_trans {a b c : Str} (h1 : strLt a b = true) (h2 : strLt b c = true) : strLt a c = true := by
  induction a generalizing b c with
  | nil =>
    cases b with
    | nil => simp [strLt] at h1
    | cons => cases c with
      | nil => simp [strLt] at h2
      | cons => rfl
  | cons x xs ih =>
    cases b with
    | nil => simp [strLt] at h1
    | cons y ys => cases c with
      | nil => simp [strLt] at h2
      | cons z zs =>
        simp only [strLt] at *
        by_cases hxy : charLt x y = true
        · by_cases hyz : charLt y z = true
          · have : charLt x z = true := by simp [charLt] at *; omega
            simp [this]
          · by_cases hzy : charLt z y = true
            · simp [hyz, hzy] at h2
            · have := char_eq_of_not_lt (by simpa using hyz) (by simpa using hzy)
              subst this; simp [hxy]
        · by_cases hyx : charLt y x = true
          · simp [hxy, hyx] at h1
          · have := char_eq_of_not_lt (by simpa using hxy) (by simpa using hyx)
            subst this
            simp [hxy] at h1
            by_cases hyz : charLt x z = true
            · simp [hyz]
            · by_cases hzy : charLt z x = true
              · simp [hyz, hzy] at h2
              · simp [hyz, hzy] at h2 ⊢
                exact ih h1 h2

theorem strLt_total {a b : Str} (h1 : strLt a b = false) (h2 : strLt b a = false) : a = b := by
  induction a generalizing b with
  | nil => cases b with
    | nil => rfl
    | cons => simp [strLt] at h1
  | cons x xs ih => cases b with
    | nil => simp [strLt] at h2
    | cons y ys =>
      simp only [strLt] at *
      by_cases hxy : charLt x y = true
      · simp [hxy] at h1
      · by_cases hyx : charLt y x = true
        · simp [hyx] at h2
        · have := char_eq_of_not_lt (by simpa using hxy) (by simpa using hyx)
          subst this
          simp [hxy] at h1 h2
          rw [ih h1 h2]

theorem strLt_asymm {a b : Str} (h : strLt a b = true) : strLt b a = false := by
  cases hb : strLt b a with
  | false => rfl
  | true => have := strLt_trans h hb; rw [strLt_irrefl] at this; cases this

/-- Strictly increasing. -/
def SSorted (xs : List Str) : Prop := xs.Pairwise (fun a b => strLt a b = true)

theorem mem_insertStr {x y : Str} {xs : List Str} : y ∈ insertStr x xs ↔ y = x ∨ y ∈ xs := by
  induction xs with
  | nil => simp [insertStr]
  | cons z zs ih =>
    simp only [insertStr]
    split
    · simp
    · split
      · simp [ih]; grind
      · have : x = z := strLt_total (by simpa using ‹¬ strLt x z = true›) (by simpa using ‹¬ strLt z x = true›)
        subst this; simp

theorem ssorted_insertStr {x : Str} {xs : List Str} (h : SSorted xs) : SSorted (insertStr x xs) := by
  induction xs with
  | nil => simp [insertStr, SSorted]
  | cons z zs ih =>
    simp only [SSorted, List.pairwise_cons] at h
    simp only [insertStr]
    split
    · rename_i hlt
      simp only [SSorted, List.pairwise_cons]
      refine ⟨?_, h⟩
      intro y hy
      rcases List.mem_cons.mp hy with rfl | hy
      · exact hlt
      · exact strLt_trans hlt (h.1 y hy)
    · split
      · rename_i h1 h2
        simp only [SSorted, List.pairwise_cons]
        refine ⟨?_, ih h.2⟩
        intro y hy
        rcases mem_insertStr.mp hy with rfl | hy
        · exact h2
        · exact h.1 y hy
      · simp only [SSorted, List.pairwise_cons]; exact h

@[simp] theorem mem_sortedSet {x : Str} {xs : List Str} : x ∈ sortedSet xs ↔ x ∈ xs := by
  induction xs with
  | nil => simp [sortedSet]
  | cons y ys ih =>
    have : sortedSet (y :: ys) = insertStr y (sortedSet ys) := rfl
    rw [this, mem_insertStr, ih]; simp

theorem ssorted_sortedSet (xs : List Str) : SSorted (sortedSet xs) := by
  induction xs with
  | nil => simp [sortedSet, SSorted]
  | cons y ys ih =>
    have : sortedSet (y :: ys) = insertStr y (sortedSet ys) := rfl
    rw [this]; exact ssorted_insertStr ih

theorem SSorted.nodup {xs : List Str} (h : SSorted xs) : xs.Nodup := by
  refine List.Pairwise.imp ?_ h
  intro a b hab heq
  subst heq; rw [strLt_irrefl] at hab; cases hab

theorem ssorted_ext {xs ys : List Str} (hx : SSorted xs) (hy : SSorted ys)
    (h : ∀ a, a ∈ xs ↔ a ∈ ys) : xs = ys := by
  induction xs generalizing ys with
  | nil =>
    cases ys with
    | nil => rfl
    | cons y ys => exact absurd ((h y).mpr (by simp)) (by simp)
  | cons x xs ih =>
    cases ys with
    | nil => exact absurd ((h x).mp (by simp)) (by simp)
    | cons y ys =>
      have hx' := List.pairwise_cons.mp hx
      have hy' := List.pairwise_cons.mp hy
      have hxy : x = y := by
        have h1 : x ∈ y :: ys := (h x).mp (by simp)
        have h2 : y ∈ x :: xs := (h y).mpr (by simp)
        rcases List.mem_cons.mp h1 with e | e1
        · exact e
        rcases List.mem_cons.mp h2 with e | e2
        · exact e.symm
        have l1 := hy'.1 _ e1
        have l2 := hx'.1 _ e2
        have := strLt_trans l1 l2
        rw [strLt_irrefl] at this; cases this
      subst hxy
      congr 1
      apply ih hx'.2 hy'.2
      intro a
      have := h a
      simp only [List.mem_cons] at this
      constructor
      · intro ha
        rcases this.mp (Or.inr ha) with e | e
        · subst e
          have := hx'.1 _ ha; rw [strLt_irrefl] at this; cases this
        · exact e
      · intro ha
        rcases this.mpr (Or.inr ha) with e | e
        · subst e
          have := hy'.1 _ ha; rw [strLt_irrefl] at this; cases this
        · exact e

theorem sortedSet_congr {xs ys : List Str} (h : ∀ a, a ∈ xs ↔ a ∈ ys) : sortedSet xs = sortedSet ys :=
  ssorted_ext (ssorted_sortedSet _) (ssorted_sortedSet _) (by simpa using h)

theorem sortedSet_of_ssorted {xs : List Str} (h : SSorted xs) : sortedSet xs = xs :=
  ssorted_ext (ssorted_sortedSet _) h (by simp)

@[simp] theorem sortedSet_singleton (x : Str) : sortedSet [x] = [x] := rfl

theorem sortedSet_replicate_eq {x : Str} {xs : List Str} (hne : xs ≠ []) (h : ∀ a ∈ xs, a = x) :
    sortedSet xs = [x] := by
  rw [← sortedSet_singleton]
  apply sortedSet_congr
  intro a
  constructor
  · intro ha; simp [h a ha]
  · intro ha
    simp at ha; subst ha
    obtain ⟨b, hb⟩ := List.exists_mem_of_ne_nil xs hne
    rw [← h b hb]; exact hb

end OsUrl
