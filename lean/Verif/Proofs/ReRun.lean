import Verif.Model.Re

/-! The engine of `Model/Re` finds a match exactly when there is one. -/

namespace OsUrl
open Spec

theorem inClass_iff (k : Class) (c : Char) : inClass k c = true ↔ k.has c := by
  unfold inClass Class.has
  simp [List.any_eq_true]

/-- `s` is `w`, up to one newline at the end. -/
def UpToNewline (s w : Str) : Prop := s = w ∨ s = w ++ ['\n']

theorem le_runLen {k : Class} {s : Str} {n : Nat} : n ≤ runLen k s ↔ n ≤ s.length ∧ ∀ c ∈ s.take n, k.has c := by
  unfold runLen
  induction s generalizing n with
  | nil => cases n <;> simp
  | cons a s ih =>
    cases n with
    | zero => simp
    | succ n =>
      by_cases h : inClass k a = true
      · rw [List.takeWhile_cons_of_pos h]
        simp only [List.length_cons, Nat.add_le_add_iff_right, List.take_succ_cons, List.mem_cons]
        rw [ih]
        constructor
        · rintro ⟨h1, h2⟩
          refine ⟨h1, ?_⟩
          rintro c (rfl | hc)
          · exact (inClass_iff _ _).mp h
          · exact h2 c hc
        · rintro ⟨h1, h2⟩
          exact ⟨h1, fun c hc => h2 c (Or.inr hc)⟩
      · rw [List.takeWhile_cons_of_neg h]
        simp only [List.length_nil, List.take_succ_cons, List.mem_cons]
        constructor
        · intro h; omega
        · rintro ⟨-, h2⟩
          exact absurd ((inClass_iff _ _).mpr (h2 a (Or.inl rfl))) h

theorem items_cons {i : Item} {is : List Item} {s : Str} :
    ItemsMatch (i :: is) s ↔ ∃ w ws, s = w ++ ws ∧ i.Match w ∧ ItemsMatch is ws := by
  constructor
  · intro h
    cases h with
    | cons h1 h2 => exact ⟨_, _, rfl, h1, h2⟩
  · rintro ⟨w, ws, rfl, h1, h2⟩
    exact .cons h1 h2

theorem upTo_split {s w ws : Str} (h : UpToNewline s (w ++ ws)) : UpToNewline (s.drop w.length) ws ∧ s.take w.length = w ∧ w.length ≤ s.length := by
  rcases h with rfl | rfl
  · simp [UpToNewline]
  · rw [List.append_assoc]
    simp [UpToNewline]

theorem upTo_join {s ws : Str} (n : Nat) (h : UpToNewline (s.drop n) ws) : UpToNewline s (s.take n ++ ws) := by
  rcases h with h | h
  · left; rw [← h, List.take_append_drop]
  · right; rw [List.append_assoc, ← h, List.take_append_drop]

theorem reRun_iff (is : List Item) : ∀ s, reRun is s = true ↔ ∃ w, UpToNewline s w ∧ ItemsMatch is w := by
  induction is with
  | nil =>
    intro s
    simp only [reRun, Bool.or_eq_true, decide_eq_true_eq]
    constructor
    · rintro (rfl | rfl)
      · exact ⟨[], .inl rfl, .nil⟩
      · exact ⟨[], .inr rfl, .nil⟩
    · rintro ⟨w, h1, h2⟩
      cases h2
      exact h1
  | cons i is ih =>
    intro s
    have key : ∀ n, (∃ w, UpToNewline s w ∧ ∃ v ws, w = v ++ ws ∧ v.length = n ∧ (∀ c ∈ v, i.cls.has c) ∧ ItemsMatch is ws) ↔
        n ≤ runLen i.cls s ∧ reRun is (s.drop n) = true := by
      intro n
      rw [le_runLen, ih]
      constructor
      · rintro ⟨w, h1, v, ws, rfl, rfl, h2, h3⟩
        obtain ⟨a, b, c⟩ := upTo_split h1
        exact ⟨⟨c, by rw [b]; exact h2⟩, ws, a, h3⟩
      · rintro ⟨⟨h1, h2⟩, ws, h3, h4⟩
        exact ⟨_, upTo_join n h3, _, _, rfl, by rw [List.length_take]; omega, h2, h4⟩
    obtain ⟨k, q⟩ := i
    cases q with
    | times n =>
      simp only [reRun, Bool.and_eq_true, decide_eq_true_eq]
      rw [← key n]
      constructor
      · rintro ⟨w, h1, v, ws, h2, h3, h4, h5⟩
        exact ⟨w, h1, items_cons.mpr ⟨v, ws, h2, ⟨h4, h3⟩, h5⟩⟩
      · rintro ⟨w, h1, h2⟩
        obtain ⟨v, ws, h3, ⟨h4, h5⟩, h6⟩ := items_cons.mp h2
        exact ⟨w, h1, v, ws, h3, h5, h4, h6⟩
    | plus =>
      simp only [reRun, List.any_eq_true, List.mem_reverse, List.mem_range]
      constructor
      · rintro ⟨j, hj, hr⟩
        obtain ⟨w, h1, v, ws, h2, h3, h4, h5⟩ := (key (j + 1)).mpr ⟨by simp only; omega, hr⟩
        exact ⟨w, h1, items_cons.mpr ⟨v, ws, h2, ⟨h4, by simp only; omega⟩, h5⟩⟩
      · rintro ⟨w, h1, h2⟩
        obtain ⟨v, ws, h3, ⟨h4, h5⟩, h6⟩ := items_cons.mp h2
        simp only at h5
        obtain ⟨j, hj⟩ : ∃ j, v.length = j + 1 := ⟨v.length - 1, by omega⟩
        obtain ⟨a, b⟩ := (key (j + 1)).mp ⟨w, h1, v, ws, h3, hj, h4, h6⟩
        exact ⟨j, by simp only at a; omega, b⟩

end OsUrl
