import Verif.Model.ParseUtils
import Verif.Proofs.Strings

namespace OsUrl

theorem filterUseless_eq {xs : List Str} (h : xs ≠ []) :
    filterUseless xs = xs.filter (fun s => decide (s ≠ [])) ++ (if xs.getLast? = some [] then [[]] else []) := by
  induction xs with
  | nil => exact absurd rfl h
  | cons x xs ih =>
    cases xs with
    | nil => by_cases hx : x = [] <;> simp [filterUseless, hx]
    | cons y ys =>
      rw [filterUseless, List.getLast?_cons_cons, List.filter_cons, ih (by simp)]
      by_cases hx : x = [] <;> simp [hx]

theorem splitChar_length (c : Char) (s : Str) : (splitChar c s).length = s.count c + 1 := by
  induction s with
  | nil => rfl
  | cons x xs ih =>
    simp only [splitChar]
    split
    · rename_i h; simp [h, ih]
    · rename_i h
      cases hs : splitChar c xs with
      | nil => exact absurd hs (splitChar_ne_nil _ _)
      | cons p ps =>
        rw [hs] at ih
        simp only [List.length_cons, List.count_cons]
        rw [if_neg (by simpa using h)]
        simpa using ih

theorem splitChar_drop_nil {c : Char} {s : Str} : (splitChar c s).drop 1 = [] ↔ c ∉ s := by
  rw [← List.length_eq_zero_iff, List.length_drop, splitChar_length]
  rw [← List.count_eq_zero (a := c)]; omega

theorem splitChar_getLast {c : Char} {s : Str} :
    ((splitChar c s).drop 1).getLast? = some [] ↔ s.getLast? = some c := by
  induction s with
  | nil => simp [splitChar]
  | cons x xs ih =>
    simp only [splitChar]
    split
    · rename_i hx
      cases xs with
      | nil => simp [splitChar, hx]
      | cons y ys =>
        rw [List.getLast?_cons_cons, List.drop_one, List.tail_cons]
        cases hs : splitChar c (y :: ys) with
        | nil => exact absurd hs (splitChar_ne_nil _ _)
        | cons p ps =>
          rw [hs] at ih
          cases ps with
          | nil =>
            have hnc : c ∉ y :: ys := splitChar_drop_nil.mp (by simp [hs])
            have hp : p = y :: ys := by
              have := join_splitChar c (y :: ys); rw [hs] at this; simpa [join] using this
            simp [hp]
            intro h; exact hnc (List.mem_of_getLast? h)
          | cons q qs => rw [← ih]; simp
    · rename_i hx
      cases xs with
      | nil => simp [splitChar, hx]
      | cons y ys =>
        rw [List.getLast?_cons_cons]
        cases hs : splitChar c (y :: ys) with
        | nil => exact absurd hs (splitChar_ne_nil _ _)
        | cons p ps => rw [hs] at ih; simpa using ih

/-- The path pieces, closed form. -/
theorem pathPieces_eq {path : Str} (h : '/' ∈ path) :
    filterUseless ((splitChar '/' path).drop 1) =
      ((splitChar '/' path).drop 1).filter (fun s => decide (s ≠ [])) ++
        (if path.getLast? = some '/' then [[]] else []) := by
  rw [filterUseless_eq (fun hn => splitChar_drop_nil.mp hn h)]
  congr 1
  by_cases hl : path.getLast? = some '/'
  · rw [if_pos hl, if_pos (splitChar_getLast.mpr hl)]
  · rw [if_neg hl, if_neg (fun hh => hl (splitChar_getLast.mp hh))]

end OsUrl
