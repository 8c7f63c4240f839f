import Verif.Proofs.Piece

/-! `parse_pattern_unit_string` on bracketed units. -/

namespace OsUrl
open Spec

theorem digit_ne {c : Char} (h : isDigitC c = true) :
    c ≠ '{' ∧ c ≠ '}' ∧ c ≠ ']' ∧ c ≠ '[' ∧ c ≠ '+' ∧ c ≠ '\\' := by
  simp [isDigitC] at h
  refine ⟨?_, ?_, ?_, ?_, ?_, ?_⟩ <;> (rintro rfl; simp at h)

theorem uniDigit_ne {c : Char} (h : isUniDigitC c = true) :
    c ≠ '{' ∧ c ≠ '}' ∧ c ≠ ']' ∧ c ≠ '[' ∧ c ≠ '+' ∧ c ≠ '\\' := by
  refine ⟨?_, ?_, ?_, ?_, ?_, ?_⟩ <;> (rintro rfl; revert h; decide +kernel)

/-- The three quantifier texts, with the number they denote. -/
inductive QText : Str → Int → Prop where
  | one : QText [] 1
  | plus : QText ['+'] (-1)
  | braces (ds : Str) (h : isDecimalStr ds = true) : QText ('{' :: ds ++ ['}']) (strNatAux 0 ds)

/-- The quantifier texts that `parse_pattern_string` lets through. -/
inductive QShape : Str → Prop where
  | one : QShape []
  | plus : QShape ['+']
  | braces (ds : Str) (h : isDigitStr ds = true) : QShape ('{' :: ds ++ ['}'])

theorem isDigitStr_iff {ds : Str} : isDigitStr ds = true ↔ ds ≠ [] ∧ ∀ c ∈ ds, isUniDigitC c = true := by
  cases ds <;> simp [isDigitStr]

theorem isDecimalStr_iff {ds : Str} : isDecimalStr ds = true ↔ ds ≠ [] ∧ ∀ c ∈ ds, isDecimalC c = true := by
  cases ds <;> simp [isDecimalStr]

theorem decimal_isDigitStr {ds : Str} (h : isDecimalStr ds = true) : isDigitStr ds = true := by
  obtain ⟨h1, h2⟩ := isDecimalStr_iff.mp h
  exact isDigitStr_iff.mpr ⟨h1, fun c hc => decimal_isUniDigitC (h2 c hc)⟩

theorem QText.shape {q : Str} {n : Int} (h : QText q n) : QShape q := by
  cases h with
  | one => exact .one
  | plus => exact .plus
  | braces ds h => exact .braces ds (decimal_isDigitStr h)

theorem QShape.no_bracket {q : Str} (h : QShape q) : ']' ∉ q := by
  cases h with
  | one => simp
  | plus => simp
  | braces ds h =>
    have := (isDigitStr_iff.mp h).2
    simp
    intro hc; exact (uniDigit_ne (this _ hc)).2.2.1 rfl

theorem QText.no_bracket {q : Str} {n : Int} (h : QText q n) : ']' ∉ q := h.shape.no_bracket

/-- The number in braces. -/
theorem unitNum_braces {body ds : Str} (h : isDigitStr ds = true) :
    unitNum ('[' :: body ++ ']' :: ('{' :: ds ++ ['}'])) = (pyInt ds).map (fun n => (n : Int)) := by
  have h' := isDigitStr_iff.mp h
  have e : '[' :: body ++ ']' :: ('{' :: ds ++ ['}']) = ('[' :: body ++ [']']) ++ '{' :: (ds ++ ['}']) := by simp
  have e1 : ('[' :: body ++ ']' :: ('{' :: ds ++ ['}'])).getLast? = some '}' := by
    rw [show '[' :: body ++ ']' :: ('{' :: ds ++ ['}']) = ('[' :: body ++ ']' :: '{' :: ds) ++ ['}'] by simp]
    exact List.getLast?_concat
  have e2 : rfindChar '{' ('[' :: body ++ ']' :: ('{' :: ds ++ ['}'])) = some ('[' :: body ++ [']']).length := by
    rw [e]
    apply rfindChar_append_cons
    simp
    intro hc; exact (uniDigit_ne (h'.2 _ hc)).1 rfl
  simp only [unitNum, e1, e2]
  have e3 : List.drop (('[' :: body ++ [']']).length + 1) ('[' :: body ++ ']' :: ('{' :: ds ++ ['}'])) = ds ++ ['}'] := by
    rw [e, ← List.drop_drop, List.drop_left]; rfl
  rw [e3, List.dropLast_concat, if_pos h]
  cases pyInt ds <;> rfl

theorem unitNum_class {body q : Str} {n : Int} (h : QText q n) :
    unitNum ('[' :: body ++ ']' :: q) = .ok n := by
  cases h with
  | one => 
    have : ('[' :: body ++ [']']).getLast? = some ']' := List.getLast?_concat
    simp only [unitNum, this]
  | plus =>
    have : ('[' :: body ++ [']', '+']).getLast? = some '+' := by
      rw [show '[' :: body ++ [']', '+'] = ('[' :: body ++ [']']) ++ ['+'] by simp]
      exact List.getLast?_concat
    simp only [unitNum, this]
  | braces ds h =>
    rw [unitNum_braces (decimal_isDigitStr h)]
    unfold pyInt
    rw [if_pos h]; rfl

/-- A quantifier whose number can be read denotes that number. -/
theorem qtext_of_num {body q : Str} {n : Int} (h : QShape q)
    (hn : unitNum ('[' :: body ++ ']' :: q) = .ok n) : QText q n := by
  cases h with
  | one =>
    rw [unitNum_class .one] at hn
    cases hn; exact .one
  | plus =>
    rw [unitNum_class .plus] at hn
    cases hn; exact .plus
  | braces ds h =>
    rw [unitNum_braces h] at hn
    unfold pyInt at hn
    by_cases hd : isDecimalStr ds = true
    · rw [if_pos hd] at hn
      cases hn
      exact .braces ds hd
    · rw [if_neg hd] at hn
      cases hn

/-- A bracketed unit whose body is a sequence of rules. -/
theorem parseUnit_class {rs : List Str} {q : Str} {n : Int} (hr : ∀ r ∈ rs, r ∈ ruleSet) (hq : QText q n) :
    parsePatternUnitString ('[' :: rs.flatten ++ ']' :: q) =
      if (n > 0 ∧ ((sortedSet rs).length : Int) > n) ∨ n = 0 then .error .invalidPattern
      else .ok (sortedSet rs, n) := by
  have e1 : rfindChar ']' ('[' :: rs.flatten ++ ']' :: q) = some ('[' :: rs.flatten).length :=
    rfindChar_append_cons hq.no_bracket
  have e2 : List.drop 1 (List.take ('[' :: rs.flatten).length ('[' :: rs.flatten ++ ']' :: q)) = rs.flatten := by
    rw [List.take_left]; rfl
  have e3 := unitNum_class (body := rs.flatten) hq
  have e4 := unitRules_flatten hr (Nat.le_refl _)
  simp only [List.cons_append] at e1 e2 e3 ⊢
  unfold parsePatternUnitString
  simp only [ne_eq, not_true_eq_false, if_false, e3, e1, e2, e4, bind, Except.bind, pure, Except.pure]

/-- Length of `sorted(set(..))` of a duplicate free list. -/
theorem length_sortedSet {xs : List Str} (h : xs.Nodup) : (sortedSet xs).length = xs.length := by
  have hs := (ssorted_sortedSet xs).nodup
  have : (sortedSet xs).Perm xs := by
    rw [List.perm_ext_iff_of_nodup hs h]
    simp
  exact this.length_eq

theorem QText.spec {n : Int} (h : n ≠ 0) (rule : Str) :
    ∃ q, specStr rule n = '[' :: rule ++ ']' :: q ∧ QText q (if n < 0 then -1 else n) := by
  unfold specStr
  by_cases h1 : n = 1
  · subst h1; exact ⟨[], by simp, .one⟩
  · rw [if_neg h1]
    by_cases h2 : n < 0
    · simp only [if_pos h2]; exact ⟨['+'], by simp, .plus⟩
    · have h3 : n > 1 := by omega
      simp only [if_neg h2, if_pos h3]
      refine ⟨'{' :: natStr n.toNat ++ ['}'], by simp, ?_⟩
      have := QText.braces (natStr n.toNat) (isDecimalStr_natStr _)
      rw [strNat_natStr] at this
      have e : ((n.toNat : Nat) : Int) = n := by omega
      rwa [e] at this

end OsUrl
