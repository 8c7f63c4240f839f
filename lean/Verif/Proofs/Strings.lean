import Verif.Model.Py

/-! Lemmas about `join`, `splitChar`, `find`, decimal numerals. -/

namespace OsUrl

/-! ### join / split -/

theorem splitChar_ne_nil (c : Char) (s : Str) : splitChar c s ≠ [] := by
  induction s with
  | nil => simp [splitChar]
  | cons x xs ih =>
    simp only [splitChar]; split
    · simp
    · split <;> simp

theorem join_splitChar (c : Char) (s : Str) : join [c] (splitChar c s) = s := by
  induction s with
  | nil => rfl
  | cons x xs ih =>
    simp only [splitChar]
    split
    · rename_i h; subst h
      cases hs : splitChar x xs with
      | nil => exact absurd hs (splitChar_ne_nil _ _)
      | cons p ps => rw [hs] at ih; simp [join, ih]
    · cases hs : splitChar c xs with
      | nil => exact absurd hs (splitChar_ne_nil _ _)
      | cons p ps =>
        cases ps with
        | nil => rw [hs] at ih; simpa [join] using ih
        | cons q qs => rw [hs] at ih; simpa [join] using ih

theorem not_mem_of_mem_splitChar {c : Char} {s p : Str} (h : p ∈ splitChar c s) : c ∉ p := by
  induction s generalizing p with
  | nil => simp [splitChar] at h; simp [h]
  | cons x xs ih =>
    simp only [splitChar] at h
    split at h
    · rcases List.mem_cons.mp h with rfl | h
      · simp
      · exact ih h
    · cases hs : splitChar c xs with
      | nil => exact absurd hs (splitChar_ne_nil _ _)
      | cons q qs =>
        simp only [hs] at h ih
        rcases List.mem_cons.mp h with rfl | h
        · have := ih (p := q) (by simp)
          simp; grind
        · exact ih (by simp [h])

theorem splitChar_of_not_mem {c : Char} {s : Str} (h : c ∉ s) : splitChar c s = [s] := by
  induction s with
  | nil => rfl
  | cons x xs ih =>
    simp at h
    simp only [splitChar]
    rw [if_neg (by grind), ih h.2]

theorem splitChar_append {c : Char} {a b : Str} (h : c ∉ a) :
    splitChar c (a ++ c :: b) = a :: splitChar c b := by
  induction a with
  | nil => simp [splitChar]
  | cons x xs ih =>
    simp at h
    simp only [List.cons_append, splitChar]
    rw [if_neg (by grind), ih h.2]

theorem splitChar_join {c : Char} {ps : List Str} (hne : ps ≠ []) (h : ∀ p ∈ ps, c ∉ p) :
    splitChar c (join [c] ps) = ps := by
  induction ps with
  | nil => exact absurd rfl hne
  | cons p ps ih =>
    cases ps with
    | nil => simp [join, splitChar_of_not_mem (h p (by simp))]
    | cons q qs =>
      simp only [join, List.append_assoc, List.singleton_append]
      rw [splitChar_append (h p (by simp)), ih (by simp) (fun r hr => h r (by simp [hr]))]

theorem join_cons_ne {sep x : Str} {xs : List Str} (h : xs ≠ []) :
    join sep (x :: xs) = x ++ sep ++ join sep xs := by
  cases xs with
  | nil => exact absurd rfl h
  | cons => rfl

theorem join_append {sep : Str} {xs ys : List Str} (hx : xs ≠ []) (hy : ys ≠ []) :
    join sep (xs ++ ys) = join sep xs ++ sep ++ join sep ys := by
  induction xs with
  | nil => exact absurd rfl hx
  | cons x xs ih =>
    by_cases h : xs = []
    · subst h; simp [join, join_cons_ne hy]
    · rw [List.cons_append, join_cons_ne (by simp [h]), join_cons_ne h, ih h]; simp

theorem mem_join {sep : Str} {xs : List Str} {c : Char} (h : c ∈ join sep xs) :
    c ∈ sep ∨ ∃ x ∈ xs, c ∈ x := by
  induction xs with
  | nil => simp [join] at h
  | cons x xs ih =>
    by_cases hx : xs = []
    · subst hx; simp [join] at h; exact Or.inr ⟨x, by simp, h⟩
    · rw [join_cons_ne hx] at h
      simp only [List.mem_append] at h
      rcases h with (h | h) | h
      · exact Or.inr ⟨x, by simp, h⟩
      · exact Or.inl h
      · rcases ih h with h | ⟨y, hy, hc⟩
        · exact Or.inl h
        · exact Or.inr ⟨y, by simp [hy], hc⟩

theorem hasChar_iff {c : Char} {s : Str} : hasChar c s = true ↔ c ∈ s := by simp [hasChar]

theorem hasChar_eq {c : Char} {s : Str} : hasChar c s = decide (c ∈ s) := by
  by_cases h : c ∈ s
  · simp [h, hasChar_iff.mpr h]
  · simp only [h, decide_false]
    cases hh : hasChar c s with
    | false => rfl
    | true => exact absurd (hasChar_iff.mp hh) h

/-! ### find -/

theorem findChar_none {c : Char} {s : Str} : findChar c s = none ↔ c ∉ s := by
  induction s with
  | nil => simp [findChar]
  | cons x xs ih =>
    simp only [findChar]
    split
    · rename_i h; simp [h]
    · rename_i h; simp [ih]; grind

theorem findChar_append_cons {c : Char} {a b : Str} (h : c ∉ a) :
    findChar c (a ++ c :: b) = some a.length := by
  induction a with
  | nil => simp [findChar]
  | cons x xs ih =>
    simp at h
    simp only [List.cons_append, findChar]
    rw [if_neg (by grind), ih h.2]; rfl

theorem findChar_some {c : Char} {s : Str} {i : Nat} (h : findChar c s = some i) :
    ∃ a b, s = a ++ c :: b ∧ c ∉ a ∧ a.length = i := by
  induction s generalizing i with
  | nil => simp [findChar] at h
  | cons x xs ih =>
    simp only [findChar] at h
    split at h
    · rename_i hx
      refine ⟨[], xs, ?_, by simp, ?_⟩
      · simp [hx]
      · simpa using h
    · rename_i hx
      cases hf : findChar c xs with
      | none => simp [hf] at h
      | some j =>
        simp [hf] at h
        obtain ⟨a, b, h1, h2, h3⟩ := ih hf
        refine ⟨x :: a, b, by simp [h1], ?_, by simp [h3, h]⟩
        simp; exact ⟨fun e => hx e.symm, h2⟩

theorem rfindChar_none {c : Char} {s : Str} : rfindChar c s = none ↔ c ∉ s := by
  induction s with
  | nil => simp [rfindChar]
  | cons x xs ih =>
    simp only [rfindChar]
    cases hf : rfindChar c xs with
    | none =>
      have := ih.mp hf
      simp only
      split
      · rename_i h; simp [h]
      · rename_i h; simp [this]; grind
    | some i =>
      simp only [List.mem_cons]
      have : ¬ c ∉ xs := fun hn => by rw [ih.mpr hn] at hf; cases hf
      simp at this
      simp [this]

theorem rfindChar_append_cons {c : Char} {a b : Str} (h : c ∉ b) :
    rfindChar c (a ++ c :: b) = some a.length := by
  induction a with
  | nil => simp [rfindChar, rfindChar_none.mpr h]
  | cons x xs ih => simp [rfindChar, ih]

theorem find_append {sub a b : Str} (hsub : sub ≠ [])
    (h : ∀ i, i < a.length → sub.isPrefixOf ((a ++ sub ++ b).drop i) = false) :
    find sub (a ++ sub ++ b) = some a.length := by
  induction a with
  | nil =>
    cases sub with
    | nil => exact absurd rfl hsub
    | cons x xs =>
      have : (x :: xs).isPrefixOf (x :: xs ++ b) = true := by
        rw [List.isPrefixOf_iff_prefix]; exact List.prefix_append _ _
      simp only [List.nil_append, List.cons_append, find]
      simp only [List.cons_append] at this
      simp [this]
  | cons x xs ih =>
    have h0 := h 0 (by simp)
    simp only [List.drop_zero, List.cons_append] at h0
    simp only [List.cons_append, find]
    rw [h0, ih]
    · simp
    · intro i hi
      have := h (i + 1) (by simp; omega)
      simpa using this

theorem find_none_of {sub s : Str} (hsub : sub ≠ [])
    (h : ∀ i, sub.isPrefixOf (s.drop i) = false) : find sub s = none := by
  induction s with
  | nil => simp [find, hsub]
  | cons x xs ih =>
    have h0 := h 0
    simp only [List.drop_zero] at h0
    simp only [find, h0]
    rw [ih]
    · simp
    · intro i; simpa using h (i + 1)

/-! ### decimal numerals -/

theorem digitChar_toNat {n : Nat} (h : n < 10) : (digitChar n).toNat = 48 + n := by
  have : n = 0 ∨ n = 1 ∨ n = 2 ∨ n = 3 ∨ n = 4 ∨ n = 5 ∨ n = 6 ∨ n = 7 ∨ n = 8 ∨ n = 9 := by omega
  rcases this with h | h | h | h | h | h | h | h | h | h <;> subst h <;> rfl

theorem isDigitC_digitChar {n : Nat} (h : n < 10) : isDigitC (digitChar n) = true := by
  simp [isDigitC, digitChar_toNat h]; omega

theorem natStrAux_digits {fuel n : Nat} : ∀ c ∈ natStrAux fuel n, isDigitC c = true := by
  induction fuel generalizing n with
  | zero => simp [natStrAux]
  | succ f ih =>
    intro c hc
    simp only [natStrAux] at hc
    split at hc
    · rename_i h; simp at hc; subst hc; exact isDigitC_digitChar h
    · simp at hc
      rcases hc with hc | hc
      · exact ih c hc
      · subst hc; exact isDigitC_digitChar (by omega)

theorem natStr_digits {n : Nat} : ∀ c ∈ natStr n, isDigitC c = true := natStrAux_digits

theorem natStr_ne_nil (n : Nat) : natStr n ≠ [] := by
  simp only [natStr, natStrAux]; split <;> simp

theorem strNatAux_nil (a : Nat) : strNatAux a [] = a := by with_unfolding_all rfl

theorem strNatAux_step (a : Nat) (c : Char) (cs : Str) :
    strNatAux a (c :: cs) = strNatAux (a * 10 + digitVal c) cs := by with_unfolding_all rfl

theorem uniZero_ascii {c : Char} (h : isDigitC c = true) : uniZero? c = some 48 := by
  simp only [isDigitC, Bool.and_eq_true, decide_eq_true_eq] at h
  unfold uniZero? uniZeros
  have : (decide (48 ≤ c.toNat) && decide (c.toNat < 48 + 10)) = true := by
    simp only [Bool.and_eq_true, decide_eq_true_eq]; omega
  rw [List.find?_cons, this]

theorem isDecimalC_ascii {c : Char} (h : isDigitC c = true) : isDecimalC c = true := by
  unfold isDecimalC; rw [uniZero_ascii h]; rfl

theorem isUniDigitC_ascii {c : Char} (h : isDigitC c = true) : isUniDigitC c = true := by
  unfold isUniDigitC; rw [isDecimalC_ascii h]; rfl

theorem digitVal_ascii {c : Char} (h : isDigitC c = true) : digitVal c = c.toNat - 48 := by
  unfold digitVal; rw [uniZero_ascii h]; rfl

/-- Below the code point 128 the digits are those of ASCII. -/
theorem ascii_isDigitC {c : Char} (h : isUniDigitC c = true) (hc : c.toNat < 128) : isDigitC c = true := by
  have key : ∀ n : Fin 128, isUniDigitC (Char.ofNat n.1) = true → isDigitC (Char.ofNat n.1) = true := by
    decide +kernel
  have := key ⟨c.toNat, hc⟩
  simp only [Char.ofNat_toNat] at this
  exact this h

theorem decimal_isUniDigitC {c : Char} (h : isDecimalC c = true) : isUniDigitC c = true := by
  unfold isUniDigitC; rw [h]; rfl

theorem strNatAux_cons (a : Nat) (c : Char) (cs : Str) (h : isDigitC c = true) :
    strNatAux a (c :: cs) = strNatAux (a * 10 + (c.toNat - 48)) cs := by
  rw [strNatAux_step, digitVal_ascii h]

theorem strNatAux_append (a : Nat) (s t : Str) : strNatAux a (s ++ t) = strNatAux (strNatAux a s) t := by
  induction s generalizing a with
  | nil => rfl
  | cons c cs ih => rw [List.cons_append, strNatAux_step, strNatAux_step, ih]

theorem strNat_natStrAux {fuel n : Nat} (h : n < fuel) : strNatAux 0 (natStrAux fuel n) = n := by
  induction fuel generalizing n with
  | zero => omega
  | succ f ih =>
    simp only [natStrAux]
    split
    · rename_i hn; rw [strNatAux_cons _ _ _ (isDigitC_digitChar hn), strNatAux_nil, digitChar_toNat hn]; omega
    · rename_i hn
      rw [strNatAux_append, ih (by omega)]
      rw [strNatAux_cons _ _ _ (isDigitC_digitChar (Nat.mod_lt n (by decide : 10 > 0))), strNatAux_nil, digitChar_toNat (Nat.mod_lt n (by decide : 10 > 0))]
      omega

theorem strNat_natStr (n : Nat) : strNatAux 0 (natStr n) = n := strNat_natStrAux (by omega)

theorem isDigitStr_natStr (n : Nat) : isDigitStr (natStr n) = true := by
  simp only [isDigitStr, Bool.and_eq_true, Bool.not_eq_true', List.all_eq_true]
  refine ⟨?_, fun c hc => isUniDigitC_ascii (natStr_digits c hc)⟩
  have := natStr_ne_nil n
  cases h : natStr n with
  | nil => exact absurd h this
  | cons => rfl

theorem isDecimalStr_natStr (n : Nat) : isDecimalStr (natStr n) = true := by
  simp only [isDecimalStr, Bool.and_eq_true, Bool.not_eq_true', List.all_eq_true]
  refine ⟨?_, fun c hc => isDecimalC_ascii (natStr_digits c hc)⟩
  have := natStr_ne_nil n
  cases h : natStr n with
  | nil => exact absurd h this
  | cons => rfl

theorem pyInt_natStr (n : Nat) : pyInt (natStr n) = .ok n := by
  simp [pyInt, isDecimalStr_natStr, strNat_natStr]

theorem natStr_inj {m n : Nat} (h : natStr m = natStr n) : m = n := by
  rw [← strNat_natStr m, h, strNat_natStr]

end OsUrl
