import Verif.Spec.Digits
import Verif.Props.C16
import Verif.Props.C09
import Verif.Proofs.MLoad
import Verif.Proofs.ReCat
import Verif.Proofs.GenText
import Verif.Props.C01
import Verif.Props.C05

/-!
# C66: the digits of quantifiers and the exceptions of `load`

A number in braces may be written in the decimal digits of any script.  A digit that is not decimal, such as `²`, is the only way to make
`PatternMatcher.load` of a text that begins with `/` raise anything but `InvalidPatternException` and `IrregularURLException`.
-/

namespace OsUrl
open Spec

theorem zeros_eq : uniZeros = zeros.map Char.toNat := by decide +kernel

theorem zeros_apart : ∀ z ∈ uniZeros, ∀ d : Fin 10, uniZeros.find? (fun z' => decide (z' ≤ z + d.1) && decide (z + d.1 < z' + 10)) = some z := by
  decide +kernel

/-- The decimal digits of the model are those of the specification, with the same values. -/
theorem decimal_iff {c : Char} {v : Nat} : IsDecimal c v ↔ isDecimalC c = true ∧ digitVal c = v := by
  constructor
  · rintro ⟨z, hz, hv, hc⟩
    have hz : z.toNat ∈ uniZeros := by rw [zeros_eq]; exact List.mem_map.mpr ⟨z, hz, rfl⟩
    have h := zeros_apart _ hz ⟨v, hv⟩
    simp only at h
    rw [← hc] at h
    unfold isDecimalC digitVal
    have h' : uniZero? c = some z.toNat := h
    rw [h']
    exact ⟨rfl, by simp only [Option.getD_some]; omega⟩
  · rintro ⟨h1, h2⟩
    unfold isDecimalC at h1
    unfold digitVal at h2
    cases h : uniZero? c with
    | none => rw [h] at h1; cases h1
    | some z =>
      rw [h] at h2
      unfold uniZero? at h
      have hz := List.mem_of_find?_eq_some h
      have hr := List.find?_some h
      simp only [Bool.and_eq_true, decide_eq_true_eq] at hr
      rw [zeros_eq] at hz
      obtain ⟨z', hz', rfl⟩ := List.mem_map.mp hz
      simp only [Option.getD_some] at h2
      exact ⟨z', hz', by omega, by omega⟩

theorem odd_eq : (uniDigitRanges.flatMap (fun r => List.range' r.1 (r.2 + 1 - r.1))).map Char.ofNat = oddDigits := by decide +kernel

theorem odd_nd : ∀ c ∈ oddDigits, isDecimalC c = false ∧ uniDigitRanges.any (fun r => decide (r.1 ≤ c.toNat) && decide (c.toNat ≤ r.2)) = true := by
  decide +kernel

theorem odd_iff {c : Char} : c ∈ oddDigits ↔ isUniDigitC c = true ∧ isDecimalC c = false := by
  constructor
  · intro h
    obtain ⟨h1, h2⟩ := odd_nd c h
    refine ⟨?_, h1⟩
    unfold isUniDigitC
    rw [h2, Bool.or_true]
  · rintro ⟨h1, h2⟩
    unfold isUniDigitC at h1
    rw [h2, Bool.false_or, List.any_eq_true] at h1
    obtain ⟨r, hr, h⟩ := h1
    simp only [Bool.and_eq_true, decide_eq_true_eq] at h
    rw [← odd_eq]
    refine List.mem_map.mpr ⟨c.toNat, List.mem_flatMap.mpr ⟨r, hr, ?_⟩, Char.ofNat_toNat c⟩
    rw [List.mem_range'_1]
    omega

/-- **C66**: the digits of `str.isdigit` are the decimal digits of the scripts, whose values `int` uses, and the odd ones. -/
theorem C66_digits (c : Char) : (isUniDigitC c = true ↔ (∃ v, IsDecimal c v) ∨ c ∈ oddDigits) ∧
    (∀ v, IsDecimal c v → c ∉ oddDigits ∧ pyInt [c] = .ok v) := by
  refine ⟨⟨?_, ?_⟩, ?_⟩
  · intro h
    cases hd : isDecimalC c with
    | true => exact .inl ⟨_, decimal_iff.mpr ⟨hd, rfl⟩⟩
    | false => exact .inr (odd_iff.mpr ⟨h, hd⟩)
  · rintro (⟨v, h⟩ | h)
    · exact decimal_isUniDigitC (decimal_iff.mp h).1
    · exact (odd_iff.mp h).1
  · intro v h
    obtain ⟨h1, h2⟩ := decimal_iff.mp h
    refine ⟨fun ho => ?_, ?_⟩
    · have := (odd_iff.mp ho).2
      rw [h1] at this
      cases this
    · unfold pyInt
      rw [if_pos (isDecimalStr_iff.mpr ⟨by simp, by intro x hx; rw [List.mem_singleton] at hx; rw [hx]; exact h1⟩), strNatAux_step,
        strNatAux_nil, h2, Nat.zero_mul, Nat.zero_add]

theorem script_value {ps : List (Char × Nat)} (h : ∀ p ∈ ps, IsDecimal p.1 p.2) (a : Nat) :
    strNatAux a (ps.map (·.1)) = strNatAux a (ps.map (fun p => asciiDigit p.2)) := by
  induction ps generalizing a with
  | nil => rfl
  | cons p ps ih =>
    have hp := h p (by simp)
    have hv : digitVal (asciiDigit p.2) = p.2 := by
      obtain ⟨z, hz, hv, hc⟩ := hp
      have : ∀ d : Fin 10, digitVal (asciiDigit d.1) = d.1 := by decide
      exact this ⟨p.2, hv⟩
    rw [List.map_cons, List.map_cons, strNatAux_step, strNatAux_step, hv, (decimal_iff.mp hp).2]
    exact ih (fun q hq => h q (by simp [hq])) _

theorem ascii_decimal {v : Nat} (h : v < 10) : isDecimalC (asciiDigit v) = true := by
  have : ∀ d : Fin 10, isDecimalC (asciiDigit d.1) = true := by decide
  exact this ⟨v, h⟩

theorem parseUnit_braces {body ds : Str} (h : isDigitStr ds = true) :
    parsePatternUnitString ('[' :: body ++ ']' :: ('{' :: ds ++ ['}'])) = (do
      let n ← pyInt ds
      let rs ← unitRules body.length body
      if ((n : Int) > 0 ∧ ((sortedSet rs).length : Int) > n) ∨ (n : Int) = 0 then .error .invalidPattern else pure (sortedSet rs, (n : Int))) := by
  have e1 : rfindChar ']' ('[' :: body ++ ']' :: ('{' :: ds ++ ['}'])) = some ('[' :: body).length :=
    rfindChar_append_cons (QShape.braces ds h).no_bracket
  have e2 : List.drop 1 (List.take ('[' :: body).length ('[' :: body ++ ']' :: ('{' :: ds ++ ['}']))) = body := by
    rw [List.take_left]; rfl
  have e3 := unitNum_braces (body := body) h
  simp only [List.cons_append] at e1 e2 e3 ⊢
  unfold parsePatternUnitString
  simp only [ne_eq, not_true_eq_false, if_false, e3, e1, e2, bind, Except.bind, pure, Except.pure]
  cases pyInt ds with
  | error e => rfl
  | ok n =>
    cases unitRules body.length body <;> rfl

/-- **C66**: the number may be written in the digits of any scripts; the unit is read as the one with ASCII digits. -/
theorem C66_scripts (ps : List (Char × Nat)) (hne : ps ≠ []) (h : ∀ p ∈ ps, IsDecimal p.1 p.2) (body : Str) :
    parsePatternUnitString ('[' :: body ++ ']' :: ('{' :: ps.map (·.1) ++ ['}'])) =
      parsePatternUnitString ('[' :: body ++ ']' :: ('{' :: ps.map (fun p => asciiDigit p.2) ++ ['}'])) := by
  have h1 : isDecimalStr (ps.map (·.1)) = true := by
    refine isDecimalStr_iff.mpr ⟨by simpa using hne, ?_⟩
    intro c hc
    obtain ⟨p, hp, rfl⟩ := List.mem_map.mp hc
    exact (decimal_iff.mp (h p hp)).1
  have h2 : isDecimalStr (ps.map (fun p => asciiDigit p.2)) = true := by
    refine isDecimalStr_iff.mpr ⟨by simpa using hne, ?_⟩
    intro c hc
    obtain ⟨p, hp, rfl⟩ := List.mem_map.mp hc
    obtain ⟨z, hz, hv, -⟩ := h p hp
    exact ascii_decimal hv
  rw [parseUnit_braces (decimal_isDigitStr h1), parseUnit_braces (decimal_isDigitStr h2)]
  unfold pyInt
  rw [if_pos h1, if_pos h2, script_value h]

/-- **C66**: a digit that is not decimal is let through by `parse_pattern_string` and makes `int` raise `ValueError`. -/
theorem C66_digit (rs : List Str) (ds : Str) (hr : ∀ r ∈ rs, r ∈ ruleSet) (hb : rs.getLast? ≠ some c!"\\\\")
    (hd : ∀ c ∈ ds, (∃ v, IsDecimal c v) ∨ c ∈ oddDigits) (hn : ∃ c ∈ ds, c ∈ oddDigits) :
    parsePatternString ('[' :: rs.flatten ++ ']' :: ('{' :: ds ++ ['}'])) = .ok ['[' :: rs.flatten ++ ']' :: ('{' :: ds ++ ['}'])] ∧
      patternUnits ('[' :: rs.flatten ++ ']' :: ('{' :: ds ++ ['}'])) = .error .valueError := by
  have hd : isDigitStr ds = true := by
    refine isDigitStr_iff.mpr ⟨?_, fun c hc => (C66_digits c).1.mpr (hd c hc)⟩
    rintro rfl
    obtain ⟨c, hc, -⟩ := hn
    cases hc
  have hbra := braUnit_shape hr hb (QShape.braces ds hd)
  have h1 := parsePatternString_units (us := ['[' :: rs.flatten ++ ']' :: ('{' :: ds ++ ['}'])]) (by simp)
    (by intro u hu; rw [List.mem_singleton] at hu; subst hu; exact .inl hbra) (neighbours_single _)
  rw [List.flatten_cons, List.flatten_nil, List.append_nil] at h1
  refine ⟨h1, ?_⟩
  unfold patternUnits
  rw [h1]
  have h2 : isDecimalStr ds = false := by
    cases h : isDecimalStr ds with
    | false => rfl
    | true =>
      obtain ⟨c, hc, ho⟩ := hn
      have hf := (odd_iff.mp ho).2
      rw [(isDecimalStr_iff.mp h).2 c hc] at hf
      cases hf
  have h3 : pyInt ds = .error .valueError := by unfold pyInt; rw [if_neg (by rw [h2]; decide)]
  have h4 : mkUnit ('[' :: rs.flatten ++ ']' :: ('{' :: ds ++ ['}'])) = .error .valueError := by
    unfold mkUnit
    rw [parseUnit_braces hd, h3]
    rfl
  simp only [bind, Except.bind, List.mapM_cons, List.mapM_nil, h4]

/-! ### exceptions -/

/-- The text has a digit that is not decimal. -/
def OddDigit (s : Str) : Prop := ∃ c ∈ s, isUniDigitC c = true ∧ isDecimalC c = false

theorem mapM_error {α β : Type} {f : α → Py β} {l : List α} {e : PyErr} (h : l.mapM f = .error e) : ∃ a ∈ l, f a = .error e := by
  induction l with
  | nil => cases h
  | cons a l ih =>
    rw [List.mapM_cons] at h
    cases ha : f a with
    | error e' =>
      rw [ha] at h
      simp only [bind, Except.bind, Except.error.injEq] at h
      subst h
      exact ⟨a, by simp, ha⟩
    | ok b =>
      rw [ha] at h
      cases hl : l.mapM f with
      | error e' =>
        rw [hl] at h
        simp only [bind, Except.bind, Except.error.injEq] at h
        subst h
        obtain ⟨x, hx, hf⟩ := ih hl
        exact ⟨x, by simp [hx], hf⟩
      | ok bs =>
        rw [hl] at h
        cases h

theorem unitRules_error {fuel : Nat} {s : Str} {e : PyErr} (hf : s.length ≤ fuel) (h : unitRules fuel s = .error e) : e = .invalidPattern := by
  induction fuel generalizing s with
  | zero =>
    cases s with
    | nil => cases h
    | cons c s => simp at hf
  | succ f ih =>
    cases s with
    | nil => cases h
    | cons c rest =>
      rw [unitRules] at h
      simp only [bind, Except.bind, pure, Except.pure] at h
      have h1 : 1 ≤ (if isAlnumC c = true then 3 else if c = '\\' then 2 else 1) := by
        repeat' split
        all_goals omega
      generalize (if isAlnumC c = true then 3 else if c = '\\' then 2 else 1) = n at h h1
      by_cases hm : List.take n (c :: rest) ∈ ruleSet
      · rw [if_neg (by simpa using hm)] at h
        cases hr : unitRules f (List.drop n (c :: rest)) with
        | error e' =>
          rw [hr] at h
          simp only [Except.error.injEq] at h
          subst h
          refine ih ?_ hr
          simp only [List.length_drop, List.length_cons] at hf ⊢
          omega
        | ok rs => rw [hr] at h; cases h
      · rw [if_pos hm] at h
        cases h
        rfl

theorem patternUnits_error {s : Str} {e : PyErr} (h : patternUnits s = .error e) : e = .invalidPattern ∨ (e = .valueError ∧ OddDigit s) := by
  unfold patternUnits at h
  cases hs : parsePatternString s with
  | error e' =>
    rw [hs] at h
    simp only [bind, Except.bind, Except.error.injEq] at h
    subst h
    exact .inl (C09_errors s _ hs)
  | ok us =>
    rw [hs] at h
    simp only [bind, Except.bind] at h
    obtain ⟨u, hu, hm⟩ := mapM_error h
    have hp : parsePatternUnitString u = .error e := by
      unfold mkUnit at hm
      cases hp : parsePatternUnitString u with
      | error e' =>
        rw [hp] at hm
        simp only [bind, Except.bind, Except.error.injEq] at hm
        rw [hm]
      | ok x => rw [hp] at hm; cases hm
    obtain ⟨hfl, hall⟩ := parsePatternString_ok hs
    have hus : ∀ c ∈ u, c ∈ s := by
      intro c hc
      rw [← hfl]
      exact List.mem_flatten.mpr ⟨u, hu, hc⟩
    rcases hall with ⟨-, rfl⟩ | ⟨-, hall⟩
    · rw [List.mem_singleton] at hu
      subst hu
      cases hp
    · rcases hall u hu with hb | ⟨rule, hd, hne, hc⟩
      · obtain ⟨body, q, rfl, hq⟩ := braUnit_form hb
        have e1 : rfindChar ']' ('[' :: body ++ ']' :: q) = some ('[' :: body).length :=
          rfindChar_append_cons hq.no_bracket
        have e2 : List.drop 1 (List.take ('[' :: body).length ('[' :: body ++ ']' :: q)) = body := by
          rw [List.take_left]; rfl
        unfold parsePatternUnitString at hp
        simp only [List.cons_append] at hp e1 e2
        simp only [ne_eq, not_true_eq_false, if_false, e1, e2] at hp
        cases hn : unitNum ('[' :: (body ++ ']' :: q)) with
        | error e' =>
          rw [hn] at hp
          simp only [bind, Except.bind, Except.error.injEq] at hp
          subst hp
          right
          cases hq with
          | one =>
            have := unitNum_class (body := body) .one
            rw [List.cons_append] at this
            rw [this] at hn; cases hn
          | plus =>
            have := unitNum_class (body := body) .plus
            rw [List.cons_append] at this
            rw [this] at hn; cases hn
          | braces ds hd =>
            have := unitNum_braces (body := body) hd
            simp only [List.cons_append] at this hn
            rw [this] at hn
            unfold pyInt at hn
            by_cases hdec : isDecimalStr ds = true
            · rw [if_pos hdec] at hn; cases hn
            · rw [if_neg hdec] at hn
              cases hn
              refine ⟨rfl, ?_⟩
              obtain ⟨d1, d2⟩ := isDigitStr_iff.mp hd
              apply Classical.byContradiction
              intro hno
              refine hdec (isDecimalStr_iff.mpr ⟨d1, fun c hc => ?_⟩)
              cases hcd : isDecimalC c with
              | true => rfl
              | false => exact absurd ⟨c, hus c (by simp [hc]), d2 c hc, hcd⟩ hno
        | ok n =>
          rw [hn] at hp
          cases hr : unitRules body.length body with
          | error e' =>
            rw [hr] at hp
            simp only [bind, Except.bind, Except.error.injEq] at hp
            subst hp
            exact .inl (unitRules_error (Nat.le_refl _) hr)
          | ok rs =>
            rw [hr] at hp
            simp only [bind, Except.bind, pure, Except.pure] at hp
            split at hp
            · cases hp; exact .inl rfl
            · cases hp
      · obtain ⟨c, t, rfl⟩ : ∃ c t, u = c :: t := by
          cases u with
          | nil => exact absurd rfl hne
          | cons c t => exact ⟨c, t, rfl⟩
        have hr := hc c (by simp)
        have hcb := (alnum_ne_bracket hr hd).1
        unfold parsePatternUnitString at hp
        simp only [ne_eq, hcb, not_false_eq_true, if_true, hr, bind, Except.bind, pure, Except.pure] at hp
        split at hp
        · cases hp; exact .inl rfl
        · cases hp

theorem query_error {q : Option Str} {e : PyErr} (h : parseQueryString q = .error e) : e = .irregularURL := by
  cases q with
  | none => cases h
  | some q =>
    by_cases hq : q = []
    · subst hq; cases h
    · obtain ⟨h1, h2⟩ := C02_rejects q hq _ (items_exist q)
      by_cases hi : [] ∈ splitChar '&' q
      · rw [h1 hi] at h; cases h; rfl
      · obtain ⟨r, hr⟩ := h2 hi
        rw [hr] at h; cases h

theorem unpack_error {path : Str} {q f : Option Str} {k : Bool} {e : PyErr} (h : unpack ⟨some path, q, f⟩ k = .error e) : e = .irregularURL := by
  unfold unpack at h
  simp only at h
  split at h
  · cases h; rfl
  · cases hq : parseQueryString q with
    | error e' =>
      rw [hq] at h
      simp only [bind, Except.bind, Except.error.injEq] at h
      subst h
      exact query_error hq
    | ok r => rw [hq] at h; cases h

theorem find_zero {t s : Str} (h : find t s = some 0) : startsWith t s = true := by
  have := find_some h
  rw [List.drop_zero] at this
  exact this

/-- A text that begins with `/` has a path. -/
theorem pattern_path {s : Str} (hs : startsWith ['/'] s = true) : ∃ path, (parseUrlPatternString s).path = some path := by
  have h0 : ∃ t, s = '/' :: t := by
    cases s with
    | nil => simp [startsWith] at hs
    | cons x s =>
      simp only [startsWith, List.isPrefixOf, Bool.and_true, beq_iff_eq] at hs
      exact ⟨s, by rw [← hs]⟩
  obtain ⟨t, rfl⟩ := h0
  have hf : ∀ f, findChar '#' ('/' :: t) = some f → f > 0 := by
    intro f hf
    cases f with
    | zero =>
      obtain ⟨a, b, e, -, ha⟩ := findChar_some hf
      cases a with
      | nil => simp at e
      | cons x a => simp at ha
    | succ f => omega
  have hq : ∀ q, find singleQuestion ('/' :: t) = some q → q > 0 := by
    intro q hq
    cases q with
    | zero =>
      have := find_zero hq
      simp [startsWith, singleQuestion, List.isPrefixOf] at this
    | succ q => omega
  unfold parseUrlPatternString
  cases h1 : find singleQuestion ('/' :: t) with
  | none =>
    cases h2 : findChar '#' ('/' :: t) with
    | none => exact ⟨_, rfl⟩
    | some f => simp only; rw [if_pos (hf f h2)]; exact ⟨_, rfl⟩
  | some q =>
    cases h2 : findChar '#' ('/' :: t) with
    | none => simp only; rw [if_pos (hq q h1)]; exact ⟨_, rfl⟩
    | some f =>
      simp only
      rw [if_pos ⟨hq q h1, hf f h2⟩]
      split <;> exact ⟨_, rfl⟩

theorem filterUseless_mem {xs : List Str} {t : Str} (h : t ∈ filterUseless xs) : t ∈ xs := by
  induction xs with
  | nil => exact h
  | cons x xs ih =>
    cases xs with
    | nil => exact h
    | cons y ys =>
      rw [filterUseless] at h
      split at h
      · exact List.mem_cons_of_mem _ (ih h)
      · rcases List.mem_cons.mp h with rfl | h
        · simp
        · exact List.mem_cons_of_mem _ (ih h)

/-- The characters of the pieces are those of the parts. -/
theorem unpack_chars {path : Str} {q f : Option Str} {k : Bool} {m : URLMeta} {strs : List Str} (h : unpack ⟨some path, q, f⟩ k = .ok (m, strs))
    {t : Str} (ht : t ∈ strs) {c : Char} (hc : c ∈ t) : c ∈ path ∨ (∃ x, q = some x ∧ c ∈ x) ∨ (∃ x, f = some x ∧ c ∈ x) := by
  unfold unpack at h
  simp only at h
  split at h
  · cases h
  · obtain ⟨⟨keys, vals⟩, hq, h⟩ := bind_ok h
    cases h
    rw [List.mem_append, List.mem_append] at ht
    rcases ht with (ht | ht) | ht
    · have := filterUseless_mem ht
      exact .inl ((mem_splitChar (List.mem_of_mem_drop this)).1 c hc)
    · refine .inr (.inl ?_)
      obtain ⟨h1, h2, h3⟩ := query_parts hq
      cases q with
      | none =>
        have := h2.mpr rfl
        subst this
        have : vals = [] := List.length_eq_zero_iff.mp h1.symm
        subst this
        cases ht
      | some x =>
        refine ⟨x, rfl, ?_⟩
        rw [← h3 x rfl]
        obtain ⟨i, hi, rfl⟩ := List.getElem_of_mem ht
        simp only at hi hc
        refine join_mem (t := keys[i]'(by omega) ++ vals[i]) ?_ (by simp [hc])
        refine List.mem_map.mpr ⟨(keys[i]'(by omega), vals[i]), ?_, rfl⟩
        have : (keys.zip vals)[i]'(by rw [List.length_zip]; omega) = (keys[i]'(by omega), vals[i]) := List.getElem_zip
        rw [← this]
        exact List.getElem_mem _
    · cases f with
      | none => cases ht
      | some x =>
        rw [Option.toList_some, List.mem_singleton] at ht
        subst ht
        exact .inr (.inr ⟨_, rfl, hc⟩)

/-- The characters of the parts of a pattern are those of the pattern. -/
theorem pattern_chars (s : Str) : ∀ c, (∃ x, (parseUrlPatternString s).path = some x ∧ c ∈ x) ∨
    (∃ x, (parseUrlPatternString s).query = some x ∧ c ∈ x) ∨ (∃ x, (parseUrlPatternString s).fragment = some x ∧ c ∈ x) → c ∈ s := by
  intro c h
  have h1 : ∀ n, c ∈ s.take n → c ∈ s := fun n hn => List.mem_of_mem_take hn
  have h2 : ∀ n, c ∈ s.drop n → c ∈ s := fun n hn => List.mem_of_mem_drop hn
  have h3 : ∀ n k, c ∈ (s.take n).drop k → c ∈ s := fun n k hn => h1 n (List.mem_of_mem_drop hn)
  unfold parseUrlPatternString at h
  cases hq : find singleQuestion s <;> cases hf : findChar '#' s <;> rw [hq, hf] at h <;> simp only at h
  · simpa using h
  all_goals
    repeat' split at h
    all_goals
      rcases h with ⟨x, e, hx⟩ | ⟨x, e, hx⟩ | ⟨x, e, hx⟩ <;> cases e <;>
        first
        | exact h1 _ hx
        | exact h2 _ hx
        | exact h3 _ _ hx

/-- **C66**: what `PatternMatcher.load` of a pattern may raise, whatever was loaded before. -/
theorem C66_pattern (md5 : Str → Str) (st : PatternMatcherSt) (s : Str) (md : Option Str) (e : PyErr)
    (hs : startsWith ['/'] s = true) (h : st.load md5 s md = .error e) :
    e = .invalidPattern ∨ e = .irregularURL ∨ (e = .valueError ∧ ∃ c ∈ s, c ∈ oddDigits) := by
  have hp : parse s = .error e := by
    cases hp : parse s with
    | error e' =>
      unfold PatternMatcherSt.load at h
      rw [hp] at h
      simp only [bind, Except.bind, Except.error.injEq] at h
      rw [h]
    | ok r =>
      obtain ⟨m, x⟩ := r
      have hx : ∃ ps, x = .patterns ps := by
        unfold parse at hp
        rw [if_pos hs] at hp
        obtain ⟨⟨m', strs⟩, -, hp⟩ := bind_ok hp
        obtain ⟨ps, -, hp⟩ := bind_ok hp
        cases hp
        exact ⟨_, rfl⟩
      obtain ⟨ps, rfl⟩ := hx
      obtain ⟨r, hr⟩ := mload_total md5 st md hp
      rw [hr] at h
      cases h
  unfold parse at hp
  rw [if_pos hs] at hp
  obtain ⟨path, hpath⟩ := pattern_path hs
  have hpq : parseUrlPatternString s = ⟨some path, (parseUrlPatternString s).query, (parseUrlPatternString s).fragment⟩ := by
    rw [← hpath]
  cases ha : analyzeUrlPatternString s with
  | error e' =>
    rw [ha] at hp
    simp only [bind, Except.bind, Except.error.injEq] at hp
    subst hp
    unfold analyzeUrlPatternString at ha
    rw [hpq] at ha
    exact .inr (.inl (unpack_error ha))
  | ok r =>
    obtain ⟨m, strs⟩ := r
    rw [ha] at hp
    simp only [bind, Except.bind] at hp
    cases hm : (strs.zipIdx 1).mapM (fun (x : Str × Nat) => mkMatchPattern x.1 (x.2 == m.pathDepth)) with
    | ok ps => rw [hm] at hp; cases hp
    | error e' =>
      rw [hm] at hp
      simp only [Except.error.injEq] at hp
      subst hp
      obtain ⟨⟨t, i⟩, ht, hm⟩ := mapM_error hm
      have ht : t ∈ strs := List.fst_mem_of_mem_zipIdx ht
      have hu : patternUnits t = .error e' := by
        unfold mkMatchPattern at hm
        cases hu : patternUnits t with
        | error e2 =>
          rw [hu] at hm
          simp only [bind, Except.bind, Except.error.injEq] at hm
          rw [hm]
        | ok us => rw [hu] at hm; cases hm
      rcases patternUnits_error hu with he | ⟨he, c, hc, hd⟩
      · exact .inl he
      · refine .inr (.inr ⟨he, c, ?_, odd_iff.mpr hd⟩)
        unfold analyzeUrlPatternString at ha
        rw [hpq] at ha
        refine pattern_chars s c ?_
        rw [hpath]
        rcases unpack_chars ha ht hc with h | h | h
        · exact .inl ⟨_, rfl, h⟩
        · exact .inr (.inl h)
        · exact .inr (.inr h)

theorem urlparse_error {s : Str} {e : PyErr} (h : urlparse s = .error e) : e = .valueError := by
  unfold urlparse at h
  simp only at h
  repeat' split at h
  all_goals first
    | (cases h; rfl)
    | cases h

theorem cutChar_sub (c : Char) (s : Str) : (∀ x ∈ (cutChar c s).1, x ∈ s) ∧ (∀ x ∈ (cutChar c s).2, x ∈ s) := by
  rcases (cutChar_spec c s).2 with ⟨-, e⟩ | ⟨-, e⟩
  · refine ⟨fun x hx => ?_, fun x hx => ?_⟩
    · rw [e]; simp [hx]
    · rw [e]; simp [hx]
  · rw [e]; simp

/-- **C66**: what `parse` of a text that does not begin with `/` may raise. -/
theorem C66_url (s : Str) (e : PyErr) (hs : startsWith ['/'] s = false) (h : parse s = .error e) :
    (e = .indexError ∧ (s = [] ∨ s = c!"#")) ∨ (e = .valueError ∧ ('[' ∈ s ∨ ']' ∈ s)) ∨ e = .irregularURL ∨
      (e = .invalidChar ∧ ∃ c ∈ s, ¬ Known c) := by
  unfold parse at h
  rw [if_neg (by rw [hs]; decide)] at h
  cases hu : urlparse s with
  | error e' =>
    have h1 := urlparse_error hu
    have h2 : analyzeUrl s = .error e' := by
      unfold analyzeUrl; rw [C01_urlparse_error s e' hu]; rfl
    rw [h2] at h
    simp only [bind, Except.bind, Except.error.injEq] at h
    subst h
    refine .inr (.inl ⟨h1, ?_⟩)
    apply Classical.byContradiction
    intro hno
    obtain ⟨r, hr⟩ := C01_domain s (fun x => hno (.inl x)) (fun x => hno (.inr x))
    rw [hr] at hu
    cases hu
  | ok r =>
    obtain ⟨pre, rest, e0, hp1, hp2, -, -, w, hw⟩ := urlparse_split hu
    obtain ⟨hf, hq⟩ := urlparse_frag_query hu
    by_cases hne : s = []
    · subst hne
      left
      have : parse [] = .error .indexError := rfl
      unfold parse at this
      rw [if_neg (by decide), h] at this
      cases this
      exact ⟨rfl, .inl rfl⟩
    · by_cases hh : s.head? = some '#'
      · obtain ⟨t, rfl⟩ : ∃ t, s = '#' :: t := by
          cases s with
          | nil => exact absurd rfl hne
          | cons x t => simp only [List.head?_cons, Option.some.injEq] at hh; exact ⟨t, by rw [hh]⟩
        have hpath : r.path = [] := by
          have hpre : pre = [] := by
            cases pre with
            | nil => rfl
            | cons x pre =>
              rw [List.cons_append, List.cons.injEq] at e0
              exact absurd (List.mem_cons.mpr (.inl e0.1)) hp2
          subst hpre
          rw [List.nil_append] at e0
          subst e0
          have h1 : cutChar '#' ('#' :: t) = ([], t) := cutChar_of_mem (a := []) (by simp)
          rw [h1, cutChar_of_not_mem (by simp)] at hw
          exact (List.append_eq_nil_iff.mp hw.symm).1
        cases t with
        | nil =>
          left
          have : parse c!"#" = .error .indexError := rfl
          unfold parse at this
          rw [if_neg (by decide), h] at this
          cases this
          exact ⟨rfl, .inr rfl⟩
        | cons x t =>
          right; right; left
          have h1 : cutChar '#' ('#' :: x :: t) = ([], x :: t) := cutChar_of_mem (a := []) (by simp)
          rw [h1] at hf hq
          rw [cutChar_of_not_mem (by simp)] at hq
          have hpu : ∃ q f, parseUrl ('#' :: x :: t) = .ok (r, q, f) := by
            obtain ⟨a, y, hay⟩ := exists_concat (s := '#' :: x :: t) (by simp)
            have hi : pyIndex ('#' :: x :: t) ((('#' :: x :: t).length : Int) - r.fragment.length - 2) = .ok y := by
              have e1 : ((('#' :: x :: t).length : Int) - r.fragment.length - 2) = -1 := by
                rw [hf]; simp only [List.length_cons]; omega
              rw [e1, hay]
              exact pyIndex_neg_one
            unfold parseUrl
            simp only [hu, bind, Except.bind, pure, Except.pure]
            rw [if_neg (by rw [hf]; simp), if_pos hq, hi]
            simp only
            split
            · exact ⟨_, _, rfl⟩
            · exact ⟨_, _, rfl⟩
          obtain ⟨q, f, hpu⟩ := hpu
          have ha : analyzeUrl ('#' :: x :: t) = .error .irregularURL := by
            unfold analyzeUrl
            rw [hpu]
            simp only [bind, Except.bind, hpath]
            rfl
          rw [ha] at h
          cases h
          rfl
      · have hpu := parseUrl_eq hu hne hh
        cases ha : analyzeUrl s with
        | error e' =>
          rw [ha] at h
          simp only [bind, Except.bind, Except.error.injEq] at h
          subst h
          unfold analyzeUrl at ha
          rw [hpu] at ha
          simp only [bind, Except.bind] at ha
          exact .inr (.inr (.inl (unpack_error ha)))
        | ok x =>
          obtain ⟨m, strs⟩ := x
          rw [ha] at h
          simp only [bind, Except.bind] at h
          cases hm : strs.mapM parsePiece with
          | ok ps => rw [hm] at h; cases h
          | error e' =>
            rw [hm] at h
            simp only [Except.error.injEq] at h
            subst h
            obtain ⟨t, ht, hm⟩ := mapM_error hm
            have hk : ∃ c ∈ t, ¬ Known c := by
              apply Classical.byContradiction
              intro hno
              obtain ⟨p, hp⟩ := (C05_rejects t).2 (fun c hc => Classical.byContradiction fun hk => hno ⟨c, hc, hk⟩)
              rw [hp] at hm
              cases hm
            have he := (C05_rejects t).1 hk
            rw [hm] at he
            cases he
            refine .inr (.inr (.inr ⟨rfl, ?_⟩))
            obtain ⟨c, hc, hck⟩ := hk
            refine ⟨c, ?_, hck⟩
            unfold analyzeUrl at ha
            rw [hpu] at ha
            simp only [bind, Except.bind] at ha
            rcases unpack_chars ha ht hc with h | ⟨x, h, hx⟩ | ⟨x, h, hx⟩
            · have h1 : c ∈ (cutChar '?' (cutChar '#' rest).1).1 := by rw [hw]; simp [h]
              have h2 := (cutChar_sub _ _).1 c ((cutChar_sub _ _).1 c h1)
              rw [e0]; simp [h2]
            · unfold queryOf at h
              split at h
              · cases h
                exact (cutChar_sub _ _).1 c ((cutChar_sub _ _).2 c hx)
              · cases h
            · unfold fragOf at h
              split at h
              · cases h
                exact (cutChar_sub _ _).2 c hx
              · cases h

/-- **C66**: `PatternMatcher.load` of a text that does not begin with `/` always raises: what `parse` raises or `ValueError`. -/
theorem C66_load_url (md5 : Str → Str) (st : PatternMatcherSt) (s : Str) (md : Option Str) (hs : startsWith ['/'] s = false) :
    (∃ e, parse s = .error e ∧ st.load md5 s md = .error e) ∨ ((∃ r, parse s = .ok r) ∧ st.load md5 s md = .error .valueError) := by
  cases hp : parse s with
  | error e =>
    refine .inl ⟨e, rfl, ?_⟩
    unfold PatternMatcherSt.load
    rw [hp]
    rfl
  | ok r =>
    refine .inr ⟨⟨r, rfl⟩, ?_⟩
    obtain ⟨m, x⟩ := r
    have hx : ∃ ps, x = .pieces ps := by
      unfold parse at hp
      rw [if_neg (by rw [hs]; decide)] at hp
      obtain ⟨⟨m', strs⟩, -, hp⟩ := bind_ok hp
      obtain ⟨ps, -, hp⟩ := bind_ok hp
      cases hp
      exact ⟨_, rfl⟩
    obtain ⟨ps, rfl⟩ := hx
    unfold PatternMatcherSt.load
    rw [hp]
    rfl

/-- The exception, if any. -/
def raisedBy {α : Type} : Py α → Option PyErr
  | .error e => some e
  | .ok _ => none

example : IsDecimal '١' 1 ∧ IsDecimal '２' 2 ∧ parsePatternUnitString c!"[0-9a-z]{١２}" = .ok ([c!"0-9", c!"a-z"], 12) :=
  ⟨⟨'٠', by decide, by decide, by decide⟩, ⟨'０', by decide, by decide, by decide⟩, by decide +kernel⟩
example : raisedBy (PatternMatcherSt.load id [] c!"/[a-z]{²}" none) = some .valueError ∧ '²' ∈ oddDigits := by
  decide +kernel
example : raisedBy (PatternMatcherSt.load id [] c!"/[a-z]{2" none) = some .invalidPattern ∧
    raisedBy (PatternMatcherSt.load id [] c!"/a[\\?]b&&c" none) = some .irregularURL ∧
    raisedBy (PatternMatcherSt.load id [] c!"/a[\\?]b[&]c" none) = none := by
  decide +kernel
example : raisedBy (parse []) = some .indexError ∧ raisedBy (parse c!"http://[x/a") = some .valueError ∧
    raisedBy (parse c!"http://x") = some .irregularURL ∧ raisedBy (parse c!"http://x/é") = some .invalidChar := by decide +kernel
example : raisedBy (PatternMatcherSt.load id [] c!"http://x/a" none) = some .valueError ∧ raisedBy (parse c!"http://x/a") = none := by
  decide +kernel

end OsUrl
