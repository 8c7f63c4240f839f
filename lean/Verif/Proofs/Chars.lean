import Verif.Model.ParseUtils
import Verif.Spec.Chars
import Verif.Proofs.Order
import Verif.Proofs.Strings

/-! The model's character tables against the specification of character spaces. -/

namespace OsUrl
open Spec

theorem isSymbolC_iff {c : Char} : isSymbolC c = true ↔ c ∈ bareSigns := by
  have : symbolChars = bareSigns := by decide
  simp only [isSymbolC, this, List.any_eq_true, beq_iff_eq, exists_eq_right]

theorem isEscapeC_iff {c : Char} : isEscapeC c = true ↔ c ∈ escapedSigns := by
  have : escapeChars = escapedSigns := by decide
  simp only [isEscapeC, this, List.any_eq_true, beq_iff_eq, exists_eq_right]

theorem escaped_not_bare {c : Char} (h : c ∈ escapedSigns) : c ∉ bareSigns := by
  revert h; revert c; decide

theorem bare_not_escaped {c : Char} (h : c ∈ bareSigns) : c ∉ escapedSigns := by
  revert h; revert c; decide

theorem charRule_eq (c : Char) : charRule c = (space? c).map Space.text := by
  unfold charRule space? isLowerC isUpperC isDigitC
  have e1 : 'a'.toNat = 97 := rfl
  have e2 : 'z'.toNat = 122 := rfl
  have e3 : 'A'.toNat = 65 := rfl
  have e4 : 'Z'.toNat = 90 := rfl
  have e5 : '0'.toNat = 48 := rfl
  have e6 : '9'.toNat = 57 := rfl
  simp only [e1, e2, e3, e4, e5, e6, Bool.and_eq_true, decide_eq_true_eq]
  split
  · rfl
  split
  · rfl
  split
  · rfl
  split
  · rename_i h; have := isSymbolC_iff.mp h; simp [this, Space.text]
  split
  · rename_i h
    have := isEscapeC_iff.mp h; simp [this, Space.text, escaped_not_bare this]
  · rename_i h1 h2
    have a : c ∉ bareSigns := fun h => h1 (isSymbolC_iff.mpr h)
    have b : c ∉ escapedSigns := fun h => h2 (isEscapeC_iff.mpr h)
    simp [a, b]

theorem known_iff {c : Char} : Known c ↔ (charRule c).isSome = true := by
  simp [Known, charRule_eq]

theorem isAlnumC_iff {c : Char} :
    isAlnumC c = true ↔ ∃ s, space? c = some s ∧ s.isSign = false := by
  unfold isAlnumC isLowerC isUpperC isDigitC space?
  have e1 : 'a'.toNat = 97 := rfl
  have e2 : 'z'.toNat = 122 := rfl
  have e3 : 'A'.toNat = 65 := rfl
  have e4 : 'Z'.toNat = 90 := rfl
  have e5 : '0'.toNat = 48 := rfl
  have e6 : '9'.toNat = 57 := rfl
  simp only [e1, e2, e3, e4, e5, e6, Bool.and_eq_true, decide_eq_true_eq, Bool.or_eq_true]
  split
  · simp [Space.isSign]; omega
  split
  · simp [Space.isSign]; omega
  split
  · simp [Space.isSign]; omega
  split
  · simp [Space.isSign]; omega
  · simp; omega

theorem signs_space {c : Char} (h : c ∈ bareSigns ∨ c ∈ escapedSigns) : space? c = some (.sign c) := by
  rcases h with h | h
  · revert h; revert c; decide
  · revert h; revert c; decide

theorem space_sign {c d : Char} (h : space? c = some (.sign d)) : c = d := by
  unfold space? at h
  split at h; · cases h
  split at h; · cases h
  split at h; · cases h
  split at h
  · simpa using h
  · cases h

theorem space_valid {c : Char} {s : Space} (h : space? c = some s) : s.Valid := by
  cases s with
  | sign d =>
    have := space_sign h
    subst this
    unfold space? at h
    split at h; · cases h
    split at h; · cases h
    split at h; · cases h
    split at h
    · assumption
    · cases h
  | _ => trivial

theorem exists_char {s : Space} (h : s.Valid) : ∃ c, space? c = some s := by
  cases s with
  | lower => exact ⟨'a', by decide⟩
  | upper => exact ⟨'A', by decide⟩
  | digit => exact ⟨'0', by decide⟩
  | sign c => exact ⟨c, signs_space h⟩

theorem text_inj {s t : Space} (h : s.text = t.text) : s = t := by
  cases s <;> cases t <;> simp only [Space.text] at h <;> try (first | rfl | (exfalso; revert h; decide))
  all_goals first
    | (split at h <;> simp at h; done)
    | skip
  rename_i c d
  split at h <;> split at h <;> simp_all

theorem text_ne_nil (s : Space) : s.text ≠ [] := by
  cases s <;> simp only [Space.text] <;> try simp
  split <;> simp

theorem mem_signRuleSet {r : Str} :
    r ∈ signRuleSet ↔ ∃ c, (Space.sign c).Valid ∧ (Space.sign c).text = r := by
  constructor
  · intro h
    simp only [signRuleSet, List.mem_append, List.mem_map] at h
    rcases h with ⟨c, hc, rfl⟩ | ⟨c, hc, rfl⟩
    · have : c ∈ bareSigns := isSymbolC_iff.mp (by simp [isSymbolC, hc])
      exact ⟨c, Or.inl this, by simp [Space.text, this]⟩
    · have : c ∈ escapedSigns := isEscapeC_iff.mp (by simp [isEscapeC, hc])
      exact ⟨c, Or.inr this, by simp [Space.text, escaped_not_bare this]⟩
  · rintro ⟨c, hc, rfl⟩
    simp only [signRuleSet, List.mem_append, List.mem_map]
    rcases hc with hc | hc
    · left; refine ⟨c, ?_, by simp [Space.text, hc]⟩
      have := isSymbolC_iff.mpr hc; simpa [isSymbolC] using this
    · right; refine ⟨c, ?_, by simp [Space.text, escaped_not_bare hc]⟩
      have := isEscapeC_iff.mpr hc; simpa [isEscapeC] using this

theorem mem_ruleSet {r : Str} : r ∈ ruleSet ↔ ∃ s : Space, s.Valid ∧ s.text = r := by
  have : r ∈ ruleSet ↔ (r = ruleLower ∨ r = ruleUpper ∨ r = ruleDigit) ∨ r ∈ signRuleSet := by
    simp [ruleSet, signRuleSet]; grind
  rw [this, mem_signRuleSet]
  constructor
  · rintro ((rfl | rfl | rfl) | ⟨c, h1, h2⟩)
    · exact ⟨.lower, trivial, rfl⟩
    · exact ⟨.upper, trivial, rfl⟩
    · exact ⟨.digit, trivial, rfl⟩
    · exact ⟨_, h1, h2⟩
  · rintro ⟨s, h1, rfl⟩
    cases s with
    | lower => exact .inl (.inl rfl)
    | upper => exact .inl (.inr (.inl rfl))
    | digit => exact .inl (.inr (.inr rfl))
    | sign c => exact .inr ⟨c, h1, rfl⟩

theorem charRule_mem {c : Char} {r : Str} (h : charRule c = some r) : r ∈ ruleSet := by
  rw [charRule_eq] at h
  cases hs : space? c with
  | none => simp [hs] at h
  | some s => simp [hs] at h; exact mem_ruleSet.mpr ⟨s, space_valid hs, h⟩

theorem charRule_some_iff {c : Char} {r : Str} :
    charRule c = some r ↔ ∃ s, space? c = some s ∧ s.text = r := by
  rw [charRule_eq]; cases space? c <;> simp

theorem text_mem_sign_iff {s : Space} (hv : s.Valid) : s.text ∈ signRuleSet ↔ s.isSign = true := by
  rw [mem_signRuleSet]
  constructor
  · rintro ⟨c, _, h⟩; rw [← text_inj h]; rfl
  · intro h
    cases s with
    | sign c => exact ⟨c, hv, rfl⟩
    | _ => simp [Space.isSign] at h

theorem text_mem_digitAscii_iff {s : Space} : s.text ∈ digitAsciiRuleSet ↔ s.isSign = false := by
  cases s with
  | lower => decide
  | upper => decide
  | digit => decide
  | sign c =>
    simp only [Space.isSign, Space.text, digitAsciiRuleSet, ruleDigit, ruleLower, ruleUpper, ruleAscii]
    split <;> simp

/-! ### splitting a class body into rules -/

theorem text_step {s : Space} (hv : s.Valid) :
    ∃ c w, s.text = c :: w ∧
      s.text.length = (if isAlnumC c then 3 else if c = '\\' then 2 else 1) := by
  cases s with
  | lower => exact ⟨_, _, rfl, by decide⟩
  | upper => exact ⟨_, _, rfl, by decide⟩
  | digit => exact ⟨_, _, rfl, by decide⟩
  | sign c =>
    simp only [Space.text]
    split
    · rename_i h
      refine ⟨_, _, rfl, ?_⟩
      clear hv; revert h; revert c; decide
    · rename_i h
      refine ⟨_, _, rfl, ?_⟩
      have : isAlnumC '\\' = false := by decide
      simp [this]

theorem unitRules_flatten {rs : List Str} (h : ∀ r ∈ rs, r ∈ ruleSet) {fuel : Nat}
    (hf : rs.flatten.length ≤ fuel) : unitRules fuel rs.flatten = .ok rs := by
  induction rs generalizing fuel with
  | nil => cases fuel <;> simp [unitRules]
  | cons r rs ih =>
    obtain ⟨s, hv, hs⟩ := mem_ruleSet.mp (h r (by simp))
    obtain ⟨c, w, hcw, hlen⟩ := text_step hv
    rw [hs] at hcw hlen
    cases fuel with
    | zero => simp [hcw] at hf
    | succ f =>
      have hfl : (r :: rs).flatten = c :: (w ++ rs.flatten) := by simp [hcw]
      rw [hfl]
      simp only [unitRules]
      have hc' : c :: (w ++ rs.flatten) = r ++ rs.flatten := by simp [hcw]
      rw [hc', ← hlen]
      have h1 : (r ++ rs.flatten).take r.length = r := by simp
      have h2 : (r ++ rs.flatten).drop r.length = rs.flatten := by simp
      rw [h1, h2]
      have hr : r ∈ ruleSet := h r (by simp)
      rw [ih (fun x hx => h x (by simp [hx])) (by rw [hfl] at hf; simp at hf ⊢; omega)]
      simp [hr, pure, Except.pure, bind, Except.bind]

theorem flatten_rules_inj {rs ts : List Str} (h1 : ∀ r ∈ rs, r ∈ ruleSet) (h2 : ∀ r ∈ ts, r ∈ ruleSet)
    (h : rs.flatten = ts.flatten) : rs = ts := by
  have a := unitRules_flatten h1 (Nat.le_refl _)
  have b := unitRules_flatten h2 (Nat.le_refl _)
  rw [h] at a
  rw [a] at b
  simpa using b

theorem joinSorted_inj {rs ts : List Str} (h1 : ∀ r ∈ rs, r ∈ ruleSet) (h2 : ∀ r ∈ ts, r ∈ ruleSet) :
    joinSorted rs = joinSorted ts ↔ ∀ r, r ∈ rs ↔ r ∈ ts := by
  constructor
  · intro h
    have := flatten_rules_inj (by simpa using h1) (by simpa using h2) h
    intro r
    rw [← mem_sortedSet (x := r) (xs := rs), this, mem_sortedSet]
  · intro h; simp [joinSorted, sortedSet_congr h]

end OsUrl
