import Verif.Proofs.Stores

/-! The possible forms of a parsed pattern unit. -/

namespace OsUrl
open Spec

/-- The three forms of a unit. -/
inductive UnitForm (u : PatternUnit) : Prop where
  | empty (h : u = ⟨[], [[]], 1⟩)
  | lit (rule : Str) (h : LitUnit rule u.str) (hr : u.rules = [rule]) (hn : u.num = u.str.length)
  | cls (rs : List Str) (q : Str) (hrs : ∀ r ∈ rs, r ∈ ruleSet) (hq : QText q u.num)
      (hs : u.str = '[' :: rs.flatten ++ ']' :: q) (hr : u.rules = sortedSet rs)
      (hn : ¬ ((u.num > 0 ∧ (u.rules.length : Int) > u.num) ∨ u.num = 0))

theorem unitRules_ok {fuel : Nat} {s : Str} {rs : List Str} (h : unitRules fuel s = .ok rs) :
    rs.flatten = s ∧ ∀ r ∈ rs, r ∈ ruleSet := by
  induction fuel generalizing s rs with
  | zero =>
    cases s with
    | nil => simp [unitRules] at h; subst h; simp
    | cons c s => simp [unitRules] at h
  | succ fuel ih =>
    cases s with
    | nil => simp [unitRules] at h; subst h; simp
    | cons c s =>
      simp only [unitRules] at h
      generalize (if isAlnumC c = true then 3 else if c = '\\' then 2 else 1) = n at h
      by_cases hin : (c :: s).take n ∉ ruleSet
      · rw [if_pos hin] at h; cases h
      · rw [if_neg hin] at h
        obtain ⟨rs', h1, h2⟩ := bind_ok h
        simp only [pure, Except.pure, Except.ok.injEq] at h2
        obtain ⟨e1, e2⟩ := ih h1
        subst h2
        simp only [Classical.not_not] at hin
        refine ⟨by rw [List.flatten_cons, e1, List.take_append_drop], ?_⟩
        intro r hr
        simp only [List.mem_cons] at hr
        rcases hr with rfl | hr
        · exact hin
        · exact e2 r hr

theorem closeBracket_last {p : Char} {s b r : Str} (h : closeBracket p s = some (b, r)) : ∃ b', b = b' ++ [']'] := by
  induction s generalizing p b r with
  | nil => simp [closeBracket] at h
  | cons c s ih =>
    simp only [closeBracket] at h
    split at h
    · rename_i hc
      simp at h
      obtain ⟨rfl, rfl⟩ := h
      exact ⟨[], by simp [hc.1]⟩
    · simp at h
      obtain ⟨b', h1, h2⟩ := h
      obtain ⟨b'', rfl⟩ := ih h1
      exact ⟨c :: b'', by rw [← h2]; simp⟩

theorem quantBraces_text {s q r : Str} (h : quantBraces s = .ok (q, r)) : ∃ ds, q = ds ++ ['}'] ∧ isDigitStr ds = true := by
  unfold quantBraces at h
  split at h
  · cases h
  · rename_i e he
    obtain ⟨a, b, rfl, hna, rfl⟩ := findChar_some he
    split at h
    · rename_i hd
      simp only [List.take_left] at hd
      have e1 : (a ++ '}' :: b).take (a.length + 1) = a ++ ['}'] := by
        rw [show a ++ '}' :: b = (a ++ ['}']) ++ b by simp, List.take_left' (by simp)]
      simp only [Except.ok.injEq, Prod.mk.injEq] at h
      rw [e1] at h
      exact ⟨a, h.1.symm, hd⟩
    · cases h

theorem braUnit_form {u : Str} (h : BraUnit u) : ∃ body q, u = '[' :: body ++ ']' :: q ∧ QShape q := by
  obtain ⟨t, rfl, h⟩ := h
  unfold bracketUnit at h
  split at h
  · cases h
  · rename_i body rest hcb
    obtain ⟨b', rfl⟩ := closeBracket_last hcb
    have e := (closeBracket_spec hcb).1
    split at h
    · rename_i rest'
      obtain ⟨⟨q, r2⟩, hq, h⟩ := bind_ok h
      simp only [pure, Except.pure, Except.ok.injEq, Prod.mk.injEq] at h
      obtain ⟨ds, rfl, hd⟩ := quantBraces_text hq
      exact ⟨b', '{' :: ds ++ ['}'], by rw [← h.1]; simp, .braces ds hd⟩
    · rename_i rest'
      simp only [pure, Except.pure, Except.ok.injEq, Prod.mk.injEq] at h
      exact ⟨b', ['+'], by rw [← h.1]; simp, .plus⟩
    · simp only [pure, Except.pure, Except.ok.injEq, Prod.mk.injEq] at h
      exact ⟨b', [], by rw [← h.1]; simp, .one⟩

theorem mkUnit_form {u : PatternUnit} (h : mkUnit u.str = .ok u)
    (hs : u.str = [] ∨ BraUnit u.str ∨ ∃ rule, LitUnit rule u.str) : UnitForm u := by
  unfold mkUnit at h
  obtain ⟨⟨rules, num⟩, h1, h⟩ := bind_ok h
  simp only [pure, Except.pure, Except.ok.injEq] at h
  obtain ⟨str, rules', num'⟩ := u
  simp only [PatternUnit.mk.injEq, true_and] at h
  obtain ⟨rfl, rfl⟩ := h
  simp only at h1 hs
  rcases hs with rfl | hb | ⟨rule, hl⟩
  · have : parsePatternUnitString [] = .ok ([[]], 1) := by decide
    rw [this] at h1
    simp at h1
    obtain ⟨rfl, rfl⟩ := h1
    exact .empty rfl
  · obtain ⟨body, q, rfl, hq⟩ := braUnit_form hb
    have e1 : rfindChar ']' ('[' :: body ++ ']' :: q) = some ('[' :: body).length :=
      rfindChar_append_cons hq.no_bracket
    have e2 : List.drop 1 (List.take ('[' :: body).length ('[' :: body ++ ']' :: q)) = body := by
      rw [List.take_left]; rfl
    unfold parsePatternUnitString at h1
    simp only [List.cons_append] at h1 e1 e2
    simp only [ne_eq, not_true_eq_false, if_false, e1, e2] at h1
    obtain ⟨num1, h3, h1⟩ := bind_ok h1
    obtain ⟨rs, h4, h1⟩ := bind_ok h1
    simp only [pure, Except.pure, bind, Except.bind] at h1
    obtain ⟨f1, f2⟩ := unitRules_ok h4
    split at h1
    · cases h1
    · rename_i hcond
      simp only [Except.ok.injEq, Prod.mk.injEq] at h1
      obtain ⟨rfl, rfl⟩ := h1
      exact .cls rs q f2 (qtext_of_num hq h3) (by rw [f1]) rfl hcond
  · obtain ⟨hd, hne, hc⟩ := hl
    obtain ⟨c, str, rfl⟩ : ∃ c t, str = c :: t := by
      cases str with
      | nil => exact absurd rfl hne
      | cons c t => exact ⟨c, t, rfl⟩
    have hcb : c ≠ '[' := by
      rintro rfl
      have := hc '[' (by simp)
      have h2 : charRule '[' = some c!"\\[" := by decide
      rw [h2] at this
      simp only [Option.some.injEq] at this
      rw [← this] at hd
      revert hd; decide
    unfold parsePatternUnitString at h1
    simp only [ne_eq, hcb, not_false_eq_true, if_true, hc c (by simp), pure, Except.pure, bind, Except.bind] at h1
    split at h1
    · cases h1
    · simp only [Except.ok.injEq, Prod.mk.injEq] at h1
      obtain ⟨rfl, rfl⟩ := h1
      exact .lit rule ⟨hd, hne, hc⟩ rfl rfl

/-- The form of the units of a pattern. -/
theorem patternUnits_form {s : Str} {us : List PatternUnit} (h : patternUnits s = .ok us) :
    (s = [] ∧ us = [⟨[], [[]], 1⟩]) ∨ (s ≠ [] ∧ ∀ u ∈ us, UnitForm u ∧ u.str ≠ []) := by
  obtain ⟨h1, h2, h3, h4, h5⟩ := patternUnits_ok h
  rcases (parsePatternString_ok h1).2 with ⟨rfl, e⟩ | ⟨hne, hall⟩
  · left
    refine ⟨rfl, ?_⟩
    have : patternUnits [] = .ok [⟨[], [[]], 1⟩] := by decide
    rw [this] at h
    simpa using h.symm
  · right
    refine ⟨hne, ?_⟩
    intro u hu
    have := hall u.str (List.mem_map.mpr ⟨u, hu, rfl⟩)
    exact ⟨mkUnit_form (h2 u hu) (.inr this), unit_ne_nil this⟩

theorem UnitForm.rules {u : PatternUnit} (h : UnitForm u) (hne : u.str ≠ []) :
    (∀ r ∈ u.rules, r ∈ ruleSet) ∧ SSorted u.rules := by
  cases h with
  | empty h => rw [h] at hne; exact absurd rfl hne
  | lit rule h hr hn =>
    rw [hr]
    refine ⟨?_, by simp [SSorted]⟩
    intro r hr
    simp at hr; subst hr
    obtain ⟨-, h2, h3⟩ := h
    obtain ⟨c, hc⟩ := List.exists_mem_of_ne_nil _ h2
    obtain ⟨sp, h4, h5⟩ := charRule_some_iff.mp (h3 c hc)
    exact mem_ruleSet.mpr ⟨sp, space_valid h4, h5⟩
  | cls rs q hrs hq hs hr hn =>
    rw [hr]
    exact ⟨fun r h => hrs r (mem_sortedSet.mp h), ssorted_sortedSet _⟩

theorem UnitForm.chars {u : PatternUnit} (h : UnitForm u) : ∀ r ∈ u.rules, ∀ c ∈ r, c ∈ u.str ∨ ruleChar c = true := by
  intro r hr c hc
  cases h with
  | empty h => rw [h] at hr; simp at hr; subst hr; simp at hc
  | lit rule h hr' hn =>
    rw [hr'] at hr; simp at hr; subst hr
    right
    have : ∀ r ∈ digitAsciiRuleSet, ∀ c ∈ r, ruleChar c = true := by decide
    exact this r h.1 c hc
  | cls rs q hrs hq hs hr' hn =>
    rw [hr', mem_sortedSet] at hr
    left
    rw [hs]
    simp only [List.cons_append, List.mem_cons, List.mem_append, List.mem_flatten]
    exact .inr (.inl ⟨r, hr, hc⟩)

theorem SSorted.tail {x : Str} {xs : List Str} (h : SSorted (x :: xs)) : SSorted xs := (List.pairwise_cons.mp h).2

/-- Sorted rules concatenated never contain `[\?`. -/
theorem noQ_rules {L : List Str} (hs : SSorted L) (hr : ∀ r ∈ L, r ∈ ruleSet) : NoQ L.flatten := by
  induction L with
  | nil => intro i hi; simp at hi
  | cons r L ih =>
    intro i hi
    have hr0 := hr r (by simp)
    have hlen : ∀ r ∈ ruleSet, r.length ≤ 3 := by decide
    by_cases hlt : i < r.length
    · obtain ⟨h0, h1, h2⟩ := hi
      rw [List.flatten_cons] at h0 h1 h2
      rw [List.getElem?_append_left hlt] at h0
      have key : ∀ r ∈ ruleSet, ∀ i < 3, r[i]? = some '[' → r = c!"\\[" ∧ i = 1 := by decide +kernel
      obtain ⟨rfl, rfl⟩ := key r hr0 i (by have := hlen r hr0; omega) h0
      rw [List.getElem?_append_right (by simp)] at h1 h2
      simp at h1 h2
      cases L with
      | nil => simp at h1
      | cons r' L =>
        have hr1 := hr r' (by simp)
        rw [List.flatten_cons] at h1 h2
        have hne : ∀ r ∈ ruleSet, 0 < r.length := by decide
        rw [List.getElem?_append_left (hne r' hr1)] at h1
        have key2 : ∀ r ∈ ruleSet, r[0]? = some '\\' → r.length = 2 := by decide
        have hl2 := key2 r' hr1 h1
        rw [List.getElem?_append_left (by omega)] at h2
        have key3 : ∀ r ∈ ruleSet, r[0]? = some '\\' → r[1]? = some '?' → strLt c!"\\[" r = false := by decide
        have := key3 r' hr1 h1 h2
        have hlt := (List.pairwise_cons.mp hs).1 r' (by simp)
        rw [this] at hlt; cases hlt
    · obtain ⟨h0, h1, h2⟩ := hi
      rw [List.flatten_cons] at h0 h1 h2
      rw [List.getElem?_append_right (by omega)] at h0 h1 h2
      refine ih hs.tail (fun r hr' => hr r (by simp [hr'])) (i - r.length) ⟨h0, ?_, ?_⟩
      · rw [← h1]; congr 1; omega
      · rw [← h2]; congr 1; omega

theorem noQ_nil : NoQ [] := by intro i hi; simp at hi

theorem noQ_sep {a b : Str} {x : Char} (ha : NoQ a) (hb : NoQ b) (hx : x ≠ '[' ∧ x ≠ '\\' ∧ x ≠ '?') :
    NoQ (a ++ x :: b) := by
  intro i ⟨h0, h1, h2⟩
  have at_ : ∀ j, j < a.length → (a ++ x :: b)[j]? = a[j]? := fun j hj => List.getElem?_append_left hj
  have mid : (a ++ x :: b)[a.length]? = some x := by simp
  have after : ∀ j, (a ++ x :: b)[a.length + 1 + j]? = b[j]? := by
    intro j
    rw [List.getElem?_append_right (by omega)]
    rw [show a.length + 1 + j - a.length = j + 1 by omega]
    simp
  by_cases c0 : i + 2 < a.length
  · rw [at_ _ (by omega)] at h0 h1 h2
    exact ha i ⟨h0, h1, h2⟩
  · by_cases c1 : i = a.length
    · rw [c1, mid] at h0; simp at h0; exact hx.1 h0
    · by_cases c2 : i + 1 = a.length
      · rw [c2, mid] at h1; simp at h1; exact hx.2.1 h1
      · by_cases c3 : i + 2 = a.length
        · rw [c3, mid] at h2; simp at h2; exact hx.2.2 h2
        · obtain ⟨j, rfl⟩ : ∃ j, i = a.length + 1 + j := ⟨i - a.length - 1, by omega⟩
          rw [after] at h0
          rw [show a.length + 1 + j + 1 = a.length + 1 + (j + 1) by omega, after] at h1
          rw [show a.length + 1 + j + 2 = a.length + 1 + (j + 2) by omega, after] at h2
          exact hb j ⟨h0, h1, h2⟩

theorem noQ_join {ps : List Str} (h : ∀ p ∈ ps, NoQ p) : NoQ ('/' :: join ['/'] ps) := by
  have : ∀ {ps : List Str}, (∀ p ∈ ps, NoQ p) → NoQ (join ['/'] ps) := by
    intro ps h
    induction ps with
    | nil => exact noQ_nil
    | cons p ps ih =>
      cases ps with
      | nil => exact h p (by simp)
      | cons q qs =>
        have e : join ['/'] (p :: q :: qs) = p ++ '/' :: join ['/'] (q :: qs) := by simp [join]
        rw [e]
        exact noQ_sep (h p (by simp)) (ih (fun x hx => h x (by simp [hx]))) (by decide)
  exact noQ_sep (a := []) noQ_nil (this h) (by decide)

/-- The fuzzy rule of a pattern. -/
theorem fuzzy_of_units {s : Str} {us : List PatternUnit} (h : patternUnits s = .ok us) :
    (s = [] → unitsFuzzyRule us = []) ∧ (∀ c ∈ unitsFuzzyRule us, c ∈ s ∨ ruleChar c = true) ∧
      NoQ (unitsFuzzyRule us) := by
  have hfl := (patternUnits_ok h).2.2.1
  rcases patternUnits_form h with ⟨rfl, rfl⟩ | ⟨hne, hu⟩
  · have : unitsFuzzyRule [⟨[], [[]], 1⟩] = [] := by decide
    rw [this]
    exact ⟨fun _ => rfl, by simp, noQ_nil⟩
  · refine ⟨fun h => absurd h hne, ?_, ?_⟩
    · intro c hc
      unfold unitsFuzzyRule joinSorted at hc
      obtain ⟨r, hr, hc⟩ := List.mem_flatten.mp hc
      rw [mem_sortedSet, List.mem_flatMap] at hr
      obtain ⟨u, hu', hr⟩ := hr
      rcases (hu u hu').1.chars r hr c hc with h1 | h1
      · left
        rw [← hfl]
        exact List.mem_flatten.mpr ⟨u.str, List.mem_map.mpr ⟨u, hu', rfl⟩, h1⟩
      · exact .inr h1
    · apply noQ_rules (ssorted_sortedSet _)
      intro r hr
      rw [mem_sortedSet, List.mem_flatMap] at hr
      obtain ⟨u, hu', hr⟩ := hr
      exact ((hu u hu').1.rules (hu u hu').2).1 r hr

end OsUrl
