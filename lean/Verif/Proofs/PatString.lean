import Verif.Proofs.Unit

/-! `parse_pattern_string`. -/

namespace OsUrl
open Spec

theorem closeBracket_spec {p : Char} {s b r : Str} (h : closeBracket p s = some (b, r)) :
    s = b ++ r ∧ ∀ r', closeBracket p (b ++ r') = some (b, r') := by
  induction s generalizing p b r with
  | nil => simp [closeBracket] at h
  | cons c s ih =>
    simp only [closeBracket] at h
    split at h
    · rename_i hc
      simp at h
      obtain ⟨rfl, rfl⟩ := h
      refine ⟨rfl, fun r' => ?_⟩
      simp only [List.cons_append, List.nil_append, closeBracket]
      rw [if_pos hc]
    · rename_i hc
      simp at h
      obtain ⟨b', h1, h2⟩ := h
      obtain ⟨e1, e2⟩ := ih h1
      subst h2
      refine ⟨by simp [e1], fun r' => ?_⟩
      simp only [List.cons_append, closeBracket]
      rw [if_neg hc, e2]
      rfl

theorem quantBraces_spec {s q r : Str} (h : quantBraces s = .ok (q, r)) :
    s = q ++ r ∧ (∀ r', quantBraces (q ++ r') = .ok (q, r')) := by
  unfold quantBraces at h
  split at h
  · cases h
  · rename_i e he
    obtain ⟨a, b, rfl, hna, rfl⟩ := findChar_some he
    split at h
    · rename_i hd
      simp only [List.take_left] at hd
      have e1 : (a ++ '}' :: b).take (a.length + 1) = a ++ ['}'] := by
        rw [show a ++ '}' :: b = (a ++ ['}']) ++ b by simp, List.take_left' (by simp)]
      have e2 : (a ++ '}' :: b).drop (a.length + 1) = b := by
        rw [show a ++ '}' :: b = (a ++ ['}']) ++ b by simp, List.drop_left' (by simp)]
      rw [e1, e2] at h
      simp at h
      obtain ⟨rfl, rfl⟩ := h
      refine ⟨by simp, fun r' => ?_⟩
      have e3 : (a ++ ['}']) ++ r' = a ++ '}' :: r' := by simp
      have e4 : (a ++ '}' :: r').take (a.length + 1) = a ++ ['}'] := by
        rw [← e3, List.take_left' (by simp)]
      have e5 : (a ++ '}' :: r').drop (a.length + 1) = r' := by
        rw [← e3, List.drop_left' (by simp)]
      rw [e3]
      simp only [quantBraces]
      rw [findChar_append_cons hna]
      simp only [List.take_left, hd, if_true, e4, e5]
    · cases h

theorem quantBraces_error {s : Str} {e : PyErr} (h : quantBraces s = .error e) : e = .invalidPattern := by
  unfold quantBraces at h
  split at h
  · cases h; rfl
  · split at h
    · cases h
    · cases h; rfl

/-- Text that cannot be taken for a quantifier. -/
def NoQuant (r : Str) : Prop := r.head? ≠ some '{' ∧ r.head? ≠ some '+'

theorem bracketUnit_spec {s u r : Str} (h : bracketUnit s = .ok (u, r)) :
    s = u ++ r ∧ ∀ r', NoQuant r' → bracketUnit (u ++ r') = .ok (u, r') := by
  unfold bracketUnit at h
  split at h
  · cases h
  · rename_i body rest hcb
    obtain ⟨e1, e2⟩ := closeBracket_spec hcb
    split at h
    · rename_i rest'
      cases hq : quantBraces rest' with
      | error e => simp [hq, bind, Except.bind] at h
      | ok v =>
        obtain ⟨q, r2⟩ := v
        obtain ⟨q1, q2⟩ := quantBraces_spec hq
        simp [hq, bind, Except.bind, pure, Except.pure] at h
        obtain ⟨rfl, rfl⟩ := h
        refine ⟨by rw [e1, q1]; simp, fun r' _ => ?_⟩
        rw [List.append_assoc]
        simp only [bracketUnit, e2, List.cons_append, q2, bind, Except.bind, pure, Except.pure]
    · rename_i rest'
      simp [pure, Except.pure] at h
      obtain ⟨rfl, rfl⟩ := h
      refine ⟨by rw [e1]; simp, fun r' _ => ?_⟩
      rw [List.append_assoc]
      simp only [bracketUnit, e2, List.cons_append, List.nil_append, pure, Except.pure]
    · simp [pure, Except.pure] at h
      obtain ⟨rfl, rfl⟩ := h
      refine ⟨e1, fun r' hr' => ?_⟩
      simp only [bracketUnit, e2]
      split
      · exact absurd rfl hr'.1
      · exact absurd rfl hr'.2
      · rfl

theorem bracketUnit_error {s : Str} {e : PyErr} (h : bracketUnit s = .error e) : e = .invalidPattern := by
  unfold bracketUnit at h
  split at h
  · cases h; rfl
  · split at h
    · rename_i rest' _
      cases hq : quantBraces rest' with
      | error e => simp [hq, bind, Except.bind] at h; subst h; exact quantBraces_error hq
      | ok v => simp [hq, bind, Except.bind, pure, Except.pure] at h
    · cases h
    · cases h

/-- The rule of a literal unit: a non-empty run of letters or digits of one rule. -/
def LitUnit (rule u : Str) : Prop :=
  rule ∈ digitAsciiRuleSet ∧ u ≠ [] ∧ ∀ c ∈ u, charRule c = some rule

/-- A unit in brackets. -/
def BraUnit (u : Str) : Prop := ∃ t, u = '[' :: t ∧ bracketUnit t = .ok (t, [])

theorem braUnit_of {s u r : Str} (h : bracketUnit s = .ok (u, r)) : BraUnit ('[' :: u) := by
  refine ⟨u, rfl, ?_⟩
  have := (bracketUnit_spec h).2 [] (by simp [NoQuant])
  simpa using this

/-- The loop's memory: nothing, or a literal unit under construction. -/
def LoopMem (lr : Option Str) (s : Str) : Prop :=
  (lr = none ∧ s = []) ∨ ∃ rule, lr = some rule ∧ LitUnit rule s

theorem patternLoop_ok {fuel : Nat} {lr : Option Str} {s rest : Str} {us : List Str}
    (hm : LoopMem lr s) (h : patternLoop fuel lr s rest = .ok us) :
    us.flatten = s ++ rest ∧ ∀ u ∈ us, BraUnit u ∨ ∃ rule, LitUnit rule u := by
  induction fuel generalizing lr s rest us with
  | zero =>
    cases rest with
    | nil =>
      simp only [patternLoop] at h
      simp at h
      rcases hm with ⟨rfl, rfl⟩ | ⟨rule, rfl, hl⟩
      · simp at h; subst h; simp
      · simp at h; subst h; simp; exact .inr ⟨_, hl⟩
    | cons c rest => simp [patternLoop] at h
  | succ f ih =>
    cases rest with
    | nil =>
      simp only [patternLoop] at h
      simp at h
      rcases hm with ⟨rfl, rfl⟩ | ⟨rule, rfl, hl⟩
      · simp at h; subst h; simp
      · simp at h; subst h; simp; exact .inr ⟨_, hl⟩
    | cons c rest =>
      simp only [patternLoop] at h
      split at h
      · rename_i hc
        subst hc
        cases hb : bracketUnit rest with
        | error e => simp [hb, bind, Except.bind] at h
        | ok v =>
          obtain ⟨u, rest'⟩ := v
          simp only [hb, bind, Except.bind] at h
          cases hp : patternLoop f none [] rest' with
          | error e => simp [hp] at h
          | ok us' =>
            obtain ⟨i1, i2⟩ := ih (.inl ⟨rfl, rfl⟩) hp
            simp [hp, pure, Except.pure] at h
            have hu := braUnit_of hb
            have hs := (bracketUnit_spec hb).1
            rcases hm with ⟨rfl, rfl⟩ | ⟨rule, rfl, hl⟩
            · simp at h; subst h
              refine ⟨by simp [i1, hs], ?_⟩
              intro x hx; simp at hx; rcases hx with rfl | hx
              · exact .inl hu
              · exact i2 x hx
            · simp at h; subst h
              refine ⟨by simp [i1, hs], ?_⟩
              intro x hx; simp at hx; rcases hx with rfl | rfl | hx
              · exact .inr ⟨_, hl⟩
              · exact .inl hu
              · exact i2 x hx
      · split at h
        · cases h
        · rename_i rule hr
          split at h
          · cases h
          · rename_i hda
            simp only [Classical.not_not] at hda
            split at h
            · rcases hm with ⟨-, rfl⟩ | ⟨rule, hh, -⟩
              · obtain ⟨i1, i2⟩ := ih (.inr ⟨rule, rfl, hda, by simp, by simpa using hr⟩) h
                exact ⟨by simpa using i1, i2⟩
              · cases hh
            · rename_i lr'
              rcases hm with ⟨hh, -⟩ | ⟨rule', hh, hl⟩
              · cases hh
              · cases hh
                split at h
                · rename_i heq
                  subst heq
                  obtain ⟨i1, i2⟩ := ih (.inr ⟨rule, rfl, hda, by simp, by
                    intro x hx; simp at hx; rcases hx with hx | rfl
                    · exact hl.2.2 x hx
                    · exact hr⟩) h
                  exact ⟨by simpa using i1, i2⟩
                · cases hp : patternLoop f (some rule) [c] rest with
                  | error e => simp [hp, bind, Except.bind] at h
                  | ok us' =>
                    obtain ⟨i1, i2⟩ := ih (.inr ⟨rule, rfl, hda, by simp, by simpa using hr⟩) hp
                    simp [hp, bind, Except.bind, pure, Except.pure] at h
                    subst h
                    refine ⟨by simp [i1], ?_⟩
                    intro x hx; simp at hx; rcases hx with rfl | hx
                    · exact .inr ⟨_, hl⟩
                    · exact i2 x hx

theorem patternLoop_error {fuel : Nat} {lr : Option Str} {s rest : Str} {e : PyErr}
    (hf : rest.length ≤ fuel) (h : patternLoop fuel lr s rest = .error e) : e = .invalidPattern := by
  induction fuel generalizing lr s rest with
  | zero =>
    cases rest with
    | nil => simp [patternLoop] at h
    | cons c rest => simp at hf
  | succ f ih =>
    cases rest with
    | nil => simp [patternLoop] at h
    | cons c rest =>
      simp at hf
      simp only [patternLoop] at h
      split at h
      · cases hb : bracketUnit rest with
        | error e => simp [hb, bind, Except.bind] at h; subst h; exact bracketUnit_error hb
        | ok v =>
          obtain ⟨u, rest'⟩ := v
          have hs := (bracketUnit_spec hb).1
          simp only [hb, bind, Except.bind] at h
          cases hp : patternLoop f none [] rest' with
          | error e =>
            simp [hp] at h; subst h
            exact ih (by rw [hs] at hf; simp at hf; omega) hp
          | ok us' => simp [hp, pure, Except.pure] at h
      · split at h
        · cases h; rfl
        · split at h
          · cases h; rfl
          · split at h
            · exact ih (by omega) h
            · split at h
              · exact ih (by omega) h
              · rename_i rule _ _ _ _ _
                cases hp : patternLoop f (some rule) [c] rest with
                | error e => simp [hp, bind, Except.bind] at h; subst h; exact ih (by omega) hp
                | ok us' => simp [hp, bind, Except.bind, pure, Except.pure] at h

/-- Two neighbouring units that stay apart: not literals of the same rule. -/
def Apart (u v : Str) : Prop := ∀ rule, ¬ (LitUnit rule u ∧ LitUnit rule v)

theorem alnum_ne_bracket {c : Char} {rule : Str} (h : charRule c = some rule) (hd : rule ∈ digitAsciiRuleSet) :
    c ≠ '[' ∧ c ≠ '{' ∧ c ≠ '+' := by
  refine ⟨?_, ?_, ?_⟩ <;>
  · rintro rfl
    revert h
    simp only [charRule, isLowerC, isUpperC, isDigitC, isSymbolC, isEscapeC]
    simp [symbolChars, escapeChars]
    rintro rfl; revert hd; decide

theorem unit_start {u : Str} (h : BraUnit u ∨ ∃ rule, LitUnit rule u) (r : Str) : NoQuant (u ++ r) := by
  rcases h with ⟨t, rfl, _⟩ | ⟨rule, hd, hne, hc⟩
  · simp [NoQuant]
  · cases u with
    | nil => exact absurd rfl hne
    | cons c u =>
      have := alnum_ne_bracket (hc c (by simp)) hd
      simp [NoQuant, this.2]

theorem noQuant_flatten {us : List Str} (h : ∀ u ∈ us, BraUnit u ∨ ∃ rule, LitUnit rule u) :
    NoQuant us.flatten := by
  cases us with
  | nil => simp [NoQuant]
  | cons u us => rw [List.flatten_cons]; exact unit_start (h u (by simp)) _

/-- Literal characters of the current rule are collected. -/
theorem patternLoop_lit {fuel : Nat} {rule s w R : Str} (hd : rule ∈ digitAsciiRuleSet)
    (hw : ∀ c ∈ w, charRule c = some rule) (hf : (w ++ R).length ≤ fuel) :
    ∃ fuel', R.length ≤ fuel' ∧
      patternLoop fuel (some rule) s (w ++ R) = patternLoop fuel' (some rule) (s ++ w) R := by
  induction w generalizing fuel s with
  | nil => exact ⟨fuel, by simpa using hf, by simp⟩
  | cons c w ih =>
    cases fuel with
    | zero => simp at hf
    | succ f =>
      obtain ⟨f', h1, h2⟩ := ih (s := s ++ [c]) (fun x hx => hw x (by simp [hx]))
        (by simp at hf ⊢; omega : (w ++ R).length ≤ f)
      refine ⟨f', h1, ?_⟩
      have hc := hw c (by simp)
      have hb := (alnum_ne_bracket hc hd).1
      rw [List.cons_append]
      simp only [patternLoop, hb, if_false, hc, hd, not_true_eq_false, if_true, h2]
      simp

theorem patternLoop_units {us : List Str} (h : ∀ u ∈ us, BraUnit u ∨ ∃ rule, LitUnit rule u)
    (hn : Neighbours Apart us) :
    (∀ fuel, us.flatten.length ≤ fuel → patternLoop fuel none [] us.flatten = .ok us) ∧
    (∀ fuel rule s, us.flatten.length ≤ fuel → LitUnit rule s →
      (∀ u ∈ us.head?, ¬ LitUnit rule u) →
      patternLoop fuel (some rule) s us.flatten = .ok (s :: us)) := by
  induction us with
  | nil =>
    constructor
    · intro fuel _; cases fuel <;> simp [patternLoop]
    · intro fuel rule s _ _ _; cases fuel <;> simp [patternLoop]
  | cons u us ih =>
    have hu := h u (by simp)
    obtain ⟨ih1, ih2⟩ := ih (fun x hx => h x (by simp [hx])) (neighbours_tail hn)
    have hnq := noQuant_flatten (us := us) (fun x hx => h x (by simp [hx]))
    simp only [List.flatten_cons]
    rcases hu with ⟨t, rfl, hb⟩ | ⟨rule, hl⟩
    · have hb2 := (bracketUnit_spec hb).2 us.flatten hnq
      have key : ∀ fuel lr s, ('[' :: t ++ us.flatten).length ≤ fuel →
          patternLoop fuel lr s ('[' :: t ++ us.flatten) =
            .ok ((if lr.isSome then [s] else []) ++ ('[' :: t) :: us) := by
        intro fuel lr s hf
        cases fuel with
        | zero => simp at hf
        | succ f =>
          rw [List.cons_append] at hf ⊢
          simp only [patternLoop, if_true, hb2, bind, Except.bind]
          rw [ih1 f (by simp at hf ⊢; omega)]
          simp [pure, Except.pure]
      constructor
      · intro fuel hf; rw [key fuel none [] hf]; simp
      · intro fuel rule s hf _ _; rw [key fuel (some rule) s hf]; simp
    · obtain ⟨hd, hne, hc⟩ := hl
      have hhead : ∀ v ∈ us.head?, ¬ LitUnit rule v := by
        intro v hv hlv
        cases us with
        | nil => simp at hv
        | cons x xs =>
          simp at hv; subst hv
          exact (neighbours_cons_cons.mp hn).1 rule ⟨⟨hd, hne, hc⟩, hlv⟩
      cases u with
      | nil => exact absurd rfl hne
      | cons c w =>
        have hcc := hc c (by simp)
        have hcb := (alnum_ne_bracket hcc hd).1
        constructor
        · intro fuel hf
          cases fuel with
          | zero => simp at hf
          | succ f =>
            rw [List.cons_append] at hf ⊢
            simp only [patternLoop, hcb, if_false, hcc, hd, not_true_eq_false, List.nil_append]
            obtain ⟨f', a1, a2⟩ := patternLoop_lit (s := [c]) (R := us.flatten) hd
              (fun x hx => hc x (by simp [hx])) (by simp at hf ⊢; omega : (w ++ us.flatten).length ≤ f)
            rw [List.singleton_append] at a2
            rw [a2, ih2 f' rule _ a1 ⟨hd, by simp, hc⟩ hhead]
        · intro fuel rule' s hf hs hnot
          cases fuel with
          | zero => simp at hf
          | succ f =>
            have hne' : rule ≠ rule' := by
              rintro rfl; exact hnot (c :: w) (by simp) ⟨hd, by simp, hc⟩
            rw [List.cons_append] at hf ⊢
            simp only [patternLoop, hcb, if_false, hcc, hd, not_true_eq_false, hne']
            obtain ⟨f', a1, a2⟩ := patternLoop_lit (s := [c]) (R := us.flatten) hd
              (fun x hx => hc x (by simp [hx])) (by simp at hf ⊢; omega : (w ++ us.flatten).length ≤ f)
            rw [List.singleton_append] at a2
            rw [a2, ih2 f' rule _ a1 ⟨hd, by simp, hc⟩ hhead]
            simp [bind, Except.bind, pure, Except.pure]

theorem unit_ne_nil {u : Str} (h : BraUnit u ∨ ∃ rule, LitUnit rule u) : u ≠ [] := by
  rcases h with ⟨t, rfl, _⟩ | ⟨rule, hd, hne, hc⟩
  · simp
  · exact hne

/-- Parsing a concatenation of units that stay apart gives the units back. -/
theorem parsePatternString_units {us : List Str} (hne : us ≠ [])
    (h : ∀ u ∈ us, BraUnit u ∨ ∃ rule, LitUnit rule u) (hn : Neighbours Apart us) :
    parsePatternString us.flatten = .ok us := by
  unfold parsePatternString
  rw [if_neg]
  · exact (patternLoop_units h hn).1 _ (Nat.le_refl _)
  · cases us with
    | nil => exact absurd rfl hne
    | cons u us => simp [unit_ne_nil (h u (by simp))]

theorem parsePatternString_ok {p : Str} {us : List Str} (h : parsePatternString p = .ok us) :
    us.flatten = p ∧ (p = [] ∧ us = [[]] ∨ p ≠ [] ∧ ∀ u ∈ us, BraUnit u ∨ ∃ rule, LitUnit rule u) := by
  unfold parsePatternString at h
  split at h
  · rename_i he; simp at h; subst h; subst he; simp
  · rename_i he
    obtain ⟨h1, h2⟩ := patternLoop_ok (.inl ⟨rfl, rfl⟩) h
    exact ⟨by simpa using h1, .inr ⟨he, h2⟩⟩

end OsUrl
