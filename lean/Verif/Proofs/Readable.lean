import Verif.Proofs.GenMatch
import Verif.Proofs.UnitForm

/-! A class that ends in a backslash can not be read back. -/

namespace OsUrl
open Spec

theorem gu_written {u : GUnit} (h : u.Valid) : u.Written := by
  cases u with
  | run sp w => exact ⟨h.1, h.2.2⟩
  | cls R n => exact ⟨h.1.toWrittenClass, h.2⟩
  | wild R => exact IsClass.toWrittenClass h

theorem gu_readable {u : GUnit} (h : u.Valid) : u.Readable := by
  cases u with
  | run sp w => simpa [GUnit.Readable, GUnit.spaces] using h.2.1
  | cls R n => exact h.1.readable
  | wild R => exact IsClass.readable h

/-- Readable units. -/
theorem valid_iff {u : GUnit} : u.Valid ↔ u.Written ∧ u.Readable := by
  refine ⟨fun h => ⟨gu_written h, gu_readable h⟩, fun ⟨h, hr⟩ => ?_⟩
  cases u with
  | run sp w => exact ⟨h.1, by simpa [GUnit.Readable, GUnit.spaces] using hr, h.2⟩
  | cls R n => exact ⟨⟨h.1, hr⟩, h.2⟩
  | wild R => exact ⟨h, hr⟩

theorem generated_iff {us : List GUnit} : Generated us ↔ WrittenPat us ∧ ReadablePat us :=
  ⟨fun h => ⟨⟨fun u hu => gu_written (h.valid u hu), h.apart, h.slash⟩, fun u hu => gu_readable (h.valid u hu)⟩,
    fun h => ⟨fun u hu => valid_iff.mpr ⟨h.1.written u hu, h.2 u hu⟩, h.1.apart, h.1.slash⟩⟩

/-! ### the texts of rules -/

theorem rule_len : ∀ r ∈ ruleSet, r ≠ [] ∧ r.head? ≠ some ']' ∧ ∀ r' ∈ ruleSet, r.head? = r'.head? → r.length = r'.length := by
  decide +kernel

/-- No rule begins with a closing bracket. -/
theorem rules_close {rs rs' : List Str} (h : ∀ r ∈ rs, r ∈ ruleSet) (h' : ∀ r ∈ rs', r ∈ ruleSet) {y : Str} :
    rs.flatten ≠ rs'.flatten ++ ']' :: y := by
  induction rs' generalizing rs with
  | nil =>
    intro e
    cases rs with
    | nil => simp at e
    | cons r rs =>
      obtain ⟨h1, h2, -⟩ := rule_len r (h r (by simp))
      cases r with
      | nil => exact h1 rfl
      | cons c r =>
        simp at e
        exact h2 (by simp [e.1])
  | cons r' rs' ih =>
    intro e
    obtain ⟨h1', -, -⟩ := rule_len r' (h' r' (by simp))
    cases rs with
    | nil => simp at e
    | cons r rs =>
      obtain ⟨h1, -, h3⟩ := rule_len r (h r (by simp))
      simp only [List.flatten_cons, List.append_assoc] at e
      have hh : r.head? = r'.head? := by
        cases r with
        | nil => exact absurd rfl h1
        | cons c r =>
          cases r' with
          | nil => exact absurd rfl h1'
          | cons c' r' => simp at e; simp [e.1]
      have hl := h3 r' (h' r' (by simp)) hh
      obtain ⟨-, e2⟩ := List.append_inj e hl
      exact ih (fun x hx => h x (by simp [hx])) (fun x hx => h' x (by simp [hx])) e2

/-! ### the loop after some units -/

theorem loop_lit {fuel : Nat} {lr : Option Str} {s w R : Str} {l : List Str}
    (hw : ∀ c ∈ w, ∃ rule, charRule c = some rule ∧ rule ∈ digitAsciiRuleSet)
    (h : patternLoop fuel lr s (w ++ R) = .ok l) :
    ∃ fuel' lr' s' l', patternLoop fuel' lr' s' R = .ok l' ∧ ∀ x ∈ l', x ∈ l := by
  induction w generalizing fuel lr s l with
  | nil => exact ⟨fuel, lr, s, l, h, fun _ hx => hx⟩
  | cons c w ih =>
    obtain ⟨rule, hc, hd⟩ := hw c (by simp)
    have hcb := (alnum_ne_bracket hc hd).1
    cases fuel with
    | zero => simp [patternLoop] at h
    | succ f =>
      rw [List.cons_append] at h
      simp only [patternLoop, hcb, if_false, hc, hd, not_true_eq_false] at h
      cases lr with
      | none => exact ih (fun x hx => hw x (by simp [hx])) h
      | some lr =>
        simp only at h
        by_cases he : rule = lr
        · rw [if_pos he] at h
          exact ih (fun x hx => hw x (by simp [hx])) h
        · rw [if_neg he] at h
          obtain ⟨us, h1, h2⟩ := bind_ok h
          simp only [pure, Except.pure, Except.ok.injEq] at h2
          obtain ⟨f', lr', s', l', a1, a2⟩ := ih (fun x hx => hw x (by simp [hx])) h1
          exact ⟨f', lr', s', l', a1, fun x hx => by rw [← h2]; exact List.mem_cons_of_mem _ (a2 x hx)⟩

/-- After some units the loop comes to the next bracket. -/
theorem loop_units {us : List Str} (hu : ∀ u ∈ us, BraUnit u ∨ ∃ rule, LitUnit rule u) {fuel : Nat} {lr : Option Str} {s X : Str} {l : List Str}
    (h : patternLoop fuel lr s (us.flatten ++ '[' :: X) = .ok l) :
    ∃ v rest, bracketUnit X = .ok (v, rest) ∧ '[' :: v ∈ l := by
  induction us generalizing fuel lr s l with
  | nil =>
    cases fuel with
    | zero => simp [patternLoop] at h
    | succ f =>
      simp only [List.flatten_nil, List.nil_append, patternLoop, if_true] at h
      obtain ⟨⟨v, rest⟩, h1, h⟩ := bind_ok h
      obtain ⟨us, h2, h⟩ := bind_ok h
      simp only [pure, Except.pure, Except.ok.injEq] at h
      exact ⟨v, rest, h1, by rw [← h]; simp⟩
  | cons u us ih =>
    have ih' := fun {fuel : Nat} {lr : Option Str} {s : Str} {l : List Str} => ih (fun x hx => hu x (by simp [hx])) (fuel := fuel) (lr := lr) (s := s) (l := l)
    rw [List.flatten_cons, List.append_assoc] at h
    rcases hu u (by simp) with ⟨t, rfl, hb⟩ | ⟨rule, hd, -, hc⟩
    · have hnq : NoQuant (us.flatten ++ '[' :: X) := by
        cases us with
        | nil => simp [NoQuant]
        | cons u' us' =>
          rw [List.flatten_cons, List.append_assoc]
          exact unit_start (hu u' (by simp)) _
      have hb2 := (bracketUnit_spec hb).2 _ hnq
      cases fuel with
      | zero => simp [patternLoop] at h
      | succ f =>
        rw [List.cons_append] at h
        simp only [patternLoop, if_true, hb2, bind, Except.bind] at h
        cases hp : patternLoop f none [] (us.flatten ++ '[' :: X) with
        | error e => rw [hp] at h; cases h
        | ok l' =>
          rw [hp] at h
          simp only [pure, Except.pure, Except.ok.injEq] at h
          obtain ⟨v, rest, a1, a2⟩ := ih' hp
          exact ⟨v, rest, a1, by rw [← h]; simp [a2]⟩
    · obtain ⟨f', lr', s', l', a1, a2⟩ := loop_lit (fun c hcm => ⟨rule, hc c hcm, hd⟩) h
      obtain ⟨v, rest, b1, b2⟩ := ih' a1
      exact ⟨v, rest, b1, a2 _ b2⟩

/-- A bracket after a backslash is passed over. -/
theorem bracketUnit_swallow {body Y v rest : Str} (hs : skips '[' body = true) (hl : body.getLast? = some '\\')
    (h : bracketUnit (body ++ ']' :: Y) = .ok (v, rest)) : ∃ y q, v = (body ++ ']' :: y) ++ ']' :: q ∧ QShape q := by
  have hc : ∀ b r, closeBracket '[' (body ++ ']' :: Y) = some (b, r) → ∃ y, b = (body ++ ']' :: y) ++ [']'] := by
    intro b r hbr
    rw [closeBracket_skip hs, hl] at hbr
    simp only [Option.getD_some, closeBracket, ne_eq, not_true_eq_false, and_false, if_false, Option.map_map, Option.map_eq_some_iff] at hbr
    obtain ⟨⟨b1, r1⟩, h1, h2⟩ := hbr
    obtain ⟨y, rfl⟩ := closeBracket_last h1
    simp only [Function.comp, Prod.mk.injEq] at h2
    exact ⟨y, by rw [← h2.1]; simp⟩
  unfold bracketUnit at h
  cases hcb : closeBracket '[' (body ++ ']' :: Y) with
  | none => rw [hcb] at h; cases h
  | some br =>
    obtain ⟨b, r⟩ := br
    obtain ⟨y, rfl⟩ := hc b r hcb
    rw [hcb] at h
    simp only at h
    split at h
    · obtain ⟨⟨q, r2⟩, hq, h⟩ := bind_ok h
      simp only [pure, Except.pure, Except.ok.injEq, Prod.mk.injEq] at h
      obtain ⟨ds, rfl, hd⟩ := quantBraces_text hq
      exact ⟨y, '{' :: ds ++ ['}'], by rw [← h.1]; simp, .braces ds hd⟩
    · simp only [pure, Except.pure, Except.ok.injEq, Prod.mk.injEq] at h
      exact ⟨y, ['+'], by rw [← h.1]; simp, .plus⟩
    · simp only [pure, Except.pure, Except.ok.injEq, Prod.mk.injEq] at h
      exact ⟨y, [], by rw [← h.1], .one⟩

/-- A unit whose brackets end in a backslash. -/
theorem unreadable_text {u : GUnit} (h : u.Written) (hr : ¬ u.Readable) :
    ∃ q, u.text = '[' :: (u.spaces.map Space.text).flatten ++ ']' :: q ∧ (∀ r ∈ u.spaces.map Space.text, r ∈ ruleSet) ∧
      ((u.spaces.map Space.text).flatten).getLast? = some '\\' := by
  have hr : u.spaces.getLast? = some (.sign '\\') := Classical.not_not.mp hr
  have hl : ∀ R : List Space, R.getLast? = some (.sign '\\') → ((R.map Space.text).flatten).getLast? = some '\\' := by
    intro R hR
    obtain ⟨L, rfl⟩ := List.getLast?_eq_some_iff.mp hR
    rw [List.map_append, List.flatten_append, List.getLast?_append]
    rfl
  have hv : ∀ R : List Space, (∀ sp ∈ R, sp.Valid) → ∀ r ∈ R.map Space.text, r ∈ ruleSet := by
    intro R hR r hr
    obtain ⟨sp, hsp, rfl⟩ := List.mem_map.mp hr
    exact mem_ruleSet.mpr ⟨sp, hR sp hsp, rfl⟩
  cases u with
  | run sp w =>
    have hsp : sp = .sign '\\' := by simpa [GUnit.spaces] using hr
    subst hsp
    obtain ⟨c, hc⟩ := List.exists_mem_of_ne_nil _ h.1
    refine ⟨if w.length = 1 then [] else '{' :: decimal w.length ++ ['}'], ?_, hv _ (by simpa [GUnit.spaces] using space_valid (h.2 c hc)), hl _ hr⟩
    simp [GUnit.text, runText, GUnit.spaces, Space.isSign]
  | cls R n => exact ⟨_, rfl, hv _ h.1.valid, hl _ hr⟩
  | wild R => exact ⟨['+'], by simp [GUnit.text, GUnit.spaces], hv _ (WrittenClass.valid h), hl _ hr⟩

theorem last_close {a b q q' : Str} (h : ']' ∉ q) (h' : ']' ∉ q') (e : a ++ ']' :: q = b ++ ']' :: q') : a = b := by
  have h1 := rfindChar_append_cons (a := a) h
  rw [e, rfindChar_append_cons h'] at h1
  exact (List.append_inj e (Option.some.inj h1).symm).1

theorem mapM_mem {α β : Type} {f : α → Py β} {l : List α} {r : List β} (h : l.mapM f = .ok r) {x : α} (hx : x ∈ l) : ∃ y, f x = .ok y := by
  induction l generalizing r with
  | nil => cases hx
  | cons a l ih =>
    rw [List.mapM_cons] at h
    obtain ⟨y, h1, h⟩ := bind_ok h
    obtain ⟨ys, h2, -⟩ := bind_ok h
    rcases List.mem_cons.mp hx with rfl | hx
    · exact ⟨y, h1⟩
    · exact ih h2 hx

/-- **What is read back was readable.** -/
theorem units_readable {us : List GUnit} (hw : ∀ u ∈ us, u.Written) {l : List PatternUnit} (h : patternUnits (patText us) = .ok l) :
    ∀ u ∈ us, u.Readable := by
  -- the first unit that is not
  apply Classical.byContradiction
  intro hn
  obtain ⟨vs, u, ws, rfl, hvs, hu⟩ : ∃ vs u ws, us = vs ++ u :: ws ∧ (∀ v ∈ vs, v.Readable) ∧ ¬ u.Readable := by
    clear hw h
    induction us with
    | nil => exact absurd (by simp) hn
    | cons a us ih =>
      by_cases ha : a.Readable
      · obtain ⟨vs, u, ws, rfl, h1, h2⟩ := ih (by
          intro h; apply hn; intro x hx
          rcases List.mem_cons.mp hx with rfl | hx
          · exact ha
          · exact h x hx)
        exact ⟨a :: vs, u, ws, rfl, by
          intro v hv
          rcases List.mem_cons.mp hv with rfl | hv
          · exact ha
          · exact h1 v hv, h2⟩
      · exact ⟨[], a, us, rfl, by simp, ha⟩
  have hvalid : ∀ v ∈ vs, v.Valid := fun v hv => valid_iff.mpr ⟨hw v (by simp [hv]), hvs v hv⟩
  obtain ⟨q, ht, hrs, hlast⟩ := unreadable_text (hw u (by simp)) hu
  unfold patternUnits at h
  obtain ⟨ts, h1, h2⟩ := bind_ok h
  have hne : patText (vs ++ u :: ws) ≠ [] := by
    unfold patText
    rw [List.map_append, List.map_cons, List.flatten_append, List.flatten_cons, ht]
    simp
  unfold parsePatternString at h1
  rw [if_neg hne] at h1
  have e : patText (vs ++ u :: ws) = (vs.map GUnit.text).flatten ++ '[' :: ((u.spaces.map Space.text).flatten ++ ']' :: (q ++ patText ws)) := by
    unfold patText
    rw [List.map_append, List.map_cons, List.flatten_append, List.flatten_cons, ht]
    simp
  rw [e] at h1
  obtain ⟨v, rest, h3, h4⟩ := loop_units (by
    intro t htm
    obtain ⟨x, hx, rfl⟩ := List.mem_map.mp htm
    exact gu_form (hvalid x hx)) h1
  obtain ⟨y, q', rfl, hq'⟩ := bracketUnit_swallow (skips_rules hrs '[') hlast h3
  obtain ⟨pu, h5⟩ := mapM_mem h2 h4
  have hstr : pu.str = '[' :: ((u.spaces.map Space.text).flatten ++ ']' :: y ++ ']' :: q') := by
    unfold mkUnit at h5
    obtain ⟨x, -, h5⟩ := bind_ok h5
    simp only [pure, Except.pure, Except.ok.injEq] at h5
    rw [← h5]
  have hbra : BraUnit pu.str := by
    have := (bracketUnit_spec h3).2 [] (by simp [NoQuant])
    rw [List.append_nil] at this
    exact ⟨_, hstr, this⟩
  cases mkUnit_form (by rw [hstr]; exact h5) (.inr (.inl hbra)) with
  | empty he => rw [he] at hstr; cases hstr
  | lit rule hl hr hn =>
    exact (alnum_ne_bracket (hl.2.2 '[' (by rw [hstr]; simp)) hl.1).1 rfl
  | cls rs q2 hrs2 hq2 hs2 hr2 hn2 =>
    rw [hstr] at hs2
    rw [← List.cons_append] at hs2
    have := last_close hq'.no_bracket hq2.no_bracket hs2
    rw [List.cons.injEq] at this
    exact rules_close hrs2 hrs this.2.symm

/-- The units of a pattern text that was read. -/
theorem good_valid {p : MatchPattern} (h : GoodPat p) {us : List GUnit} (hw : ∀ u ∈ us, u.Written) (e : p.str = patText us) :
    ∀ u ∈ us, u.Valid := by
  have h1 := h.1
  rw [e] at h1
  exact fun u hu => valid_iff.mpr ⟨hw u hu, units_readable hw h1 u hu⟩

end OsUrl
