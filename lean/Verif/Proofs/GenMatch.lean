import Verif.Proofs.GenText

/-! The matcher's selection for generated patterns. -/

namespace OsUrl
open Spec

/-- All loaded patterns are generated ones. -/
def AllGen (hist : List (Str × Option Str)) : Prop :=
  ∀ s md m ps, (s, md) ∈ hist → parse s = .ok (m, .patterns ps) →
    ∀ p ∈ ps, ∃ us, Generated us ∧ p.str = patText us

theorem units_empty : patternUnits [] = .ok [⟨[], [[]], 1⟩] := by decide

/-- The units of a parsed generated pattern. -/
theorem good_gen {p : MatchPattern} (h : GoodPat p) {us : List GUnit} (hv : ∀ u ∈ us, u.Valid)
    (ha : Neighbours GUnit.Differ us) (e : p.str = patText us) :
    p.units = if us = [] then [⟨[], [[]], 1⟩] else us.map guUnit := by
  have h1 := h.1
  split
  · rename_i hne
    subst hne
    rw [e, show patText [] = [] from rfl, units_empty] at h1
    simpa using h1.symm
  · rename_i hne
    rw [e, gen_units hv ha hne] at h1
    simpa using h1.symm

theorem gu_rules_mem {u : GUnit} (h : u.Valid) : (∀ r ∈ (guUnit u).rules, r ∈ ruleSet) ∧ SSorted (guUnit u).rules ∧
    (guUnit u).rules ≠ [] := by
  have hcls : ∀ R : List Space, IsClass R → (∀ r ∈ R.map Space.text, r ∈ ruleSet) ∧ SSorted (R.map Space.text) ∧
      R.map Space.text ≠ [] :=
    fun R hR => ⟨(isClass_rules hR).1, (isClass_rules hR).2.2, by simpa using hR.ne⟩
  cases u with
  | run sp w =>
    obtain ⟨h1, h2, h3⟩ := h
    obtain ⟨c, hc⟩ := List.exists_mem_of_ne_nil _ h1
    exact hcls [sp] (single_class (space_valid (h3 c hc)) h2)
  | cls R n => exact hcls R h.1
  | wild R => exact hcls R h

theorem gu_canon {u : GUnit} (h : u.Valid) (hc : unitCls (guUnit u) = .length) :
    (guUnit u).str = specStr (guUnit u).fuzzyRule (guUnit u).num := by
  obtain ⟨-, hs, -⟩ := gu_rules_mem h
  have e : (guUnit u).fuzzyRule = (u.spaces.map Space.text).flatten := by
    unfold PatternUnit.fuzzyRule joinSorted
    rw [sortedSet_of_ssorted hs]
    rfl
  rw [e]
  obtain ⟨hl, hn⟩ := unitCls_length hc
  cases u with
  | run sp w =>
    exfalso
    obtain ⟨h1, h2, h3⟩ := h
    by_cases hsg : sp.isSign = true
    · have hw : 0 < w.length := List.length_pos_iff.mpr h1
      have hd : sp.text ∉ digitAsciiRuleSet := by
        intro hd
        rw [text_mem_digitAscii_iff] at hd
        rw [hsg] at hd; cases hd
      simp [PatternUnit.isLiteral, guUnit, GUnit.spaces, hd, h1] at hl
    · have ht : (GUnit.run sp w).text = w := by simp [GUnit.text, runText, hsg]
      unfold PatternUnit.isLiteral at hl
      rw [if_pos] at hl
      · cases hl
      · simp only [guUnit, ht]
        cases w with
        | nil => rfl
        | cons c w =>
          have : c ≠ '[' := by
            rintro rfl
            have := h3 '[' (by simp)
            have e2 : space? '[' = some (.sign '[') := by decide
            rw [e2] at this
            simp only [Option.some.injEq] at this
            rw [← this] at hsg; exact hsg rfl
          simp [startsWith, List.isPrefixOf, Ne.symm this]
  | cls R n =>
    have hp : 0 < R.length := List.length_pos_iff.mpr h.1.ne
    have := h.2
    exact (specStr_nat (by omega)).symm
  | wild R => exact absurd (show (-1 : Int) < 0 by decide) hn

theorem gen_canon {p : MatchPattern} (h : GoodPat p) {us : List GUnit} (hg : Generated us) (e : p.str = patText us) :
    Canon p := by
  intro u hu hc
  rw [good_gen h hg.valid hg.apart e] at hu
  split at hu
  · simp at hu; subst hu; revert hc; decide
  · obtain ⟨g, hgu, rfl⟩ := List.mem_map.mp hu
    exact gu_canon (hg.valid g hgu) hc

theorem gen_tame {p : MatchPattern} (h : GoodPat p) {us : List GUnit} (hg : Generated us) (e : p.str = patText us) :
    Tame p := by
  intro h2 u hu
  have eu := good_gen h hg.valid hg.apart e
  rw [eu] at hu h2
  split at hu
  · rename_i hne
    rw [if_pos hne] at h2
    simp at h2
  · rename_i hne
    rw [if_neg hne, List.length_map] at h2
    obtain ⟨g, hgu, rfl⟩ := List.mem_map.mp hu
    refine ⟨(gu_rules_mem (hg.valid g hgu)).2.2, ?_⟩
    intro hs
    obtain ⟨sp, hsp, e⟩ := List.mem_map.mp hs
    have : sp = .sign '/' := text_inj (e.trans (by decide))
    have := hg.slash h2 g hgu (this ▸ hsp)
    show g.spaces.map Space.text = _
    rw [this]
    decide

theorem parse_good {s : Str} {m : URLMeta} {ps : List MatchPattern} (h : parse s = .ok (m, .patterns ps))
    {p : MatchPattern} (hp : p ∈ ps) : GoodPat p := by
  obtain ⟨i, hi⟩ := List.getElem?_of_mem hp
  exact (mkMatchPattern_good (parse_patterns_at h i p hi)).2.1

theorem AllGen.tame {hist : List (Str × Option Str)} (h : AllGen hist) : AllTame hist := by
  intro s md m ps hs e p hp
  obtain ⟨us, h1, h2⟩ := h s md m ps hs e p hp
  exact gen_tame (parse_good e hp) h1 h2

theorem AllGen.canon {hist : List (Str × Option Str)} (h : AllGen hist) : AllCanon hist := by
  intro s md m ps hs e p hp
  obtain ⟨us, h1, h2⟩ := h s md m ps hs e p hp
  exact gen_canon (parse_good e hp) h1 h2

theorem AllGen.nonempty {hist : List (Str × Option Str)} (h : AllGen hist) :
    ∀ s md m ps, (s, md) ∈ hist → parse s = .ok (m, .patterns ps) → ∀ p ∈ ps, ∀ u ∈ p.units, u.rules ≠ [] := by
  intro s md m ps hs e p hp u hu
  obtain ⟨us, h1, h2⟩ := h s md m ps hs e p hp
  rw [good_gen (parse_good e hp) h1.valid h1.apart h2] at hu
  split at hu
  · simp at hu; subst hu; simp
  · obtain ⟨g, hgu, rfl⟩ := List.mem_map.mp hu
    exact (gu_rules_mem (h1.valid g hgu)).2.2

/-! ### whole-piece patterns -/

/-- The runs of a string as units. -/
def runUnits (rs : List (Space × Str)) : List GUnit := rs.map (fun r => .run r.1 r.2)

theorem runUnits_valid {w : Str} {rs : List (Space × Str)} (h : Runs w rs) (hb : '\\' ∉ w) :
    ∀ u ∈ runUnits rs, u.Valid := by
  intro u hu
  obtain ⟨r, hr, rfl⟩ := List.mem_map.mp hu
  refine ⟨h.nonempty r hr, ?_, h.space r hr⟩
  intro e
  obtain ⟨c, hc⟩ := List.exists_mem_of_ne_nil _ (h.nonempty r hr)
  have h1 := h.space r hr c hc
  rw [e] at h1
  have : c = '\\' := space_sign h1
  subst this
  apply hb
  rw [← h.concat]
  exact List.mem_flatten.mpr ⟨r.2, List.mem_map.mpr ⟨r, hr, rfl⟩, hc⟩

theorem runUnits_apart {w : Str} {rs : List (Space × Str)} (h : Runs w rs) : Neighbours GUnit.Differ (runUnits rs) := by
  intro a x y b e
  obtain ⟨a', r1, e1, rfl, e2⟩ := List.map_eq_append_iff.mp e
  obtain ⟨x', r2, rfl, rfl, e3⟩ := List.map_eq_cons_iff.mp e2
  obtain ⟨y', b', rfl, rfl, rfl⟩ := List.map_eq_cons_iff.mp e3
  exact h.maximal a' x' y' b' e1

theorem runUnits_text (rs : List (Space × Str)) : patText (runUnits rs) = (rs.map runText).flatten := by
  unfold patText runUnits
  rw [List.map_map]
  rfl

theorem run_literal {sp : Space} {w : Str} (h : (GUnit.run sp w).Valid) : (guUnit (.run sp w)).isLiteral = true := by
  cases hl : (guUnit (.run sp w)).isLiteral with
  | true => rfl
  | false =>
    exfalso
    have hw : ¬ (guUnit (.run sp w)).num < 0 := by show ¬ ((w.length : Int) < 0); omega
    have hc : unitCls (guUnit (.run sp w)) = .length := by simp [unitCls, hl, hw]
    obtain ⟨h1, h2, h3⟩ := h
    by_cases hsg : sp.isSign = true
    · have hd : sp.text ∉ digitAsciiRuleSet := by
        intro hd
        rw [text_mem_digitAscii_iff] at hd
        rw [hsg] at hd; cases hd
      have : 0 < w.length := List.length_pos_iff.mpr h1
      simp [PatternUnit.isLiteral, guUnit, GUnit.spaces, hd, h1] at hl
    · have := (gu_unit (u := .run sp w) ⟨h1, h2, h3⟩).1
      rw [if_pos (by simp [isAlnumRun, hsg])] at this
      have ht : (GUnit.run sp w).text = w := by simp [GUnit.text, runText, hsg]
      cases hw : w with
      | nil => exact h1 hw
      | cons c t =>
        have hcb := (alnum_ne_bracket (this.2.2 c (by rw [ht, hw]; simp)) this.1).1
        clear this
        subst hw
        simp [PatternUnit.isLiteral, guUnit, ht, startsWith, List.isPrefixOf, Ne.symm hcb] at hl

theorem literal_cls {us : List PatternUnit} (h : ∀ u ∈ us, u.isLiteral = true) (b : Bool) :
    viewClsFromUnits us b = .piece := by
  have hf : us.filter (fun u => !u.isLiteral) = [] := by
    rw [List.filter_eq_nil_iff]
    intro u hu
    simp [h u hu]
  unfold viewClsFromUnits
  split
  · rename_i u
    rw [if_pos (h u (by simp))]
  · simp only [hf]
    split
    · simp
    · simp

/-- A literal pattern. -/
theorem lit_good {w : Str} {rs : List (Space × Str)} (hr : Runs w rs) (hb : '\\' ∉ w) {p : MatchPattern} (h : GoodPat p)
    (e : p.str = (rs.map runText).flatten) :
    p.cls = .piece ∧ unitsFuzzyRule p.units = (ppOf rs).fuzzyRule := by
  have eu := good_gen h (runUnits_valid hr hb) (runUnits_apart hr) (by rw [runUnits_text, e])
  obtain ⟨b, hcl⟩ := h.2
  constructor
  · rw [hcl]
    apply literal_cls
    rw [eu]
    split
    · intro u hu; simp at hu; subst hu; decide
    · intro u hu
      obtain ⟨g, hg, rfl⟩ := List.mem_map.mp hu
      have hv := runUnits_valid hr hb g hg
      obtain ⟨r, -, rfl⟩ := List.mem_map.mp hg
      exact run_literal hv
  · rw [fuzzyRule_eq, eu]
    split
    · rename_i hne
      have : rs = [] := by simpa [runUnits] using hne
      subst this
      decide
    · rename_i hrn
      clear hrn
      unfold unitsFuzzyRule
      congr 1
      simp only [runUnits, List.map_map, List.flatMap_map, ppOf]
      clear eu hcl e h hr
      induction rs with
      | nil => rfl
      | cons r rs ih =>
        rw [List.flatMap_cons, ih]
        rfl

theorem Exact.unique {u s w : Str} (h1 : Exact u s) (h2 : Exact u w) : s = w := by
  obtain ⟨⟨is, a, b⟩, -⟩ := h2
  exact (b s).mp ((reMatch_iff a).mp h1.fits.reMatch)

theorem lit_sel {w s : Str} {rs : List (Space × Str)} (hr : Runs w rs) (hb : '\\' ∉ w) (hk : ∀ c ∈ s, Known c)
    {p : MatchPattern} (h : GoodPat p) (e : p.str = (rs.map runText).flatten) :
    (unitsFuzzyRule p.units = (ppOf (runsOf s)).fuzzyRule ∧ SelF (ppOf (runsOf s)) p) ↔ s = w := by
  obtain ⟨hc, hf⟩ := lit_good hr hb h e
  have hsel : SelF (ppOf (runsOf s)) p ↔ (ppOf (runsOf s)).piece = p.str := by
    unfold SelF
    rw [if_pos (by rw [hc]; exact .inl rfl)]
    unfold SelU
    rw [hc]
  rw [hsel, hf]
  constructor
  · rintro ⟨-, h2⟩
    have h1 := runs_exact (runsOf_spec hk)
    have h3 := runs_exact hr
    have h2 : ((runsOf s).map runText).flatten = p.str := h2
    rw [h2] at h1
    rw [← e] at h3
    exact h1.unique h3
  · rintro rfl
    rw [runsOf_runs hr]
    exact ⟨rfl, e.symm⟩

theorem spacesOf_iff {s : Str} (hk : ∀ c ∈ s, Known c) {R : List Space} (hv : ∀ r ∈ R.map Space.text, r ∈ ruleSet) :
    joinSorted (R.map Space.text) = (ppOf (runsOf s)).fuzzyRule ↔ SpacesOf s R := by
  rw [fuzzyRule_ppOf hk, joinSorted_inj hv (rules_mem_ruleSet hk)]
  unfold SpacesOf
  constructor
  · intro h sp
    rw [← space_mem_runs hk]
    constructor
    · intro hm
      obtain ⟨r, hr, e⟩ := List.mem_map.mp ((h sp.text).mp (List.mem_map_of_mem hm))
      rwa [← text_inj e]
    · intro hm
      obtain ⟨r, hr, e⟩ := List.mem_map.mp ((h sp.text).mpr (List.mem_map_of_mem hm))
      rwa [← text_inj e]
  · intro h r
    simp only [List.mem_map]
    constructor
    · rintro ⟨sp, hm, rfl⟩
      exact ⟨sp, (space_mem_runs hk).mpr ((h sp).mp hm), rfl⟩
    · rintro ⟨sp, hm, rfl⟩
      exact ⟨sp, (h sp).mpr ((space_mem_runs hk).mp hm), rfl⟩

theorem single_good {u : GUnit} (hu : u.Valid) {p : MatchPattern} (h : GoodPat p) (e : p.str = u.text) :
    p.units = [guUnit u] ∧ p.cls = unitCls (guUnit u) ∧ unitsFuzzyRule p.units = joinSorted (u.spaces.map Space.text) := by
  have eu := good_gen (us := [u]) h (by simpa using hu) (neighbours_single _) (by simp [patText, e])
  simp only [List.cons_ne_nil, if_false, List.map_cons, List.map_nil] at eu
  obtain ⟨b, hcl⟩ := h.2
  refine ⟨eu, ?_, ?_⟩
  · rw [hcl, eu]; rfl
  · rw [eu]
    simp [unitsFuzzyRule, guUnit]

theorem text_bracket {u : GUnit} (h : (guUnit u).rules.length ≠ 1 ∨ (guUnit u).num < 0 ∨ ∃ sp, u.spaces = [sp] ∧ sp.isSign = false)
    (hs : startsWith ['['] u.text = true) : (guUnit u).isLiteral = false := by
  unfold PatternUnit.isLiteral
  rw [if_neg (by simp [guUnit, hs])]
  split
  · rename_i r hr
    rcases h with h | h | ⟨sp, h1, h2⟩
    · rw [hr] at h; simp at h
    · simp; intro h3; omega
    · have : r = sp.text := by
        have : (guUnit u).rules = [sp.text] := by simp [guUnit, h1]
        rw [this] at hr; simpa using hr.symm
      subst this
      simp [text_mem_digitAscii_iff.mpr h2]
  · rfl

theorem wild_sel {R : List Space} (hR : IsClass R) {s : Str} (hk : ∀ c ∈ s, Known c) {p : MatchPattern} (h : GoodPat p)
    (e : p.str = (GUnit.wild R).text) :
    (unitsFuzzyRule p.units = (ppOf (runsOf s)).fuzzyRule ∧ SelF (ppOf (runsOf s)) p) ↔ SpacesOf s R := by
  obtain ⟨h1, h2, h3⟩ := single_good (u := .wild R) hR h e
  have hl : (guUnit (.wild R)).isLiteral = false :=
    text_bracket (.inr (.inl (show (-1 : Int) < 0 by decide))) (by simp [GUnit.text, startsWith])
  have hc : p.cls = .fuzzy := by
    rw [h2]; unfold unitCls; rw [hl]; rfl
  have hsel : SelF (ppOf (runsOf s)) p := by
    unfold SelF
    rw [if_pos (by rw [hc]; exact .inr (.inr rfl))]
    unfold SelU
    rw [hc]
    trivial
  rw [h3, show (GUnit.wild R).spaces = R from rfl, spacesOf_iff hk (isClass_rules hR).1]
  exact ⟨fun h => h.1, fun h => ⟨h, hsel⟩⟩

theorem eq_replicate {s : Str} {c : Char} {n : Nat} :
    s = List.replicate n c ↔ (∀ x ∈ s, x = c) ∧ s.length = n := by
  rw [List.eq_replicate_iff]
  exact And.comm

/-- The measured length of a run with a text after it. -/
theorem measured_run {sp : Space} {w t : Str} (hne : w ≠ []) (hs : ∀ c ∈ w, space? c = some sp)
    (ht : ∀ c ∈ t.head?, space? c ≠ some sp) :
    (measured (w ++ t) : Int) = w.length + extra (sp, w) + measured t := by
  have hx : ∀ v : Str, extra (sp, v) = extra (sp, w) := fun _ => rfl
  induction w with
  | nil => exact absurd rfl hne
  | cons c w ih =>
    have hc := hs c (by simp)
    have hbs : sp = .sign '\\' ↔ c = '\\' := by
      constructor
      · rintro rfl; exact space_sign hc
      · rintro rfl
        rw [show space? '\\' = some (.sign '\\') by decide] at hc
        exact (Option.some.inj hc).symm
    cases w with
    | nil =>
      by_cases hcb : c = '\\'
      · have h2 : t.head? ≠ some '\\' := by
          intro h
          exact ht '\\' (by simp [h]) (by rw [← hcb]; exact hc)
        simp only [List.cons_append, List.nil_append, measured, if_pos (And.intro hcb h2), extra, if_pos (hbs.mpr hcb)]
        simp
      · have h3 : ¬ (c = '\\' ∧ t.head? ≠ some '\\') := fun h => hcb h.1
        have h4 : ¬ sp = .sign '\\' := fun h => hcb (hbs.mp h)
        simp only [List.cons_append, List.nil_append, measured, if_neg h3, extra, if_neg h4]
        simp
    | cons d w =>
      have h5 : ¬ (c = '\\' ∧ (d :: w ++ t).head? ≠ some '\\') := by
        rintro ⟨rfl, h⟩
        have := hs d (by simp)
        rw [hbs.mpr rfl] at this
        rw [space_sign this] at h
        simp at h
      have := ih (by simp) (fun x hx => hs x (by simp [hx])) (fun _ => rfl)
      rw [List.cons_append, measured, if_neg h5]
      have e1 : extra (sp, d :: w) = extra (sp, c :: d :: w) := rfl
      rw [e1] at this
      simp only [List.length_cons] at this ⊢
      omega

/-- The measured length over the runs. -/
theorem measured_runs {s : Str} {rs : List (Space × Str)} (h : Runs s rs) :
    (measured s : Int) = s.length + (rs.map extra).sum := by
  induction rs generalizing s with
  | nil =>
    have : s = [] := h.concat.symm
    subst this; rfl
  | cons r rs ih =>
    have hs := h.concat
    simp only [List.map_cons, List.flatten_cons] at hs
    have hd : Runs (rs.map (·.2)).flatten rs := by
      refine ⟨rfl, fun x hx => h.nonempty x (by simp [hx]), fun x hx => h.space x (by simp [hx]), ?_⟩
      intro a x y b e
      exact h.maximal (r :: a) x y b (by rw [e]; rfl)
    rw [← hs, measured_run (h.nonempty r (by simp)) (h.space r (by simp)), ih hd]
    · simp only [List.map_cons, List.sum_cons, List.length_append]
      have : extra (r.1, r.2) = extra r := rfl
      omega
    · intro c hc e
      cases rs with
      | nil => simp at hc
      | cons r' rs =>
        obtain ⟨d, w, hw⟩ : ∃ d w, r'.2 = d :: w := by
          cases hw : r'.2 with
          | nil => exact absurd hw (h.nonempty r' (by simp))
          | cons d w => exact ⟨d, w, rfl⟩
        simp only [List.map_cons, List.flatten_cons, hw, List.cons_append, List.head?_cons, Option.mem_def, Option.some.injEq] at hc
        subst hc
        have := h.space r' (by simp) d (by rw [hw]; simp)
        rw [e] at this
        exact h.maximal [] r r' rs rfl (Option.some.inj this)

theorem measured_plain {s : Str} (hb : '\\' ∉ s) : measured s = s.length := by
  induction s with
  | nil => rfl
  | cons c s ih =>
    have h1 : ¬ (c = '\\' ∧ s.head? ≠ some '\\') := by rintro ⟨rfl, -⟩; simp at hb
    rw [measured, if_neg h1, ih (fun h => hb (by simp [h])), List.length_cons]
    omega

theorem len_sel {R : List Space} {n : Nat} (hv : (GUnit.cls R n).Valid) {s : Str} (hk : ∀ c ∈ s, Known c)
    {p : MatchPattern} (h : GoodPat p) (e : p.str = (GUnit.cls R n).text) :
    (unitsFuzzyRule p.units = (ppOf (runsOf s)).fuzzyRule ∧ SelF (ppOf (runsOf s)) p) ↔ SpacesOf s R ∧ measured s = n := by
  obtain ⟨hR, hn⟩ := hv
  obtain ⟨h1, h2, h3⟩ := single_good (u := .cls R n) ⟨hR, hn⟩ h e
  have hRl : 0 < R.length := List.length_pos_iff.mpr hR.ne
  by_cases hsg : ∃ c, R = [.sign c]
  · obtain ⟨c, rfl⟩ := hsg
    have hval := hR.valid (.sign c) (by simp)
    have hcs : space? c = some (.sign c) := by
      obtain ⟨d, hd⟩ := exists_char hval
      rwa [space_sign hd] at hd
    have hcb : c ≠ '\\' := by rintro rfl; exact hR.readable (by simp)
    have hn0 : n ≠ 0 := by simp at hn; omega
    have hrun : Runs (List.replicate n c) [(.sign c, List.replicate n c)] := by
      refine ⟨by simp, ?_, ?_, neighbours_single _⟩
      · intro r hr; simp at hr; subst hr; simpa using hn0
      · intro r hr x hx; simp at hr; subst hr
        have := List.eq_of_mem_replicate hx
        rw [this, hcs]
    rw [lit_sel hrun (by intro hm; exact hcb (List.eq_of_mem_replicate hm).symm) hk h (by
      rw [e]; simp [GUnit.text, runText, Space.isSign]), eq_replicate]
    have hm : SpacesOf s [.sign c] → measured s = s.length := by
      intro hsp
      refine measured_plain fun hm => ?_
      have := (hsp (.sign '\\')).mpr ⟨_, hm, by decide⟩
      rw [List.mem_singleton, Space.sign.injEq] at this
      exact hcb this.symm
    rw [show (SpacesOf s [.sign c] ∧ measured s = n) ↔ (SpacesOf s [.sign c] ∧ s.length = n) from
      and_congr_right fun h => by rw [hm h]]
    refine and_congr_left fun hl => ?_
    unfold SpacesOf
    constructor
    · intro hx sp
      have hne : s ≠ [] := by rintro rfl; simp at hl; omega
      constructor
      · intro hm
        simp at hm; subst hm
        obtain ⟨x, hxm⟩ := List.exists_mem_of_ne_nil _ hne
        exact ⟨x, hxm, by rw [hx x hxm]; exact hcs⟩
      · rintro ⟨x, hxm, hsx⟩
        rw [hx x hxm, hcs] at hsx
        simp at hsx; simp [hsx]
    · intro hx x hxm
      have hkx := spaceD_eq (hk x hxm)
      have := (hx (spaceD x)).mpr ⟨x, hxm, hkx⟩
      simp at this
      rw [this] at hkx
      exact space_sign hkx
  · have hl : (guUnit (.cls R n)).isLiteral = false := by
      refine text_bracket ?_ (by simp [GUnit.text, startsWith])
      by_cases h1 : R.length = 1
      · right; right
        obtain ⟨sp, rfl⟩ := List.length_eq_one_iff.mp h1
        refine ⟨sp, rfl, ?_⟩
        cases sp with
        | sign c => exact absurd ⟨c, rfl⟩ hsg
        | _ => rfl
      · left; simpa [guUnit, GUnit.spaces] using h1
    have hc : p.cls = .length := by
      rw [h2]; unfold unitCls; rw [hl]
      have : ¬ (guUnit (.cls R n)).num < 0 := by show ¬ ((n : Int) < 0); omega
      simp [this]
    rw [h3, show (GUnit.cls R n).spaces = R from rfl, spacesOf_iff hk (isClass_rules hR).1]
    refine and_congr_right fun hsp => ?_
    have hms := measured_runs (runsOf_spec hk)
    unfold SelF
    rw [if_pos (by rw [hc]; exact .inr (.inl rfl))]
    unfold SelU
    rw [hc]
    simp only [pieceLength_runs hk, ← hms, Except.ok.injEq, headNum, h1, List.head?_cons, Option.map_some, Option.some.injEq]
    constructor
    · rintro ⟨l, rfl, h⟩
      have h : (n : Int) = measured s := h
      omega
    · intro h; exact ⟨_, rfl, by show (n : Int) = measured s; omega⟩

/-- The selection of a whole-piece pattern. -/
theorem piecePat_sel {t : PiecePat} (hv : t.Valid) {s : Str} (hk : ∀ c ∈ s, Known c) {p : MatchPattern}
    (h : GoodPat p) (e : t.HasText p.str) :
    (unitsFuzzyRule p.units = (ppOf (runsOf s)).fuzzyRule ∧ SelF (ppOf (runsOf s)) p) ↔ t.Fits s := by
  cases t with
  | lit w =>
    obtain ⟨rs, hr, e⟩ := e
    exact lit_sel hr (fun hm => (hv _ hm).2 rfl) hk h e
  | len R n => exact len_sel hv hk h e
  | wild R => exact wild_sel hv hk h e

end OsUrl
