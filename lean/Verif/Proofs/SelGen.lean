import Verif.Proofs.OrderGen
import Verif.Spec.Sel

/-! When a generated pattern is selected for a piece. -/

namespace OsUrl
open Spec

theorem selU_congr {v w : ParsedPiece} (h : v.piece = w.piece) (p : MatchPattern) : SelU v p ↔ SelU w p := by
  unfold SelU
  split
  · rw [h]
  · rw [pieceLength_congr h]
  · exact Iff.rfl
  · exact Iff.rfl

/-- The unit as a pattern of a whole piece. -/
def gpat : GUnit → PiecePat
  | .run _ w => .lit w
  | .cls R n => .len R n
  | .wild R => .wild R

theorem gpat_fits (u : GUnit) (s : Str) : (gpat u).Fits s ↔ u.Fits s := by cases u <;> exact Iff.rfl

theorem gpat_valid {u : GUnit} (h : u.Valid) : (gpat u).Valid := by
  cases u with
  | run sp w =>
    intro c hc
    refine ⟨?_, ?_⟩
    · show (space? c).isSome = true; rw [h.2.2 c hc]; rfl
    · rintro rfl
      have h1 := h.2.2 _ hc
      rw [show space? '\\' = some (.sign '\\') by decide] at h1
      exact h.2.1 (Option.some.inj h1).symm
  | cls R n => exact h
  | wild R => exact h

theorem gpat_text {u : GUnit} (h : u.Valid) : (gpat u).HasText u.text := by
  cases u with
  | run sp w =>
    refine ⟨[(sp, w)], ⟨by simp, ?_, ?_, neighbours_single _⟩, by simp [GUnit.text]⟩
    · intro r hr; simp at hr; subst hr; exact h.1
    · intro r hr; simp at hr; subst hr; exact h.2.2
  | cls R n => rfl
  | wild R => rfl

/-- A unit is selected for the parts it stands for. -/
theorem unit_sel {u : GUnit} (hu : u.Valid) {w : Str} {g : List Run} (hr : Runs w g) :
    ((gpart g).fuzzyRule = (guUnit u).fuzzyRule ∧ SelU (gpart g) (unitMP (guUnit u))) ↔ u.Fits w := by
  have hpu : patternUnits (guUnit u).str = .ok [guUnit u] := by
    have := gen_units (us := [u]) (by simpa using hu) (neighbours_single _) (by simp)
    rw [show patText [u] = u.text by simp [patText]] at this
    exact this
  have key := piecePat_sel (gpat_valid hu) hr.known (unitMP_good hpu) (gpat_text hu)
  rw [gpat_fits, runsOf_runs hr] at key
  have hp : (gpart g).piece = (ppOf g).piece := by rw [(gpart_pair g).1, gpair_ppOf]
  have hf : (gpart g).fuzzyRule = (ppOf g).fuzzyRule := by rw [(gpart_pair g).2, gpair_ppOf]
  have hu1 : unitsFuzzyRule (unitMP (guUnit u)).units = (guUnit u).fuzzyRule := by
    simp [unitsFuzzyRule, PatternUnit.fuzzyRule, unitMP]
  have hs : SelF (ppOf g) (unitMP (guUnit u)) ↔ SelU (ppOf g) (unitMP (guUnit u)) := by
    unfold SelF
    rw [if_pos (unitMP_simple _)]
  rw [hu1, hs] at key
  rw [hf, selU_congr hp, ← key]
  exact and_congr_left fun _ => eq_comm

theorem units_sel {us : List GUnit} (hu : ∀ u ∈ us, u.Valid) {gs : List (List Run)}
    (hg : ∀ g ∈ gs, Runs (rawOf g) g) :
    ((gs.map gpart).map (·.fuzzyRule) = (us.map guUnit).map (·.fuzzyRule) ∧
      ∀ (i : Nat) vp u, (gs.map gpart)[i]? = some vp → (us.map guUnit)[i]? = some u → SelU vp (unitMP u)) ↔
    FitsAll us (gs.map rawOf) := by
  induction us generalizing gs with
  | nil =>
    cases gs with
    | nil => simp [FitsAll]
    | cons g gs => simp [FitsAll]
  | cons u us ih =>
    cases gs with
    | nil => simp [FitsAll]
    | cons g gs =>
      have h1 := unit_sel (hu u (by simp)) (hg g (by simp))
      have h2 := ih (fun v hv => hu v (by simp [hv])) (gs := gs) (fun x hx => hg x (by simp [hx]))
      simp only [List.map_cons, FitsAll]
      rw [← h1, ← h2]
      constructor
      · rintro ⟨a, b⟩
        rw [List.cons.injEq] at a
        exact ⟨⟨a.1, b 0 _ _ (by simp) (by simp)⟩, a.2, fun i vp v c d => b (i + 1) vp v (by simpa using c) (by simpa using d)⟩
      · rintro ⟨⟨a1, a2⟩, b1, b2⟩
        refine ⟨by rw [a1, b1], ?_⟩
        intro i vp v c d
        cases i with
        | zero =>
          simp only [List.getElem?_cons_zero, Option.some.injEq] at c d
          subst c d
          exact a2
        | succ i => exact b2 i vp v (by simpa using c) (by simpa using d)

theorem selM_gen {us : List GUnit} (hu : ∀ u ∈ us, u.Valid) {gs : List (List Run)} {s : Str} (hr : Runs s gs.flatten)
    {p : MatchPattern} (hp : p.units = us.map guUnit) : SelM (gs.map gpart) p ↔ FitsAll us (gs.map rawOf) := by
  unfold SelM
  rw [hp]
  exact units_sel hu fun g hg => runs_group hr rfl hg

theorem fitsAll_length {us : List GUnit} {xs : List Str} (h : FitsAll us xs) : us.length = xs.length := by
  induction us generalizing xs with
  | nil =>
    cases xs with
    | nil => rfl
    | cons x xs => cases h
  | cons u us ih =>
    cases xs with
    | nil => cases h
    | cons x xs => simp [ih h.2]

theorem fits_spaces {u : GUnit} (hu : u.Valid) {s : Str} (h : u.Fits s) : SpacesOf s u.spaces := by
  cases u with
  | run sp w =>
    have h : s = w := h
    subst h
    obtain ⟨c, hc⟩ := List.exists_mem_of_ne_nil _ hu.1
    intro sp'
    simp only [GUnit.spaces, List.mem_singleton]
    constructor
    · rintro rfl; exact ⟨c, hc, hu.2.2 c hc⟩
    · rintro ⟨d, hd, e⟩
      rw [hu.2.2 d hd] at e
      exact (Option.some.inj e).symm
  | cls R n => exact h.1
  | wild R => exact h

theorem fitsAll_spaces {us : List GUnit} (hu : ∀ u ∈ us, u.Valid) {xs : List Str} (h : FitsAll us xs) :
    SpacesOf xs.flatten (us.flatMap GUnit.spaces) := by
  induction us generalizing xs with
  | nil =>
    cases xs with
    | nil => intro sp; simp
    | cons x xs => cases h
  | cons u us ih =>
    cases xs with
    | nil => cases h
    | cons x xs =>
      intro sp
      have h1 := fits_spaces (hu u (by simp)) h.1 sp
      have h2 := ih (fun v hv => hu v (by simp [hv])) h.2 sp
      rw [List.flatMap_cons, List.mem_append, h1, h2, List.flatten_cons]
      constructor
      · rintro (⟨c, hc, e⟩ | ⟨c, hc, e⟩)
        · exact ⟨c, by simp [hc], e⟩
        · exact ⟨c, List.mem_append_right _ hc, e⟩
      · rintro ⟨c, hc, e⟩
        rcases List.mem_append.mp hc with hc | hc
        · exact .inl ⟨c, hc, e⟩
        · exact .inr ⟨c, hc, e⟩

theorem map_single_raw (rs : List Run) : (rs.map (fun r => [r])).map rawOf = rs.map (·.2) := by
  rw [List.map_map]
  apply List.map_congr_left
  intro r _
  simp [rawOf]

theorem run_singles (rs : List Run) : (rs.map (fun r => [r])).flatten = rs := by
  induction rs with
  | nil => rfl
  | cons r rs ih => simp [ih]

/-- The parts make up the piece. -/
theorem parts_flatten {k : Kind} {s : Str} {parts : List Str} (h : Parts k s parts) : parts.flatten = s := by
  have key : ∀ {gs : List (List Run)}, Runs s gs.flatten → (gs.map rawOf).flatten = s := fun h => raw_concat h rfl
  cases k with
  | literal => obtain ⟨rs, h1, rfl⟩ := h; exact h1.concat
  | runs => obtain ⟨rs, h1, rfl⟩ := h; exact h1.concat
  | mixed => obtain ⟨gs, h1, -, -, rfl⟩ := h; exact key h1
  | dotted =>
    obtain ⟨ga, x, gb, h1, -, -, -, rfl⟩ := h
    rw [← h1.concat]
    simp [rawText]
  | length => subst h; simp
  | wild => subst h; simp

/-- The whole fuzzy rule agrees. -/
theorem matches_rule {us : List GUnit} (hu : ∀ u ∈ us, u.Valid) {s : Str} (hk : ∀ c ∈ s, Known c) {p : MatchPattern}
    (hp : p.units = us.map guUnit) {xs : List Str} (hx : xs.flatten = s) (h : FitsAll us xs) :
    unitsFuzzyRule p.units = (ppOf (runsOf s)).fuzzyRule := by
  have h1 := fitsAll_spaces hu h
  rw [hx] at h1
  rw [← (spacesOf_iff hk ?_).mpr h1, hp]
  · unfold unitsFuzzyRule
    congr 1
    rw [List.flatMap_map, List.map_flatMap]
    rfl
  · intro r hr
    obtain ⟨sp, hsp, rfl⟩ := List.mem_map.mp hr
    obtain ⟨u, hum, hsu⟩ := List.mem_flatMap.mp hsp
    exact (gu_rules_mem (hu u hum)).1 _ (List.mem_map_of_mem (f := Space.text) hsu)

theorem one_unit {p : MatchPattern} {u : GUnit} (h : GoodPat p) (hp : p.units = [guUnit u]) : p = unitMP (guUnit u) := by
  obtain ⟨b, hb⟩ := h.2
  have hf := h.flat
  obtain ⟨ps, pu, pc⟩ := p
  simp only at hp hb hf
  subst hp
  unfold unitMP
  congr 1
  simpa using hf.symm

theorem kind_two {lp : Bool} {us : List GUnit} (h : kind lp us = .mixed ∨ kind lp us = .runs) : 2 ≤ us.length := by
  match us, h with
  | [], h => simp [kind] at h
  | [u], h =>
    unfold kind at h
    split at h
    · simp at h
    · simp only at h
      split at h <;> simp at h
  | _ :: _ :: _, _ => simp

theorem kind_one {lp : Bool} {us : List GUnit} (h : kind lp us = .length ∨ kind lp us = .wild) : ∃ u, us = [u] := by
  unfold kind at h
  split at h
  · simp at h
  · split at h
    · exact ⟨_, rfl⟩
    · split at h
      · simp at h
      · split at h <;> simp at h

theorem kind_literal {lp : Bool} {us : List GUnit} (h : kind lp us = .literal) : ∀ u ∈ us, u.rank = 0 := by
  unfold kind at h
  split at h
  · rename_i h1
    intro u hu
    simpa using List.all_eq_true.mp h1 u hu
  · exfalso
    split at h
    · split at h <;> simp at h
    · split at h
      · simp at h
      · split at h <;> simp at h

theorem kind_dotted {lp : Bool} {us : List GUnit} (h : kind lp us = .dotted) : Dotted us := by
  unfold kind at h
  split at h
  · simp at h
  · split at h
    · split at h <;> simp at h
    · split at h
      · rename_i h1
        rw [Bool.and_eq_true] at h1
        exact isDotted_iff.mp h1.2
      · split at h <;> simp at h

/-- Literal patterns. -/
theorem literal_iff {us : List GUnit} (hv : ∀ u ∈ us, u.Valid) (ha : Neighbours GUnit.Differ us) (h0 : ∀ u ∈ us, u.rank = 0) {s : Str}
    {rs : List Run} (hr : Runs s rs) (hb : '\\' ∉ s) : (rs.map runText).flatten = patText us ↔ FitsAll us (rs.map (·.2)) := by
  have hsub : ∀ r ∈ rs, Runs r.2 [r] ∧ '\\' ∉ r.2 := by
    intro r hrm
    refine ⟨⟨by simp, ?_, ?_, neighbours_single _⟩, ?_⟩
    · intro x hx; simp at hx; subst hx; exact hr.nonempty x hrm
    · intro x hx; simp at hx; subst hx; exact hr.space x hrm
    · intro hm; apply hb; rw [← hr.concat]; exact List.mem_flatten.mpr ⟨_, List.mem_map_of_mem hrm, hm⟩
  constructor
  · intro e
    have hrv := runUnits_valid hr hb
    have hra := runUnits_apart hr
    have eu : us.map guUnit = (runUnits rs).map guUnit := by
      by_cases h1 : us = []
      · by_cases h2 : rs = []
        · rw [h1, h2]; rfl
        · exfalso
          have h3 := gen_units hrv hra (by simpa [runUnits] using h2)
          rw [runUnits_text, e, h1, show patText [] = [] from rfl, units_empty] at h3
          simp only [Except.ok.injEq] at h3
          cases hrs : rs with
          | nil => exact h2 hrs
          | cons r rs' =>
            rw [hrs] at h3
            simp only [runUnits, List.map_cons, List.cons.injEq] at h3
            have := (gu_rules_mem (hrv (.run r.1 r.2) (by rw [hrs]; simp [runUnits]))).1 [] (by rw [← h3.1]; simp)
            revert this; decide
      · have h3 := gen_units hv ha h1
        by_cases h2 : rs = []
        · exfalso
          rw [← e, h2, show ((([] : List Run).map runText).flatten) = [] from rfl, units_empty] at h3
          simp only [Except.ok.injEq] at h3
          cases hus : us with
          | nil => exact h1 hus
          | cons u us' =>
            rw [hus] at h3
            simp only [List.map_cons, List.cons.injEq] at h3
            have := (gu_rules_mem (hv u (by rw [hus]; simp))).1 [] (by rw [← h3.1]; simp)
            revert this; decide
        · have h4 := gen_units hrv hra (by simpa [runUnits] using h2)
          rw [runUnits_text, e, h3, Except.ok.injEq] at h4
          exact h4
    clear e ha h0
    have hrv' : ∀ r ∈ rs, (GUnit.run r.1 r.2).Valid := fun r hrm => hrv _ (List.mem_map_of_mem hrm)
    clear hrv hra hr hb
    induction us generalizing rs with
    | nil =>
      cases rs with
      | nil => trivial
      | cons r rs => simp [runUnits] at eu
    | cons u us ih =>
      cases rs with
      | nil => simp [runUnits] at eu
      | cons r rs =>
        simp only [runUnits, List.map_cons, List.cons.injEq] at eu
        refine ⟨?_, ih (fun v hv' => hv v (by simp [hv'])) (fun x hx => hsub x (by simp [hx])) eu.2 (fun x hx => hrv' x (by simp [hx]))⟩
        have h1 := (unit_sel (hrv' r (by simp)) (hsub r (by simp)).1).mpr rfl
        rw [← eu.1] at h1
        exact (unit_sel (hv u (by simp)) (hsub r (by simp)).1).mp h1
  · clear ha hr hb
    unfold patText
    intro h
    induction us generalizing rs with
    | nil =>
      cases rs with
      | nil => rfl
      | cons r rs => cases h
    | cons u us ih =>
      cases rs with
      | nil => cases h
      | cons r rs =>
        have h1 := (unit_sel (hv u (by simp)) (hsub r (by simp)).1).mpr h.1
        have h2 := h1.2
        have hc : (unitMP (guUnit u)).cls = .piece := by
          show unitCls _ = _
          unfold unitCls
          rw [gu_literal (hv u (by simp)), h0 u (by simp)]; rfl
        unfold SelU at h2
        rw [hc] at h2
        have h2 : (gpart [r]).piece = u.text := h2
        rw [(gpart_pair [r]).1] at h2
        simp only [List.map_cons, List.flatten_cons]
        rw [ih (fun v hv' => hv v (by simp [hv'])) (fun v hv' => h0 v (by simp [hv'])) (fun x hx => hsub x (by simp [hx])) h.2, ← h2]
        simp [gpair]

theorem mixRuns_iff (gs : List (List Run)) : MixG gs ↔ (∀ g ∈ gs, g ≠ [] ∧ (MixRuns g ∨ ∃ r, g = [r] ∧ ¬ Mixable r.1.text)) ∧
    Neighbours (fun g g' => ¬ (MixRuns g ∧ MixRuns g')) gs := ⟨fun h => ⟨h.1, h.2⟩, fun h => ⟨h.1, h.2⟩⟩

/-- A generated pattern has the rules of its spaces. -/
theorem gen_rule_iff {us : List GUnit} (hu : ∀ u ∈ us, u.Valid) {s : Str} (hk : ∀ c ∈ s, Known c) {p : MatchPattern}
    (hp : p.units = us.map guUnit) :
    unitsFuzzyRule p.units = (ppOf (runsOf s)).fuzzyRule ↔ SpacesOf s (us.flatMap GUnit.spaces) := by
  rw [← spacesOf_iff hk ?_, hp]
  · unfold unitsFuzzyRule
    rw [List.flatMap_map, List.map_flatMap]
    rfl
  · intro r hr
    obtain ⟨sp, hsp, rfl⟩ := List.mem_map.mp hr
    obtain ⟨u, hum, hsu⟩ := List.mem_flatMap.mp hsp
    exact (gu_rules_mem (hu u hum)).1 _ (List.mem_map_of_mem (f := Space.text) hsu)

/-- A literal unit has no backslash: its brackets would end in it. -/
theorem rank_zero_backslash {u : GUnit} (h : u.Valid) (h0 : u.rank = 0) : Space.sign '\\' ∉ u.spaces := by
  have hr := gu_readable h
  unfold GUnit.Readable at hr
  cases u with
  | run sp w => simpa [GUnit.spaces, eq_comm] using hr
  | wild R => simp [GUnit.rank] at h0
  | cls R n =>
    match R, h0, hr with
    | [.sign c], _, hr => simpa [GUnit.spaces, eq_comm] using hr
    | [], h0, _ => simp [GUnit.rank] at h0
    | [.lower], h0, _ => simp [GUnit.rank] at h0
    | [.upper], h0, _ => simp [GUnit.rank] at h0
    | [.digit], h0, _ => simp [GUnit.rank] at h0
    | _ :: _ :: _, h0, _ => simp [GUnit.rank] at h0

/-- **When a generated pattern is selected.** -/
theorem gen_sel {us : List GUnit} (hg : Generated us) {s : Str} (hk : ∀ c ∈ s, Known c) {p : MatchPattern} {lp : Bool}
    (hmk : mkMatchPattern p.str lp = .ok p) (e : p.str = patText us) :
    (unitsFuzzyRule p.units = (ppOf (runsOf s)).fuzzyRule ∧ SelF (ppOf (runsOf s)) p) ↔ Matches lp us s := by
  obtain ⟨-, hgood, -⟩ := mkMatchPattern_good hmk
  have hr := runsOf_spec hk
  by_cases hne : us = []
  · subst hne
    rw [lit_sel (w := []) (rs := []) ⟨rfl, by simp, by simp, by intro a x y b e; simp at e⟩ (by simp) hk hgood (by rw [e]; rfl)]
    constructor
    · rintro rfl
      exact ⟨[], ⟨[], ⟨rfl, by simp, by simp, by intro a x y b e; simp at e⟩, rfl⟩, trivial⟩
    · rintro ⟨parts, hp, hf⟩
      have := fitsAll_length hf
      have hp0 : parts = [] := List.length_eq_zero_iff.mp this.symm
      rw [← parts_flatten hp, hp0]; rfl
  have hu := good_gen hgood hg.valid hg.apart e
  rw [if_neg hne] at hu
  have hc := gen_cls hmk hg e
  have hrule : Matches lp us s → unitsFuzzyRule p.units = (ppOf (runsOf s)).fuzzyRule := by
    rintro ⟨parts, hp, hf⟩
    exact matches_rule hg.valid hk hu (parts_flatten hp) hf
  suffices hsel : kind lp us = .length ∨ kind lp us = .wild ∨
      (unitsFuzzyRule p.units = (ppOf (runsOf s)).fuzzyRule → (SelF (ppOf (runsOf s)) p ↔ Matches lp us s)) by
    by_cases h1 : kind lp us = .length ∨ kind lp us = .wild
    · obtain ⟨u, rfl⟩ := kind_one h1
      have hm : Matches lp [u] s ↔ u.Fits s := by
        unfold Matches
        constructor
        · rintro ⟨parts, hp, hf⟩
          have : parts = [s] := by rcases h1 with h1 | h1 <;> (rw [h1] at hp; exact hp)
          subst this
          exact hf.1
        · intro hf
          exact ⟨[s], by rcases h1 with h1 | h1 <;> (rw [h1]; rfl), hf, trivial⟩
      rw [hm, ← unit_sel (hg.valid u (by simp)) hr, one_unit hgood hu]
      have hp : (gpart (runsOf s)).piece = (ppOf (runsOf s)).piece := by rw [(gpart_pair _).1, gpair_ppOf]
      have hf : (gpart (runsOf s)).fuzzyRule = (ppOf (runsOf s)).fuzzyRule := by rw [(gpart_pair _).2, gpair_ppOf]
      have hu1 : unitsFuzzyRule (unitMP (guUnit u)).units = (guUnit u).fuzzyRule := by
        simp [unitsFuzzyRule, PatternUnit.fuzzyRule, unitMP]
      have hs : SelF (ppOf (runsOf s)) (unitMP (guUnit u)) ↔ SelU (ppOf (runsOf s)) (unitMP (guUnit u)) := by
        unfold SelF
        rw [if_pos (unitMP_simple _)]
      rw [hu1, hs, hf, selU_congr hp]
      exact and_congr_left fun _ => eq_comm
    · rcases hsel with h | h | h
      · exact absurd (.inl h) h1
      · exact absurd (.inr h) h1
      · exact ⟨fun x => (h x.1).mp x.2, fun x => ⟨hrule x, (h (hrule x)).mpr x⟩⟩
  have hmul : ∀ {c : ViewCls} {gs : List (List Run)}, p.cls = c → ¬ SimpleCls c → gs.flatten = runsOf s →
      viewPieces c (ppOf (runsOf s)) = gs.map gpart → (SelF (ppOf (runsOf s)) p ↔ FitsAll us (gs.map rawOf)) := by
    intro c gs e1 e2 e3 e4
    rw [selF_multi (by rw [e1]; exact e2), e1, e4]
    exact selM_gen hg.valid (by rw [e3]; exact hr) hu
  cases hkd : kind lp us with
  | length => exact .inl rfl
  | wild => exact .inr (.inl rfl)
  | literal =>
    right; right
    intro hfz
    rw [hkd] at hc
    have hb : '\\' ∉ s := by
      intro hm
      obtain ⟨u, hum, hus⟩ := List.mem_flatMap.mp (((gen_rule_iff hg.valid hk hu).mp hfz (.sign '\\')).mpr ⟨_, hm, by decide⟩)
      exact rank_zero_backslash (hg.valid u hum) (kind_literal hkd u hum) hus
    have hs : SelF (ppOf (runsOf s)) p ↔ (ppOf (runsOf s)).piece = p.str := by
      unfold SelF
      rw [if_pos (by rw [hc]; exact .inl rfl)]
      unfold SelU
      rw [hc]; rfl
    rw [hs, e, show (ppOf (runsOf s)).piece = ((runsOf s).map runText).flatten from rfl,
      literal_iff hg.valid hg.apart (kind_literal hkd) hr hb]
    unfold Matches
    rw [hkd]
    constructor
    · intro h; exact ⟨_, ⟨_, hr, rfl⟩, h⟩
    · rintro ⟨parts, ⟨rs, h1, rfl⟩, h2⟩
      rwa [runs_unique hr h1]
  | runs =>
    right; right
    intro hfz
    rw [hkd] at hc
    rw [hmul hc (by decide) (run_singles _) (multi_groups _), map_single_raw]
    unfold Matches
    rw [hkd]
    constructor
    · intro h; exact ⟨_, ⟨_, hr, rfl⟩, h⟩
    · rintro ⟨parts, ⟨rs, h1, rfl⟩, h2⟩
      rwa [runs_unique hr h1]
  | mixed =>
    right; right
    intro hfz
    rw [hkd] at hc
    have h2 := kind_two (.inl hkd)
    obtain ⟨gs, e1, -, e3⟩ := mixg_exists (runsOf s)
    have hM : Matches lp us s ↔ FitsAll us (gs.map rawOf) := by
      unfold Matches
      rw [hkd]
      constructor
      · rintro ⟨parts, ⟨hs, h1, h3, h4, rfl⟩, h5⟩
        rw [← mixG_unique ((mixRuns_iff hs).mpr ⟨h3, h4⟩) e3 ((runs_unique h1 hr).trans e1.symm)]
        exact h5
      · intro h
        exact ⟨_, ⟨gs, by rw [e1]; exact hr, e3.1, e3.2, rfl⟩, h⟩
    rw [hM]
    by_cases hl : 2 ≤ (runsOf s).length
    · exact hmul hc (by decide) e1 (mixed_groups hl e3 e1)
    · refine iff_of_false ?_ ?_
      · rw [selF_multi (by rw [hc]; decide), hc]
        show ¬ SelM (mixedPieces _) p
        unfold mixedPieces
        rw [if_pos (by simp [ppOf]; omega)]
        intro h
        have := congrArg List.length h.1
        rw [hu] at this
        simp at this
        omega
      · intro h
        have h3 := fitsAll_length h
        rw [List.length_map] at h3
        have : gs.length ≤ gs.flatten.length := by
          have hn : ∀ g ∈ gs, g ≠ [] := fun g hgm => (e3.good g hgm).1
          clear hmul h h3 hM e1 e3
          induction gs with
          | nil => simp
          | cons g gs ih =>
            have := List.length_pos_iff.mpr (hn g (by simp))
            have := ih (fun x hx => hn x (by simp [hx]))
            simp only [List.length_cons, List.flatten_cons, List.length_append]
            omega
        rw [e1] at this
        omega
  | dotted =>
    right; right
    intro hfz
    rw [hkd] at hc
    have hd := kind_dotted hkd
    have h3 : us.length = 3 := by obtain ⟨a, d, b, rfl, -⟩ := hd; rfl
    have hdot : ∀ {x : Run}, x.1 = .sign '.' ↔ x.1.text = ruleDot := by
      intro x
      constructor
      · intro h; rw [h]; decide
      · intro h; exact text_inj (h.trans (by decide))
    rw [selF_multi (by rw [hc]; decide), hc]
    show SelM (lastDotPieces _) p ↔ _
    unfold Matches
    rw [hkd]
    constructor
    · intro h
      rcases lastDot_cases (runsOf s) with h1 | ⟨d, r, t, gs, h1, h2, h4, h5, h6, h7, h8⟩
      · exfalso
        rw [h1] at h
        have := congrArg List.length h.1
        rw [hu] at this
        simp at this
        omega
      · rw [h8, selM_gen hg.valid (by rw [show (d :: [r] :: gs).flatten = d ++ r :: gs.flatten by simp, h7, ← h1]; exact hr) hu] at h
        have hl := fitsAll_length h
        simp at hl
        have : ∃ g, gs = [g] := List.length_eq_one_iff.mp (by omega)
        obtain ⟨g, rfl⟩ := this
        simp at h7
        subst h7
        refine ⟨_, ⟨d, r, g, by rw [← h1]; exact hr, hdot.mpr h2, fun x hx => text_mem_digitAscii_iff.mp (h5 x hx), h4, rfl⟩, ?_⟩
        simpa [rawOf, rawText] using h
    · rintro ⟨parts, ⟨ga, x, gb, h1, h2, h4, h5, rfl⟩, h6⟩
      have hrs := runs_unique hr h1
      have hbn : gb ≠ [] := by
        rintro rfl
        obtain ⟨a, d, b, rfl, -⟩ := hd
        have := fits_spaces (hg.valid b (by simp)) h6.2.2.1
        obtain ⟨sp, hsp⟩ := List.exists_mem_of_ne_nil _ (valid_spaces (hg.valid b (by simp)))
        obtain ⟨c, hc, -⟩ := (this sp).mp hsp
        simp [rawText] at hc
      rw [hrs, (lastDot_iff rfl h2 hbn h4).1 h5, selM_gen hg.valid (by simpa using h1) hu]
      simpa [rawOf, rawText] using h6

end OsUrl
