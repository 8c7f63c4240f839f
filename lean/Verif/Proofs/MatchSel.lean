import Verif.Proofs.ViewSplit

/-! The matcher's selection for tame patterns. -/

namespace OsUrl
open Spec

/-- A pattern of several units has no empty class, and `/` stands alone in its class. -/
def Tame (p : MatchPattern) : Prop :=
  2 ≤ p.units.length → ∀ u ∈ p.units, u.rules ≠ [] ∧ (['/'] ∈ u.rules → u.rules = [['/']])

/-- A unit with a length is written as the program writes it. -/
def Canon (p : MatchPattern) : Prop :=
  ∀ u ∈ p.units, unitCls u = .length → u.str = specStr u.fuzzyRule u.num

theorem multi_two {p : MatchPattern} (h : GoodPat p) (hc : MultiCls p.cls) : 2 ≤ p.units.length := by
  obtain ⟨b, hb⟩ := h.2
  have hne := h.ne
  rcases hu : p.units with _ | ⟨u, _ | ⟨v, us⟩⟩
  · exact absurd hu hne
  · exfalso
    rw [hu] at hb
    have hs : SimpleCls (unitCls u) := unitMP_simple u
    have : p.cls = unitCls u := by rw [hb]; rfl
    rw [← this] at hs
    exact multi_not_simple hc hs
  · simp

theorem two_units {p : MatchPattern} (h : GoodPat p) (h2 : 2 ≤ p.units.length) :
    ∀ u ∈ p.units, UnitForm u ∧ u.str ≠ [] := by
  rcases patternUnits_form h.1 with ⟨-, e⟩ | ⟨-, hu⟩
  · rw [e] at h2; simp at h2
  · exact hu

theorem two_rules {p : MatchPattern} (h : GoodPat p) (h2 : 2 ≤ p.units.length) {u : PatternUnit} (hu : u ∈ p.units) :
    ∀ r ∈ u.rules, r ∈ ruleSet :=
  ((two_units h h2 u hu).1.rules (two_units h h2 u hu).2).1

theorem tame_tokens {p : MatchPattern} (h : GoodPat p) (h2 : 2 ≤ p.units.length) (ht : Tame p) :
    ∀ t ∈ p.units.map (·.fuzzyRule), Token t := by
  intro t htm
  obtain ⟨u, hu, rfl⟩ := List.mem_map.mp htm
  obtain ⟨h3, h4⟩ := ht h2 u hu
  refine joinSorted_token (two_rules h h2 hu) h3 ?_
  intro hs r hr
  rw [h4 hs] at hr
  simpa using hr

/-- What is known of a pattern and a piece at the same position of a group. -/
structure AtPos (s : Str) (p : MatchPattern) : Prop where
  good : GoodPat p
  fuzzy : unitsFuzzyRule p.units = (ppOf (runsOf s)).fuzzyRule
  last : p.cls = .lastDot → '/' ∉ (ppOf (runsOf s)).fuzzyRule

theorem unit_rule_sub {p : MatchPattern} {u : PatternUnit} (hu : u ∈ p.units) {c : Char} (hc : c ∈ u.fuzzyRule) :
    c ∈ unitsFuzzyRule p.units := by
  obtain ⟨r, hr, hc⟩ := List.mem_flatten.mp hc
  rw [mem_sortedSet] at hr
  refine List.mem_flatten.mpr ⟨r, ?_, hc⟩
  rw [mem_sortedSet, List.mem_flatMap]
  exact ⟨u, hu, hr⟩

theorem group_rule_sub {rs : List (Space × Str)} {gs : List (List (Space × Str))} (hf : gs.flatten = rs)
    {g : List (Space × Str)} (hg : g ∈ gs) {c : Char} (hc : c ∈ (gpair g).2) : c ∈ (ppOf rs).fuzzyRule := by
  rw [fuzzyRule_eq]
  obtain ⟨r, hr, hc⟩ := List.mem_flatten.mp hc
  rw [mem_sortedSet] at hr
  obtain ⟨x, hx, rfl⟩ := List.mem_map.mp hr
  refine List.mem_flatten.mpr ⟨x.1.text, ?_, hc⟩
  rw [mem_sortedSet]
  exact List.mem_map.mpr ⟨x, by rw [← hf]; exact List.mem_flatten.mpr ⟨g, hg, hx⟩, rfl⟩

theorem view_rules {c : ViewCls} {rs : List (Space × Str)} {gs : List (List (Space × Str))}
    (h : (viewPieces c (ppOf rs)).map vpair = gs.map gpair) :
    (viewPieces c (ppOf rs)).map (·.fuzzyRule) = gs.map (fun g => (gpair g).2) := by
  have := congrArg (List.map Prod.snd) h
  simpa [List.map_map, Function.comp_def, vpair] using this

theorem join_split_inj {xs ys : List Str} (hx : xs ≠ []) (hy : ys ≠ []) (h1 : ∀ t ∈ xs, '/' ∉ t) (h2 : ∀ t ∈ ys, '/' ∉ t)
    (e : join ['/'] xs = join ['/'] ys) : xs = ys := by
  have a := splitChar_join hx h1
  have b := splitChar_join hy h2
  rw [← a, ← b, e]

theorem view_key {s : Str} (hk : ∀ c ∈ s, Known c) {p : MatchPattern} (ha : AtPos s p) (ht : Tame p) (hc : MultiCls p.cls)
    (e : viewStr (viewPieces p.cls (ppOf (runsOf s))) = rkey p) :
    (viewPieces p.cls (ppOf (runsOf s))).map (·.fuzzyRule) = p.units.map (·.fuzzyRule) := by
  have h2 := multi_two ha.good hc
  have htok := tame_tokens ha.good h2 ht
  have hr := runsOf_spec hk
  obtain ⟨gs, e1, e2, hok, hl⟩ := view_split p.cls (runsOf s)
  have ev := view_rules e2
  unfold viewStr rkey fuzzyJoin at e
  rw [ev] at e ⊢
  have hune : p.units.map (·.fuzzyRule) ≠ [] := by intro h; rw [List.map_eq_nil_iff] at h; rw [h] at h2; simp at h2
  by_cases hl' : p.cls = .lastDot
  · have hs := ha.last hl'
    refine join_split_inj (by simpa using hl hl') hune ?_ ?_ e
    · intro t htm hsl
      obtain ⟨g, hg, rfl⟩ := List.mem_map.mp htm
      exact hs (group_rule_sub e1 hg hsl)
    · intro t htm hsl
      obtain ⟨u, hu, rfl⟩ := List.mem_map.mp htm
      exact hs (ha.fuzzy ▸ unit_rule_sub hu hsl)
  · have single_tok : ∀ r ∈ runsOf s, Token (gpair [r]).2 := by
      intro r hr'
      have hv : r.1.text ∈ ruleSet := mem_ruleSet.mpr ⟨r.1, hr.valid r hr', rfl⟩
      exact joinSorted_token (by simpa using hv) (by simp) (by intro h x hx; simp at h hx; rw [hx, h])
    have hall : gs = [[]] ∨ ∀ g ∈ gs, Token (gpair g).2 := by
      rcases hc with hc | hc | hc
      · right
        rw [hc] at hok
        have hok : gs = (runsOf s).map (fun r => [r]) := hok
        rw [hok]
        intro g hg
        obtain ⟨r, hr', rfl⟩ := List.mem_map.mp hg
        exact single_tok r hr'
      · rw [hc] at hok
        rcases hok with ⟨rfl, hlen⟩ | hok
        · rcases hrs : runsOf s with _ | ⟨r, _ | ⟨r', rs⟩⟩
          · left; rfl
          · right
            intro g hg
            simp at hg
            subst hg
            exact single_tok r (by rw [hrs]; simp)
          · rw [hrs] at hlen; simp at hlen
        · right
          intro g hg
          obtain ⟨g1, g2⟩ := hok g hg
          rcases g2 with g2 | ⟨r, rfl⟩
          · refine joinSorted_token (group_rules_mem (runs_group hr e1 hg)) (by simpa using g1) ?_
            intro hsl
            obtain ⟨r, hrg, hrt⟩ := List.mem_map.mp hsl
            have := g2 r hrg
            rw [hrt] at this
            exact absurd this (by decide)
          · exact single_tok r (by rw [← e1]; exact List.mem_flatten.mpr ⟨_, hg, by simp⟩)
      · exact absurd hc hl'
    rcases hall with rfl | hall
    · exfalso
      have : join ['/'] (List.map (fun g => (gpair g).2) [([] : List (Space × Str))]) = [] := by decide
      rw [this] at e
      exact join_ne_nil htok hune e.symm
    · refine join_inj ?_ htok e
      intro t htm
      obtain ⟨g, hg, rfl⟩ := List.mem_map.mp htm
      exact hall g hg

theorem lvl_of {s : Str} (hk : ∀ c ∈ s, Known c) {ps : List MatchPattern} (ha : ∀ p ∈ ps, AtPos s p)
    (ht : ∀ p ∈ ps, Tame p) (hi : StrInj ps) : Lvl (ppOf (runsOf s)) ps := by
  refine ⟨fun p hp => (ha p hp).good, hi, ?_, ?_⟩
  · intro p hp q hq hc hcq e
    exact join_inj (tame_tokens (ha p hp).good (multi_two (ha p hp).good hc) (ht p hp))
      (tame_tokens (ha q hq).good (multi_two (ha q hq).good (hcq ▸ hc)) (ht q hq)) e
  · intro p hp hc e
    exact view_key hk (ha p hp) (ht p hp) hc e

theorem lvlT_of {s : Str} (hk : ∀ c ∈ s, Known c) (ps : List MatchPattern) : LvlT (ppOf (runsOf s)) ps := by
  refine ⟨⟨_, pieceLength_runs hk⟩, ?_⟩
  intro p hp hc vp hvp
  obtain ⟨gs, e1, e2, -, -⟩ := view_split p.cls (runsOf s)
  have : vpair vp ∈ (viewPieces p.cls (ppOf (runsOf s))).map vpair := List.mem_map_of_mem hvp
  rw [e2] at this
  obtain ⟨g, hg, hgv⟩ := List.mem_map.mp this
  exact ⟨_, group_length (runs_group (runsOf_spec hk) e1 hg) hgv.symm⟩

theorem lvlC_of {s : Str} {ps : List MatchPattern} (ha : ∀ p ∈ ps, AtPos s p)
    (hcan : ∀ p ∈ ps, Canon p) (hi : StrInj ps) : LvlC (ppOf (runsOf s)) ps := by
  constructor
  · intro p hp q hq c1 c2 e
    have single : ∀ p ∈ ps, p.cls = .length → ∃ u, p.units = [u] ∧ unitCls u = .length := by
      intro p hp c
      obtain ⟨b, hb⟩ := (ha p hp).good.2
      rcases hu : p.units with _ | ⟨u, _ | ⟨v, us⟩⟩
      · exact absurd hu (ha p hp).good.ne
      · refine ⟨u, rfl, ?_⟩
        rw [hu, c] at hb
        exact hb.symm
      · exfalso
        rw [hu, c] at hb
        unfold viewClsFromUnits at hb
        simp only at hb
        revert hb
        split <;> (repeat' split) <;> simp
    obtain ⟨u, hu, cu⟩ := single p hp c1
    obtain ⟨v, hv, cv⟩ := single q hq c2
    have f1 := (ha p hp).fuzzy
    have f2 := (ha q hq).fuzzy
    rw [hu] at f1
    rw [hv] at f2
    have f : u.fuzzyRule = v.fuzzyRule := by
      have := f1.trans f2.symm
      simpa [unitsFuzzyRule, PatternUnit.fuzzyRule] using this
    have hn : u.num = v.num := by simpa [headNum, hu, hv] using e
    have s1 := hcan p hp u (by rw [hu]; simp) cu
    have s2 := hcan q hq v (by rw [hv]; simp) cv
    have es : u.str = v.str := by rw [s1, s2, f, hn]
    apply hi p hp q hq
    have g1 := (ha p hp).good.flat
    have g2 := (ha q hq).good.flat
    rw [hu] at g1
    rw [hv] at g2
    simp at g1 g2
    rw [← g1, ← g2, es]
  · intro p hp q hq u hu v hv f cu cv hn
    have s1 := hcan p hp u hu cu
    have s2 := hcan q hq v hv cv
    exact unit_eq_of_str ((ha p hp).good.unit u hu) ((ha q hq).good.unit v hv) (by rw [s1, s2, f, hn])

/-! ### whole URLs -/

/-- At a position, among the loads with the structure of a URL. -/
theorem atPos_of {hist : List (Str × Option Str)} {url : Str} {m : URLMeta} {pieces : List Str} {pps : List ParsedPiece}
    (h : parse url = .ok (m, .pieces pps)) (_ : ∀ s ∈ pieces, ∀ c ∈ s, Known c)
    (hpps : pps = pieces.map (fun s => ppOf (runsOf s)))
    {r : MRec} (hr : r ∈ macc hist) (hm : r.m = m)
    (hf : r.ps.map (fun p => unitsFuzzyRule p.units) = pps.map (·.fuzzyRule)) {i : Nat} {s : Str} {p : MatchPattern}
    (hi : pieces[i]? = some s) (hp : r.ps[i]? = some p) : AtPos s p := by
  obtain ⟨t, -, e⟩ := mem_macc.mp hr
  have hg := parse_patterns_at e i p hp
  obtain ⟨-, g1, g2⟩ := mkMatchPattern_good hg
  have hf' : unitsFuzzyRule p.units = (ppOf (runsOf s)).fuzzyRule := by
    have := congrArg (fun l => l[i]?) hf
    simpa [hp, hpps, hi] using this
  refine ⟨g1, hf', ?_⟩
  intro hl
  have hlast : (i + 1 == r.m.pathDepth) = true := by
    cases hb : (i + 1 == r.m.pathDepth) with
    | true => rfl
    | false =>
      exfalso
      rw [hb] at g2
      rw [hl] at g2
      revert g2
      unfold viewClsFromUnits
      split
      · split <;> (try split) <;> simp
      · simp only
        split
        · simp only [Bool.false_eq_true, false_and, if_false]
          split <;> (try split) <;> simp
        · split <;> (try split) <;> simp
  obtain ⟨ps, vs, fs, ef, hst⟩ := parse_struct h
  rw [← hm] at hst
  have hd := hst.depth
  simp only [beq_iff_eq] at hlast
  have : (ppOf (runsOf s)).fuzzyRule ∈ ps := by
    have e1 : (pps.map (·.fuzzyRule))[i]? = some (ppOf (runsOf s)).fuzzyRule := by simp [hpps, hi]
    have e2 : pps.map (·.fuzzyRule) = ps ++ vs ++ fs := ef
    rw [e2, List.append_assoc, List.getElem?_append_left (by omega)] at e1
    exact List.mem_of_getElem? e1
  exact hst.slash _ this

/-- All loaded patterns are tame. -/
def AllTame (hist : List (Str × Option Str)) : Prop :=
  ∀ s md m ps, (s, md) ∈ hist → parse s = .ok (m, .patterns ps) → ∀ p ∈ ps, Tame p

/-- All loaded patterns are canonical. -/
def AllCanon (hist : List (Str × Option Str)) : Prop :=
  ∀ s md m ps, (s, md) ∈ hist → parse s = .ok (m, .patterns ps) → ∀ p ∈ ps, Canon p

theorem AllTame.rec {hist : List (Str × Option Str)} (h : AllTame hist) {r : MRec} (hr : r ∈ macc hist) :
    ∀ p ∈ r.ps, Tame p := by
  obtain ⟨s, hs, e⟩ := mem_macc.mp hr
  exact h s _ _ _ hs e

theorem AllCanon.rec {hist : List (Str × Option Str)} (h : AllCanon hist) {r : MRec} (hr : r ∈ macc hist) :
    ∀ p ∈ r.ps, Canon p := by
  obtain ⟨s, hs, e⟩ := mem_macc.mp hr
  exact h s _ _ _ hs e

theorem parse_url {url : Str} {m : URLMeta} {pps : List ParsedPiece} (h : parse url = .ok (m, .pieces pps)) :
    ∃ pieces, analyzeUrl url = .ok (m, pieces) ∧ (∀ s ∈ pieces, ∀ c ∈ s, Known c) ∧
      pps = pieces.map (fun s => ppOf (runsOf s)) := by
  obtain ⟨pieces, h1, h2⟩ := parse_pieces h
  obtain ⟨hk, hp⟩ := parsePieces_ok h2
  exact ⟨pieces, h1, hk, hp⟩

/-- The result of `match` for tame patterns. -/
theorem match_main {md5 : Str → Str} {hist : List (Str × Option Str)} {url : Str} {m : URLMeta} {pieces : List Str}
    {pps : List ParsedPiece} (h : parse url = .ok (m, .pieces pps)) (hk : ∀ s ∈ pieces, ∀ c ∈ s, Known c)
    (hpps : pps = pieces.map (fun s => ppOf (runsOf s)))
    (hc : NoClash md5 (url :: hist.map (·.1))) (ht : AllTame hist) :
    ∃ rs, (mloadAll md5 hist).match_ md5 url = .ok rs ∧
      (∀ x ∈ rs, ∃ r ∈ macc hist, r.m = m ∧ r.ps = x.path ∧
        r.ps.map (fun p => unitsFuzzyRule p.units) = pps.map (·.fuzzyRule) ∧
        ∀ (i : Nat) (s : Str) (p : MatchPattern), pieces[i]? = some s → r.ps[i]? = some p →
          AtPos s p ∧ SelF (ppOf (runsOf s)) p) ∧
      (∀ r ∈ macc hist, r.m = m → (AllCanon hist ∨ ∀ p ∈ r.ps, p.cls = .piece) →
        r.ps.map (fun p => unitsFuzzyRule p.units) = pps.map (·.fuzzyRule) →
        (∀ (i : Nat) (s : Str) (p : MatchPattern), pieces[i]? = some s → r.ps[i]? = some p →
          SelF (ppOf (runsOf s)) p) → ∃ x ∈ rs, x.path = r.ps) := by
  obtain ⟨g, hg, -, hcase⟩ := match_grp hc h
  rcases hcase with ⟨rfl, hnil⟩ | ⟨hne, d, kids, hT, hmm⟩
  · refine ⟨[], hnil, by simp, ?_⟩
    intro r hr hm _ hf _
    have := (hg r).mpr ⟨hr, hm, hf⟩
    simp at this
  · obtain ⟨r0, hr0⟩ := List.exists_mem_of_ne_nil _ hne
    obtain ⟨h01, h02, h03⟩ := (hg r0).mp hr0
    obtain ⟨hd1, hd2⟩ := rec_depth h01
    obtain ⟨n, hn⟩ : ∃ n, m.depth = n + 1 := ⟨m.depth - 1, by rw [h02] at hd2; omega⟩
    rw [hn] at hT
    have hL : ∀ y ∈ g.map MRec.ins, y.1.length = n + 1 := by
      intro y hy
      obtain ⟨r, hr, rfl⟩ := List.mem_map.mp hy
      obtain ⟨a1, a2, a3⟩ := (hg r).mp hr
      rw [← hn, ← a2]
      exact (rec_depth a1).1
    have hlen : n + 1 ≤ pps.length := by
      have := congrArg List.length h03
      simp only [List.length_map] at this
      rw [← this, hd1, h02, hn]
      exact Nat.le_refl _
    have hcoh : Coh (g.map MRec.ins) :=
      rec_coh (hist := hist) (fun r hr => ((hg r).mp hr).1)
        (fun r hr r' hr' => ((hg r).mp hr).2.1.trans ((hg r').mp hr').2.1.symm)
    have hat : ∀ (i : Nat) (s : Str) (p : MatchPattern), pieces[i]? = some s → p ∈ patsAt i (g.map MRec.ins) →
        AtPos s p ∧ Tame p ∧ (AllCanon hist → Canon p) := by
      intro i s p hi hp
      obtain ⟨x, hx, hxp⟩ := mem_patsAt.mp hp
      obtain ⟨r, hr, rfl⟩ := List.mem_map.mp hx
      obtain ⟨a1, a2, a3⟩ := (hg r).mp hr
      have hmem : p ∈ r.ps := List.mem_of_getElem? hxp
      exact ⟨atPos_of h hk hpps a1 a2 a3 hi hxp, ht.rec a1 p hmem, fun hcan => hcan.rec a1 p hmem⟩
    have hinj : ∀ i, StrInj (patsAt i (g.map MRec.ins)) := by
      intro i p hp q hq e
      obtain ⟨x, hx, hxp⟩ := mem_patsAt.mp hp
      obtain ⟨y, hy, hyq⟩ := mem_patsAt.mp hq
      exact hcoh x hx y hy i p q hxp hyq e
    have hl : ∀ (i : Nat) (pp : ParsedPiece), pps[i]? = some pp →
        Lvl pp (patsAt i (g.map MRec.ins)) ∧ LvlT pp (patsAt i (g.map MRec.ins)) ∧
          (AllCanon hist → LvlC pp (patsAt i (g.map MRec.ins))) := by
      intro i pp hi
      rw [hpps, List.getElem?_map] at hi
      simp only [Option.map_eq_some_iff] at hi
      obtain ⟨s, hs, rfl⟩ := hi
      have hks := hk s (List.mem_of_getElem? hs)
      exact ⟨lvl_of hks (fun p hp => (hat i s p hs hp).1) (fun p hp => (hat i s p hs hp).2.1) (hinj i),
        lvlT_of hks _, fun hcan => lvlC_of (fun p hp => (hat i s p hs hp).1) (fun p hp => (hat i s p hs hp).2.2 hcan) (hinj i)⟩
    obtain ⟨rs, hrs⟩ := url_match_total hT hL hlen (fun i pp hi => ⟨(hl i pp hi).1, (hl i pp hi).2.1⟩)
    refine ⟨rs, by rw [hmm, hrs], ?_, ?_⟩
    · intro x hx
      obtain ⟨y, hy, hp, hh, -⟩ := mmatch_sound hT hL hcoh hrs hx
      simp at hp
      obtain ⟨r, hr, rfl⟩ := List.mem_map.mp hy
      obtain ⟨a1, a2, a3⟩ := (hg r).mp hr
      refine ⟨r, a1, a2, hp.symm, a3, ?_⟩
      have hsel := url_hits_sound (fun i pp hi => (hl i pp hi).1) (List.mem_map.mpr ⟨r, hr, rfl⟩) hh
      intro i s p hs hp
      refine ⟨atPos_of h hk hpps a1 a2 a3 hs hp, hsel i _ p ?_ hp⟩
      rw [hpps, List.getElem?_map, hs]; rfl
    · intro r hr hm hcan hf hsel
      have hrg := (hg r).mpr ⟨hr, hm, hf⟩
      have := (url_match_mem hT hL hcoh hlen (fun i pp hi => ⟨(hl i pp hi).1, (hl i pp hi).2.1⟩)
        hrs r.ps (fun i pp p hi hp => hcan.elim (fun hcan => .inr ((hl i pp hi).2.2 hcan))
          (fun hpc => .inl (hpc p (List.mem_of_getElem? hp))))).mpr ⟨⟨r.md, List.mem_map.mpr ⟨r, hrg, rfl⟩⟩, ?_⟩
      · exact this
      · intro i pp p hpp hp
        rw [hpps, List.getElem?_map] at hpp
        simp only [Option.map_eq_some_iff] at hpp
        obtain ⟨s, hs, rfl⟩ := hpp
        exact hsel i s p hs hp

end OsUrl
