import Verif.Proofs.MixedMatch

/-! `MixedPatternViewMatcher` filled with generated patterns. -/

namespace OsUrl
open Spec

theorem two_blocks {lp : Bool} {us : List GUnit} (hk : kind lp us = .mixed) {bs : List (List GUnit)} (hb : Blocks us bs) :
    2 ≤ bs.length := by
  have h2 := kind_two (.inl hk)
  match bs, hb with
  | [], hb => have := hb.flat; simp at this; subst this; simp at h2
  | [b], hb =>
    have hf := hb.flat
    simp at hf
    subst hf
    rcases (hb.good b (by simp)).2 with hj | ⟨u, rfl, -⟩
    · exfalso
      have : kind lp b = .literal := by
        unfold kind
        rw [if_pos]
        rw [List.all_eq_true]
        intro u hu
        simp [(hj u hu).1]
      rw [this] at hk; cases hk
    · simp at h2
  | _ :: _ :: _, _ => simp

theorem blockMP_simple {us : List GUnit} {bs : List (List GUnit)} (hb : Blocks us bs) (hv : ∀ u ∈ us, u.Valid) {b : List GUnit}
    (hm : b ∈ bs) : SimpleCls (blockMP b).cls := by
  have hg := hb.good b hm
  rcases hg.2 with hj | ⟨u, rfl, -⟩
  · rw [blockMP_joined (hb.valid hv b hm) hg.1 hj]; exact .inl rfl
  · rw [blockMP_single]; exact unitMP_simple _

theorem blockMP_inj {b c : List GUnit} (hb : ∀ u ∈ b, u.Valid) (hc : ∀ u ∈ c, u.Valid) (ab : Neighbours GUnit.Differ b)
    (ac : Neighbours GUnit.Differ c) (nb : b ≠ []) (nc : c ≠ []) (e : patText b = patText c) : blockMP b = blockMP c := by
  have h1 := gen_units hb ab nb
  rw [e, gen_units hc ac nc, Except.ok.injEq] at h1
  unfold blockMP
  rw [e, h1]

theorem block_token {us : List GUnit} (hg : Generated us) (h2 : 2 ≤ us.length) {bs : List (List GUnit)} (hb : Blocks us bs)
    {b : List GUnit} (hm : b ∈ bs) : Token (unitsFuzzyRule (blockMP b).units) := by
  have hv := hb.valid hg.valid b hm
  have hgb := hb.good b hm
  refine joinSorted_token ?_ ?_ ?_
  · intro r hr
    obtain ⟨u, hu, hr⟩ := List.mem_flatMap.mp hr
    obtain ⟨x, hx, rfl⟩ := List.mem_map.mp hu
    exact (gu_rules_mem (hv x hx)).1 r hr
  · obtain ⟨u, hu⟩ := List.exists_mem_of_ne_nil _ hgb.1
    obtain ⟨r, hr⟩ := List.exists_mem_of_ne_nil _ (gu_rules_mem (hv u hu)).2.2
    exact List.ne_nil_of_mem (List.mem_flatMap.mpr ⟨guUnit u, List.mem_map_of_mem hu, hr⟩)
  · intro hs
    obtain ⟨u, hu, hs⟩ := List.mem_flatMap.mp hs
    obtain ⟨x, hx, rfl⟩ := List.mem_map.mp hu
    obtain ⟨sp, hsp, e⟩ := List.mem_map.mp hs
    have hsl : sp = .sign '/' := text_inj (e.trans (by decide))
    subst hsl
    rcases hgb.2 with hj | ⟨y, rfl, -⟩
    · exact absurd ((hj x hx).2 _ hsp) (by decide)
    · simp only [List.mem_singleton] at hx
      subst hx
      have hxu : x ∈ us := by rw [← hb.flat]; exact List.mem_flatten.mpr ⟨_, hm, by simp⟩
      have := hg.slash h2 x hxu hsp
      intro r hr
      have hr : r ∈ ([x].map guUnit).flatMap (·.rules) := hr
      have hr : r ∈ x.spaces.map Space.text := by simpa [guUnit] using hr
      rw [this] at hr
      simp only [List.map_cons, List.map_nil, List.mem_singleton] at hr
      rw [hr]; decide

/-- The item of a pattern. -/
noncomputable def blockItem (us : List GUnit) : InnerItem := ((Classical.choose (blocks_exist us)).map blockMP, patText us)

theorem blockItem_spec (us : List GUnit) : ∃ bs, Blocks us bs ∧ blockItem us = (bs.map blockMP, patText us) :=
  ⟨_, Classical.choose_spec (blocks_exist us), rfl⟩

theorem mixedAdd_item {us : List GUnit} (hg : Generated us) (lp : Bool) (d : Dict Str UnitTree) :
    mixedAdd ⟨patText us, us.map guUnit, viewClsFromUnits (us.map guUnit) lp⟩ d = innerAdd (blockItem us) d := by
  obtain ⟨bs, hb, e⟩ := blockItem_spec us
  unfold mixedAdd
  simp only [hb.loop hg.valid hg.apart]
  rw [e]
  rfl

theorem mixedFill_items {uss : List (List GUnit)} (hg : ∀ us ∈ uss, Generated us) (lp : Bool) :
    mixedFill (uss.map (fun us => ⟨patText us, us.map guUnit, viewClsFromUnits (us.map guUnit) lp⟩)) =
      innerFill (uss.map blockItem) := by
  unfold mixedFill innerFill
  generalize ([] : Dict Str UnitTree) = d
  induction uss generalizing d with
  | nil => rfl
  | cons us uss ih =>
    simp only [List.map_cons, List.foldlM_cons]
    rw [mixedAdd_item (hg us (by simp))]
    cases innerAdd (blockItem us) d with
    | error e => rfl
    | ok d' => exact ih (fun x hx => hg x (by simp [hx])) d'

theorem items_ok {lp : Bool} {uss : List (List GUnit)} (hg : ∀ us ∈ uss, Generated us ∧ kind lp us = .mixed) :
    InnerOK (uss.map blockItem) := by
  have key : ∀ x ∈ uss.map blockItem, ∃ us bs, Generated us ∧ 2 ≤ us.length ∧ 2 ≤ bs.length ∧ Blocks us bs ∧ x = (bs.map blockMP, patText us) := by
    intro x hx
    obtain ⟨us, hu, rfl⟩ := List.mem_map.mp hx
    obtain ⟨bs, hb, e⟩ := blockItem_spec us
    exact ⟨us, bs, (hg us hu).1, kind_two (.inl (hg us hu).2), two_blocks (hg us hu).2 hb, hb, e⟩
  have hcoh : ∀ x ∈ uss.map blockItem, ∀ y ∈ uss.map blockItem, ∀ p ∈ x.1, ∀ q ∈ y.1, p.str = q.str → p = q := by
    intro x hx y hy p hp q hq e
    obtain ⟨us, bs, g1, -, -, hb, rfl⟩ := key x hx
    obtain ⟨us', bs', g1', -, -, hb', rfl⟩ := key y hy
    obtain ⟨b, hbm, rfl⟩ := List.mem_map.mp hp
    obtain ⟨b', hbm', rfl⟩ := List.mem_map.mp hq
    exact blockMP_inj (hb.valid g1.valid b hbm) (hb'.valid g1'.valid b' hbm') (hb.apart g1.apart b hbm) (hb'.apart g1'.apart b' hbm')
      (hb.good b hbm).1 (hb'.good b' hbm').1 e
  refine ⟨?_, ?_, ?_, hcoh, ?_, ?_, ?_⟩
  · intro x hx
    obtain ⟨us, bs, -, -, h, -, rfl⟩ := key x hx
    intro e
    have : bs = [] := by simpa using e
    rw [this] at h; simp at h
  · intro x hx p hp
    obtain ⟨us, bs, -, -, -, hb, rfl⟩ := key x hx
    obtain ⟨b, hbm, rfl⟩ := List.mem_map.mp hp
    have := (hb.good b hbm).1
    simpa [blockMP] using this
  · intro x hx p hp
    obtain ⟨us, bs, g1, -, -, hb, rfl⟩ := key x hx
    obtain ⟨b, hbm, rfl⟩ := List.mem_map.mp hp
    exact blockMP_simple hb g1.valid hbm
  · intro x hx y hy e
    obtain ⟨us, bs, -, -, -, hb, rfl⟩ := key x hx
    obtain ⟨us', bs', -, -, -, hb', rfl⟩ := key y hy
    have hflat : ∀ cs : List (List GUnit), patText cs.flatten = ((cs.map blockMP).map (·.str)).flatten := by
      intro cs
      induction cs with
      | nil => rfl
      | cons c cs ih =>
        rw [List.flatten_cons]
        have : patText (c ++ cs.flatten) = patText c ++ patText cs.flatten := by simp [patText]
        rw [this, ih]
        rfl
    show patText us = patText us'
    rw [← hb.flat, ← hb'.flat, hflat, hflat]
    exact congrArg (fun l => (l.map (·.str)).flatten) e
  · intro x hx y hy e
    obtain ⟨us, bs, g1, g2, -, hb, rfl⟩ := key x hx
    obtain ⟨us', bs', g1', g2', -, hb', rfl⟩ := key y hy
    refine join_inj ?_ ?_ e
    · intro t ht
      obtain ⟨p, hp, rfl⟩ := List.mem_map.mp ht
      obtain ⟨b, hbm, rfl⟩ := List.mem_map.mp hp
      exact block_token g1 g2 hb hbm
    · intro t ht
      obtain ⟨p, hp, rfl⟩ := List.mem_map.mp ht
      obtain ⟨b, hbm, rfl⟩ := List.mem_map.mp hp
      exact block_token g1' g2' hb' hbm
  · intro x hx y hy p hp q hq c1 c2 ef en
    refine hcoh x hx y hy p hp q hq ?_
    obtain ⟨us, bs, g1, -, -, hb, rfl⟩ := key x hx
    obtain ⟨us', bs', g1', -, -, hb', rfl⟩ := key y hy
    obtain ⟨b, hbm, rfl⟩ := List.mem_map.mp hp
    obtain ⟨b', hbm', rfl⟩ := List.mem_map.mp hq
    have one : ∀ {us : List GUnit} {bs : List (List GUnit)} {b : List GUnit}, Generated us → Blocks us bs → b ∈ bs → (blockMP b).cls = .length →
        ∃ u, b = [u] ∧ u.Valid := by
      intro us bs b g hb hm hc
      have hgb := hb.good b hm
      rcases hgb.2 with hj | ⟨u, rfl, -⟩
      · rw [blockMP_joined (hb.valid g.valid b hm) hgb.1 hj] at hc; cases hc
      · exact ⟨u, rfl, hb.valid g.valid _ hm u (by simp)⟩
    obtain ⟨u, rfl, hu⟩ := one g1 hb hbm c1
    obtain ⟨v, rfl, hv⟩ := one g1' hb' hbm' c2
    rw [blockMP_single] at c1 c2 ef en ⊢
    have s1 := gu_canon hu c1
    have s2 := gu_canon hv c2
    have hf : (guUnit u).fuzzyRule = (guUnit v).fuzzyRule := by
      rw [blockMP_single] at ef
      simpa [unitsFuzzyRule, PatternUnit.fuzzyRule, unitMP] using ef
    have hn : (guUnit u).num = (guUnit v).num := by
      rw [blockMP_single] at en
      simpa [headNum, unitMP] using en
    rw [blockMP_single]
    show (guUnit u).str = (guUnit v).str
    rw [s1, s2, hf, hn]

/-- The rules of the mixed parts can be read off the joined rule. -/
theorem mixed_view_tokens {s : Str} (hk : ∀ c ∈ s, Known c) :
    viewPieces .mixed (ppOf (runsOf s)) = [ppOf []] ∨ ∀ t ∈ (viewPieces .mixed (ppOf (runsOf s))).map (·.fuzzyRule), Token t := by
  have hr := runsOf_spec hk
  have single_tok : ∀ r ∈ runsOf s, Token (gpair [r]).2 := by
    intro r hr'
    have hv : r.1.text ∈ ruleSet := mem_ruleSet.mpr ⟨r.1, hr.valid r hr', rfl⟩
    exact joinSorted_token (by simpa using hv) (by simp) (by intro h x hx; simp at h hx; rw [hx, h])
  show mixedPieces _ = _ ∨ ∀ t ∈ (mixedPieces _).map _, _
  by_cases hl : 2 ≤ (runsOf s).length
  · right
    obtain ⟨gs, e1, -, e3⟩ := mixg_exists (runsOf s)
    rw [mixed_groups hl e3 e1]
    intro t ht
    obtain ⟨vp, hvp, rfl⟩ := List.mem_map.mp ht
    obtain ⟨g, hg, rfl⟩ := List.mem_map.mp hvp
    rw [(gpart_pair g).2]
    obtain ⟨g1, g2⟩ := e3.good g hg
    rcases g2 with g2 | ⟨r, rfl, -⟩
    · refine joinSorted_token (group_rules_mem (runs_group hr e1 hg)) (by simpa using g1) ?_
      intro hsl
      obtain ⟨r, hrg, hrt⟩ := List.mem_map.mp hsl
      have := g2 r hrg
      rw [hrt] at this
      exact absurd this (by decide)
    · exact single_tok r (by rw [← e1]; exact List.mem_flatten.mpr ⟨_, hg, by simp⟩)
  · have hmp : mixedPieces (ppOf (runsOf s)) = [ppOf (runsOf s)] := by
      unfold mixedPieces
      rw [if_pos (by simp [ppOf]; omega)]
    rw [hmp]
    rcases hrs : runsOf s with _ | ⟨r, _ | ⟨r', rs⟩⟩
    · exact .inl rfl
    · right
      intro t ht
      simp only [List.map_cons, List.map_nil, List.mem_singleton] at ht
      subst ht
      have := single_tok r (by rw [hrs]; simp)
      rwa [gpair_ppOf] at this
    · rw [hrs] at hl; simp at hl

/-- The selection and the specification. -/
theorem item_sel {lp : Bool} {us : List GUnit} (hg : Generated us) (hkd : kind lp us = .mixed) {s : Str} (hk : ∀ c ∈ s, Known c) :
    SelI (viewPieces .mixed (ppOf (runsOf s))) (blockItem us).1 ↔ MatchesJoined us s := by
  have hr := runsOf_spec hk
  obtain ⟨bs, hb, e⟩ := blockItem_spec us
  rw [e]
  have h2 := two_blocks hkd hb
  obtain ⟨gs, e1, -, e3⟩ := mixg_exists (runsOf s)
  have hrg : ∀ g ∈ gs, Runs (rawOf g) g := fun g hgm => runs_group hr e1 hgm
  have hM : MatchesJoined us s ↔ BlocksFit bs (gs.map rawOf) := by
    constructor
    · rintro ⟨bs', parts, hb', ⟨hs, k1, k3, k4, rfl⟩, k5⟩
      have hse : hs = gs := mixG_unique ((mixRuns_iff hs).mpr ⟨k3, k4⟩) e3 ((runs_unique k1 hr).trans e1.symm)
      subst hse
      have hloop := hb'.loop hg.valid hg.apart
      rw [hb.loop hg.valid hg.apart, Except.ok.injEq] at hloop
      rw [← blocks_sel (hb.valid hg.valid) (hb.apart hg.apart) hb.good hrg, hloop,
        blocks_sel (hb'.valid hg.valid) (hb'.apart hg.apart) hb'.good hrg]
      exact k5
    · intro h
      exact ⟨bs, _, hb, ⟨gs, by rw [e1]; exact hr, e3.1, e3.2, rfl⟩, h⟩
  rw [hM]
  show SelI (mixedPieces _) (bs.map blockMP) ↔ _
  by_cases hl : 2 ≤ (runsOf s).length
  · rw [mixed_groups hl e3 e1]
    exact blocks_sel (hb.valid hg.valid) (hb.apart hg.apart) hb.good hrg
  · refine iff_of_false ?_ ?_
    · unfold mixedPieces
      rw [if_pos (by simp [ppOf]; omega)]
      intro h
      have := congrArg List.length h.1
      simp at this
      omega
    · intro h
      have h3 : bs.length = (gs.map rawOf).length := by
        clear hM e hb h2 e1 e3 hrg
        induction bs generalizing gs with
        | nil =>
          cases gs with
          | nil => rfl
          | cons g gs => cases h
        | cons b bs ih =>
          cases gs with
          | nil => cases h
          | cons g gs => have := ih gs h.2; simpa using this
      rw [List.length_map] at h3
      have : gs.length ≤ gs.flatten.length := by
        have hn : ∀ g ∈ gs, g ≠ [] := fun g hgm => (e3.good g hgm).1
        clear h h3 hM e1 e3 hrg
        induction gs with
        | nil => simp
        | cons g gs ih =>
          have := List.length_pos_iff.mpr (hn g (by simp))
          have := ih (fun x hx => hn x (by simp [hx]))
          simp only [List.length_cons, List.flatten_cons, List.length_append]
          omega
      rw [e1] at this
      omega

/-- Patterns of the same text have the same item. -/
theorem item_text {us vs : List GUnit} (hu : Generated us) (hv : Generated vs) (nu : us ≠ []) (nv : vs ≠ []) (e : patText us = patText vs) :
    blockItem us = blockItem vs := by
  obtain ⟨bs, hb, e1⟩ := blockItem_spec us
  obtain ⟨cs, hc, e2⟩ := blockItem_spec vs
  have h1 := gen_units hu.valid hu.apart nu
  rw [e, gen_units hv.valid hv.apart nv, Except.ok.injEq] at h1
  have h2 := hb.loop hu.valid hu.apart
  rw [← h1, hc.loop hv.valid hv.apart, Except.ok.injEq] at h2
  rw [e1, e2, e, h2]

end OsUrl
