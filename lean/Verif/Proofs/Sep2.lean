import Verif.Proofs.Sep

/-! Stages do not share patterns: routing and groups. -/

namespace OsUrl
open Spec

/-! ### Views depend on the rules -/

/-- The rules of the parts. -/
def prules (ps : List ParsedPiece) : List Str := ps.map (·.fuzzyRule)

/-- Groups of one run each. -/
def singles (rs : List Run) : List (List Run) := rs.map (fun r => [r])

theorem singles_flatten (rs : List Run) : (singles rs).flatten = rs := by
  unfold singles
  induction rs with
  | nil => rfl
  | cons r rs ih => simp [ih]

theorem prules_groups (gs : List (List Run)) : prules (gs.map gpart) = gs.map (fun g => (gpair g).2) := by
  unfold prules
  rw [List.map_map]
  apply List.map_congr_left
  intro g _
  exact (gpart_pair g).2

theorem viewStr_prules (ps : List ParsedPiece) : viewStr ps = fuzzyJoin (prules ps) := rfl

theorem prules_length (ps : List ParsedPiece) : (prules ps).length = ps.length := by simp [prules]

theorem multi_rules (rs : List Run) : prules (multiPieces (ppOf rs)) = rs.map (·.1.text) := by
  rw [multi_groups, prules_groups, List.map_map]
  apply List.map_congr_left
  intro r _
  simp [single_pair]

theorem foldl_mix_congr : ∀ (prs prs' : List (Str × Str)) (st st' : MixSt), prs.map Prod.snd = prs'.map Prod.snd →
    st.mr = st'.mr → st.tr = st'.tr → st.tmix = st'.tmix →
    (prs.foldl mixStep st).mr = (prs'.foldl mixStep st').mr ∧ (prs.foldl mixStep st).tr = (prs'.foldl mixStep st').tr ∧
      (prs.foldl mixStep st).tmix = (prs'.foldl mixStep st').tmix := by
  intro prs
  induction prs with
  | nil =>
    intro prs' st st' h h1 h2 h3
    have : prs' = [] := by simpa using h.symm
    subst this
    exact ⟨h1, h2, h3⟩
  | cons pr prs ih =>
    intro prs' st st' h h1 h2 h3
    cases prs' with
    | nil => simp at h
    | cons pr' prs' =>
      simp only [List.map_cons, List.cons.injEq] at h
      simp only [List.foldl_cons]
      apply ih prs' _ _ h.2
      all_goals
        unfold mixStep
        simp only [h.1, h1, h2, h3]
        repeat' split
        all_goals simp_all

theorem zip_snd_congr {ps ps' rs : List Str} (h : ps.length = ps'.length) : (ps.zip rs).map Prod.snd = (ps'.zip rs).map Prod.snd := by
  induction rs generalizing ps ps' with
  | nil => simp
  | cons r rs ih =>
    cases ps with
    | nil =>
      have : ps' = [] := List.length_eq_zero_iff.mp h.symm
      subst this; rfl
    | cons p ps =>
      cases ps' with
      | nil => simp at h
      | cons p' ps' => simp only [List.zip_cons_cons, List.map_cons, ih (by simpa using h)]

theorem mix_rules_congr {ps ps' rs : List Str} (h : ps.length = ps'.length) : (mix ps rs).2 = (mix ps' rs).2 := by
  have e := zip_snd_congr (rs := rs) h
  obtain ⟨h1, h2, h3⟩ := foldl_mix_congr (ps.zip rs) (ps'.zip rs) ⟨[], [], [], [], false⟩ ⟨[], [], [], [], false⟩ e rfl rfl rfl
  unfold mix
  simp only [h1, h2, h3]
  split <;> rfl

theorem texts_of {rs rs' : List Run} (h : rs.map (·.1) = rs'.map (·.1)) : rs.map (·.1.text) = rs'.map (·.1.text) := by
  have := congrArg (List.map Space.text) h
  simpa [List.map_map, Function.comp_def] using this

theorem mixg_rules {rs : List Run} {gs : List (List Run)} (h : MixG gs) (hf : gs.flatten = rs) :
    gs.map (fun g => (gpair g).2) = (mix (rs.map runText) (rs.map (·.1.text))).2 := by rw [mixG_mix h hf]

theorem mixed_rules {rs rs' : List Run} (h : rs.map (·.1) = rs'.map (·.1)) :
    prules (mixedPieces (ppOf rs)) = prules (mixedPieces (ppOf rs')) := by
  have ht := texts_of h
  have hl : rs.length = rs'.length := by simpa using congrArg List.length h
  by_cases h2 : 2 ≤ rs.length
  · obtain ⟨gs, e1, -, e3⟩ := mixg_exists rs
    obtain ⟨gs', e1', -, e3'⟩ := mixg_exists rs'
    rw [mixed_groups h2 e3 e1, mixed_groups (by omega) e3' e1', prules_groups, prules_groups, mixg_rules e3 e1, mixg_rules e3' e1', ← ht]
    exact mix_rules_congr (by simp [hl])
  · unfold mixedPieces
    rw [if_pos (by simp [ppOf]; omega), if_pos (by simp [ppOf]; omega)]
    have h1 := congrArg Prod.snd (vpair_ppOf rs)
    have h1' := congrArg Prod.snd (vpair_ppOf rs')
    simp only [vpair] at h1 h1'
    unfold prules
    simp only [List.map_cons, List.map_nil, h1, h1', gpair, ht]

theorem lastDot_rules {rs rs' : List Run} (h : rs.map (·.1) = rs'.map (·.1)) :
    prules (lastDotPieces (ppOf rs)) = prules (lastDotPieces (ppOf rs')) := by
  have main : ∀ {rs rs' : List Run}, rs.map (·.1) = rs'.map (·.1) → ∀ {d r t gs}, rs = d ++ r :: t → r.1.text = ruleDot → t.length ≤ 2 →
      (∀ x ∈ t, x.1.text ∈ digitAsciiRuleSet) → MixG gs → gs.flatten = t →
      lastDotPieces (ppOf rs) = (d :: [r] :: gs).map gpart →
      prules (lastDotPieces (ppOf rs)) = prules (lastDotPieces (ppOf rs')) ∧ 2 ≤ (lastDotPieces (ppOf rs')).length := by
    intro rs rs' h d r t gs e hr ht hd hm hf hp
    rw [e, List.map_append, List.map_cons] at h
    obtain ⟨d', t0, rfl, e1, e2⟩ := List.map_eq_append_iff.mp h.symm
    obtain ⟨r', t', rfl, e3, e4⟩ := List.map_eq_cons_iff.mp e2
    obtain ⟨gs', f1, -, f3⟩ := mixg_exists t'
    have hl' : t'.length = t.length := by simpa using congrArg List.length e4
    have htt := texts_of e4
    have hsp := lastDot_split (d := d') (r := r') (t := t') (by rw [e3]; exact hr) (by omega) (by
      intro x hx
      have hmem : x.1.text ∈ t.map (·.1.text) := by rw [← htt]; exact List.mem_map.mpr ⟨x, hx, rfl⟩
      obtain ⟨y, hy, e⟩ := List.mem_map.mp hmem
      rw [← e]; exact hd y hy) f3 f1
    rw [hp, hsp]
    refine ⟨?_, by simp⟩
    rw [prules_groups, prules_groups]
    simp only [List.map_cons, single_pair]
    have hd' := texts_of e1
    have hg : gs.map (fun g => (gpair g).2) = gs'.map (fun g => (gpair g).2) := by
      rw [mixg_rules hm hf, mixg_rules f3 f1, htt]
      exact mix_rules_congr (by simp [hl'])
    rw [hg, e3]
    unfold gpair
    simp only [hd']
  rcases lastDot_cases rs with h1 | ⟨d, r, t, gs, h1, h2, h3, h4, h5, h6, h7⟩
  · rcases lastDot_cases rs' with h1' | ⟨d, r, t, gs, h1', h2, h3, h4, h5, h6, h7⟩
    · rw [h1, h1', prules_groups, prules_groups]
      unfold gpair
      simp only [List.map_cons, List.map_nil, texts_of h]
    · have := (main h.symm h1' h2 h3 h4 h5 h6 h7).2
      rw [h1] at this
      simp at this
  · exact (main h h1 h2 h3 h4 h5 h6 h7).1

theorem dstPiece_rules {cfg : LevelCfg} {rs rs' : List Run} (h : rs.map (·.1) = rs'.map (·.1)) :
    dstPiece cfg (ppOf rs) = dstPiece cfg (ppOf rs') := by
  have hl : rs.length = rs'.length := by simpa using congrArg List.length h
  have h1 : (ppOf rs).pieces.length = (ppOf rs').pieces.length := by simp [ppOf, hl]
  have m1 : prules (multiPieces (ppOf rs)) = prules (multiPieces (ppOf rs')) := by rw [multi_rules, multi_rules, texts_of h]
  have m2 := mixed_rules h
  have m3 := lastDot_rules h
  have l1 := congrArg List.length m1
  have l2 := congrArg List.length m2
  rw [prules_length, prules_length] at l1 l2
  unfold dstPiece routePiece multiView mixedView lastDotView
  simp only [viewStr_prules, h1, m1, m2, m3, l1, l2]
  repeat' (first | rfl | split)
  all_goals simp_all [Route.dst]

/-! ### Carrying groups over -/

theorem sameGrps_rules {gs gs' : List (List Run)} {as : List Str} (h : SameGrps gs as gs') :
    gs'.map (fun g => (gpair g).2) = gs.map (fun g => (gpair g).2) := by
  induction h with
  | nil => rfl
  | cons h hs ih => simp only [List.map_cons, ih, h.rule]

/-- Groups whose rules are single rules are single runs. -/
theorem singles_of_rules {w : Str} {gs : List (List Run)} (hr : Runs w gs.flatten) {xs : List Space} (hv : ∀ x ∈ xs, x.Valid)
    (e : gs.map (fun g => (gpair g).2) = xs.map Space.text) : gs = singles gs.flatten ∧ gs.flatten.map (·.1) = xs := by
  induction gs generalizing xs w with
  | nil =>
    have : xs = [] := by simpa using e.symm
    subst this
    exact ⟨rfl, rfl⟩
  | cons g gs ih =>
    cases xs with
    | nil => simp at e
    | cons x xs =>
      simp only [List.map_cons, List.cons.injEq] at e
      rw [List.flatten_cons] at hr
      obtain ⟨u, rfl⟩ := single_rule_group (runs_take hr) (hv x (by simp)) e.1
      obtain ⟨i1, i2⟩ := ih (runs_drop hr) (fun y hy => hv y (by simp [hy])) e.2
      constructor
      · conv => lhs; rw [i1]
        simp [singles]
      · rw [List.flatten_cons, List.map_append, i2]; rfl

theorem SameGrp.mem {w w' : Str} {g g' : List Run} {a : Str} (h : SameGrp g a g') (hr : Runs w g) (hr' : Runs w' g') :
    ∀ t, t ∈ g'.map (·.1.text) ↔ t ∈ g.map (·.1.text) :=
  (joinSorted_inj (group_rules_mem hr') (group_rules_mem hr)).mp h.rule

theorem SameGrp.allMix {w w' : Str} {g g' : List Run} {a : Str} (h : SameGrp g a g') (hr : Runs w g) (hr' : Runs w' g') :
    AllMix g' ↔ AllMix g := by
  have hm := h.mem hr hr'
  constructor
  · intro h1 r hrg
    obtain ⟨r', h2, h3⟩ := List.mem_map.mp ((hm r.1.text).mpr (List.mem_map.mpr ⟨r, hrg, rfl⟩))
    rw [← h3]; exact h1 r' h2
  · intro h1 r hrg
    obtain ⟨r', h2, h3⟩ := List.mem_map.mp ((hm r.1.text).mp (List.mem_map.mpr ⟨r, hrg, rfl⟩))
    rw [← h3]; exact h1 r' h2

theorem mixG_move {w w' : Str} {gs gs' : List (List Run)} {as : List Str} (h : SameGrps gs as gs') (hr : Runs w gs.flatten)
    (hr' : Runs w' gs'.flatten) (hm : MixG gs) : MixG gs' := by
  induction h generalizing w w' with
  | nil => exact hm
  | cons h hs ih =>
    rename_i g a g' gs as gs'
    rw [List.flatten_cons] at hr hr'
    have ihm := ih (runs_drop hr) (runs_drop hr') hm.tail
    obtain ⟨n1, c1⟩ := hm.good g (by simp)
    have hgood : g' ≠ [] ∧ (AllMix g' ∨ ∃ r, g' = [r] ∧ ¬ Mixable r.1.text) := by
      constructor
      · intro h0
        have := h.rule
        rw [h0] at this
        exact rule_ne (runs_take hr) n1 this.symm
      · rcases c1 with c1 | ⟨r, rfl, c1⟩
        · exact .inl ((h.allMix (runs_take hr) (runs_take hr')).mpr c1)
        · right
          have he := h.rule
          rw [single_pair] at he
          obtain ⟨u, rfl⟩ := single_rule_group (runs_take hr') ((runs_take hr).valid r (by simp)) he
          exact ⟨_, rfl, c1⟩
    refine ⟨?_, ?_⟩
    · intro x hx
      rcases List.mem_cons.mp hx with rfl | hx
      · exact hgood
      · exact ihm.good x hx
    · cases hs with
      | nil => exact neighbours_single _
      | cons h2 hs2 =>
        rw [neighbours_cons_cons]
        refine ⟨?_, ihm.maximal⟩
        rintro ⟨a1, a2⟩
        rw [List.flatten_cons] at hr hr'
        refine hm.maximal [] g _ _ rfl ⟨(h.allMix (runs_take hr) (runs_take hr')).mp a1, ?_⟩
        exact (h2.allMix (runs_take (runs_drop hr)) (runs_take (runs_drop hr'))).mp a2

end OsUrl
