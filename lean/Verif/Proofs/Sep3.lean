import Verif.Proofs.Sep2

/-! Stages do not share patterns. -/

namespace OsUrl
open Spec

/-- The pieces of a level and their rule. -/
structure LvOK (cfg : LevelCfg) (E : List Ent) (r : Str) : Prop where
  mcn : 2 ≤ cfg.mcn
  nodup : (E.map (fun e => e.1.piece)).Nodup
  pos : ∀ e ∈ E, 1 ≤ e.2
  parsed : ∀ e ∈ E, IsParsed e.1
  rule : ∀ e ∈ E, e.1.fuzzyRule = r
  ne : r ≠ []
  slash : cfg.lastPath = true → '/' ∉ r

section
variable {cfg : LevelCfg} {E : List Ent} {r : Str}

theorem LvOK.runs (h : LvOK cfg E r) {e : Ent} (he : e ∈ E) : ∃ s rs, Runs s rs ∧ e.1 = ppOf rs ∧ rs ≠ [] := by
  obtain ⟨s, hk, hp⟩ := h.parsed e he
  refine ⟨s, runsOf s, runsOf_spec hk, hp, ?_⟩
  intro h0
  apply h.ne
  rw [← h.rule e he, hp, h0]; rfl

theorem LvOK.pieces (h : LvOK cfg E r) {e : Ent} (he : e ∈ E) : e.1.pieces ≠ [] := by
  obtain ⟨s, rs, -, h1, h2⟩ := h.runs he
  rw [h1]; simpa [ppOf] using h2

theorem LvOK.fitB (h : LvOK cfg E r) : ∀ e ∈ E.filter (fun e => inB cfg e.1), ViewOK Token multiView e.1 := by
  intro e he
  have he := (List.mem_filter.mp he).1
  exact multi_viewOK (h.parsed e he) (h.pieces he)

theorem LvOK.inM_two (h : LvOK cfg E r) {e : Ent} (he : e ∈ E) (hm : inM cfg E e.1 = true) : 2 ≤ e.1.pieces.length := by
  simp only [inM, Bool.or_eq_true, Bool.and_eq_true, decide_eq_true_eq, inB] at hm
  rcases hm with hb2 | hb2
  · exact dstPiece_mixed (h.parsed e he) hb2
  · have h1 := dstPiece_base hb2.1.1
    have h2 := List.length_pos_iff.mpr (h.pieces he)
    omega

theorem LvOK.fitM (h : LvOK cfg E r) : ∀ e ∈ E.filter (fun e => inM cfg E e.1), ViewOK Token mixedView e.1 := by
  intro e he
  obtain ⟨he, hm⟩ := List.mem_filter.mp he
  exact mixed_viewOK (h.parsed e he) (h.inM_two he hm)

theorem inL_lastPath {p : ParsedPiece} (hl : inL cfg E p = true) : cfg.lastPath = true := by
  simp only [inL, Bool.or_eq_true, Bool.and_eq_true, decide_eq_true_eq] at hl
  apply dst_lastPath (p := p)
  rcases hl with h1 | h1 | h1
  · exact .inl h1
  · exact .inr (.inl h1.2)
  · exact .inr (.inr h1.2)

theorem LvOK.fitL (h : LvOK cfg E r) : ∀ e ∈ E.filter (fun e => inL cfg E e.1), ViewOK (fun t => '/' ∉ t) lastDotView e.1 := by
  intro e he
  obtain ⟨he, hm⟩ := List.mem_filter.mp he
  refine lastDot_viewOK (h.parsed e he) ?_
  rw [h.rule e he]
  exact h.slash (inL_lastPath hm)

/-! ### What the stages tell -/

theorem base_info (h : LvOK cfg E r) {e : Ent} (he : e ∈ E) (hs : stageOf cfg E e.1 = .base) {s : Str} {rs : List Run} (_hr : Runs s rs)
    (hp : e.1 = ppOf rs) : 2 ≤ rs.length ∧ ∃ as, GFit (singles rs) as ∧ as.flatten = stagePat cfg E e.1 ∧
      ∀ e' ∈ E, inB cfg e'.1 = true → ∀ rs', e'.1 = ppOf rs' → rs'.map (·.1) = rs.map (·.1) → GFit (singles rs') as →
        stageOf cfg E e'.1 = .base := by
  obtain ⟨h1, h2⟩ := stageOf_base.mp hs
  obtain ⟨q, hq⟩ := Option.isSome_iff_exists.mp h2
  have hpat : stagePat cfg E e.1 = q := by unfold stagePat; rw [hs]; simp only; rw [hq]; rfl
  have hb : e ∈ E.filter (fun e => inB cfg e.1) := List.mem_filter.mpr ⟨he, h1⟩
  constructor
  · have hd : dstPiece cfg e.1 = .base := by simpa [inB] using h1
    have l1 := dstPiece_base hd
    have l2 := List.length_pos_iff.mpr (h.pieces he)
    rw [hp] at l1 l2
    simp only [ppOf, List.length_map] at l1 l2
    omega
  · obtain ⟨as, a1, a2, -, a4⟩ := settle_groups h.mcn joinInj_token h.fitB (fun e he => h.pos e (List.mem_filter.mp he).1) hb hq
      (gs := singles rs) (by rw [hp]; exact multi_groups rs)
    refine ⟨as, a1, a2.trans hpat.symm, ?_⟩
    intro e' he' hin rs' hp' hsp hf
    have := a4 e' (List.mem_filter.mpr ⟨he', hin⟩) (by
      rw [hp, hp']
      show viewStr _ = viewStr _
      rw [viewStr_prules, viewStr_prules]
      have e1 := multi_rules rs
      have e2 := multi_rules rs'
      show fuzzyJoin (prules (multiPieces _)) = fuzzyJoin (prules (multiPieces _))
      rw [e1, e2, texts_of hsp]) (singles rs') (by rw [hp']; exact multi_groups rs') hf
    exact stageOf_base.mpr ⟨hin, by unfold stB; rw [this]; rfl⟩

theorem dstBase_mixed {p : ParsedPiece} (hd : dstBase cfg p = .mixed) : (multiView p).view ≠ (mixedView p).view ∧ (mixedView p).pps.length ≠ 1 ∧
    ¬ ((mixedView p).pps.length = 3 ∧ cfg.lastPath = true ∧ (mixedView p).view = (lastDotView p).view) := by
  unfold dstBase routeBase at hd
  simp only at hd
  repeat' split at hd
  all_goals first | (cases hd; done) | (simp_all; done)

theorem dstPiece_mixed' {p : ParsedPiece} (hd : dstPiece cfg p = .mixed) :
    ((multiView p).pps.length : Int) - (mixedView p).pps.length ≥ cfg.mcn ∧ (mixedView p).pps.length ≠ 1 ∧
    ¬ ((mixedView p).pps.length = 3 ∧ cfg.lastPath = true ∧ (mixedView p).view = (lastDotView p).view) := by
  unfold dstPiece routePiece at hd
  simp only at hd
  repeat' split at hd
  all_goals first | (cases hd; done) | (simp_all; done)

theorem inM_cases {p : ParsedPiece} (hm : inM cfg E p = true) : (mixedView p).pps.length ≠ 1 ∧
    ¬ ((mixedView p).pps.length = 3 ∧ cfg.lastPath = true ∧ (mixedView p).view = (lastDotView p).view) ∧
    ((multiView p).view ≠ (mixedView p).view ∨ ((multiView p).pps.length : Int) - (mixedView p).pps.length ≥ cfg.mcn) := by
  simp only [inM, Bool.or_eq_true, Bool.and_eq_true, decide_eq_true_eq] at hm
  rcases hm with h1 | h1
  · obtain ⟨a, b, c⟩ := dstPiece_mixed' h1
    exact ⟨b, c, .inr a⟩
  · obtain ⟨a, b, c⟩ := dstBase_mixed h1.2
    exact ⟨b, c, .inl a⟩

theorem mixed_info (h : LvOK cfg E r) {e : Ent} (he : e ∈ E) (hs : stageOf cfg E e.1 = .mixed) {s : Str} {rs : List Run} (_hr : Runs s rs)
    (hp : e.1 = ppOf rs) : 2 ≤ rs.length ∧ ∃ gs as, MixG gs ∧ gs.flatten = rs ∧ 2 ≤ gs.length ∧ GFit gs as ∧ as.flatten = stagePat cfg E e.1 ∧
      ∀ e' ∈ E, inM cfg E e'.1 = true → ∀ rs' gs', e'.1 = ppOf rs' → MixG gs' → gs'.flatten = rs' → SameGrps gs as gs' → GFit gs' as →
        stageOf cfg E e'.1 = .mixed := by
  obtain ⟨h1, h2⟩ := stageOf_mixed.mp hs
  obtain ⟨q, hq⟩ := Option.isSome_iff_exists.mp h2
  have hpat : stagePat cfg E e.1 = q := by unfold stagePat; rw [hs]; simp only; rw [hq]; rfl
  have hb : e ∈ E.filter (fun e => inM cfg E e.1) := List.mem_filter.mpr ⟨he, h1⟩
  have two : ∀ e' ∈ E, inM cfg E e'.1 = true → ∀ rs', e'.1 = ppOf rs' → 2 ≤ rs'.length := by
    intro e' he' hin rs' hp'
    have := h.inM_two he' hin
    rw [hp'] at this
    simpa [ppOf] using this
  have hlen := two e he h1 rs hp
  refine ⟨hlen, ?_⟩
  obtain ⟨gs, g1, -, g3⟩ := mixg_exists rs
  have hgs : (mixedView e.1).pps = gs.map gpart := by rw [hp]; exact mixed_groups hlen g3 g1
  obtain ⟨as, a1, a2, -, a4⟩ := settle_groups h.mcn joinInj_token h.fitM (fun e he => h.pos e (List.mem_filter.mp he).1) hb hq hgs
  refine ⟨gs, as, g3, g1, ?_, a1, a2.trans hpat.symm, ?_⟩
  · have l1 := (inM_cases h1).1
    rw [hgs, List.length_map] at l1
    have : gs ≠ [] := by rintro rfl; rw [← g1] at hlen; simp at hlen
    have := List.length_pos_iff.mpr this
    omega
  · intro e' he' hin rs' gs' hp' hm' hf' hsg hfit
    have hgs' : (mixedView e'.1).pps = gs'.map gpart := by rw [hp']; exact mixed_groups (two e' he' hin rs' hp') hm' hf'
    have := a4 e' (List.mem_filter.mpr ⟨he', hin⟩) (by
      show viewStr (mixedView e'.1).pps = viewStr (mixedView e.1).pps
      rw [viewStr_prules, viewStr_prules, hgs, hgs', prules_groups, prules_groups, sameGrps_rules hsg]) gs' hgs' hfit
    exact stageOf_mixed.mpr ⟨hin, by unfold stM; rw [this]; rfl⟩

theorem dst_lastDot_len {p : ParsedPiece} (hd : dstBase cfg p = .lastDot) :
    ((multiView p).view = (mixedView p).view ∧ (lastDotView p).pps.length ≠ 1) ∨
    ((mixedView p).pps.length = 3 ∧ cfg.lastPath = true ∧ (mixedView p).view = (lastDotView p).view) := by
  unfold dstBase routeBase at hd
  simp only at hd
  repeat' split at hd
  all_goals first | (cases hd; done) | (simp_all; done)

theorem dst_lastDot_piece {p : ParsedPiece} (hd : dstPiece cfg p = .lastDot) : p.pieces.length ≠ 1 ∧
    (((multiView p).pps.length = 3 ∧ cfg.lastPath = true ∧ (multiView p).view = (lastDotView p).view) ∨
    ((mixedView p).pps.length = 3 ∧ cfg.lastPath = true ∧ (mixedView p).view = (lastDotView p).view)) := by
  unfold dstPiece routePiece at hd
  simp only at hd
  repeat' split at hd
  all_goals first | (cases hd; done) | (simp_all; done)

theorem dst_lastDot_mixed {p : ParsedPiece} (hd : dstMixed cfg p = .lastDot) : (lastDotView p).pps.length ≠ 1 := by
  unfold dstMixed routeMixed at hd
  simp only at hd
  repeat' split at hd
  all_goals first | (cases hd; done) | (simp_all; done)

/-- Views without `/` that are written the same have the same rules. -/
theorem same_view_rules {gs hs : List (List Run)} {rs : List Run} (hg : gs.flatten = rs) (hh : hs.flatten = rs) (gn : gs ≠ []) (hn : hs ≠ [])
    (hsl : '/' ∉ (ppOf rs).fuzzyRule) (e : viewStr (gs.map gpart) = viewStr (hs.map gpart)) :
    gs.map (fun g => (gpair g).2) = hs.map (fun g => (gpair g).2) := by
  rw [viewStr_prules, viewStr_prules, prules_groups, prules_groups] at e
  refine joinInj_noslash _ _ (by simpa using gn) (by simpa using hn) ?_ ?_ e
  · intro t ht hc
    obtain ⟨g, hgm, rfl⟩ := List.mem_map.mp ht
    exact hsl (group_rule_sub hg hgm hc)
  · intro t ht hc
    obtain ⟨g, hgm, rfl⟩ := List.mem_map.mp ht
    exact hsl (group_rule_sub hh hgm hc)

theorem singles_length (rs : List Run) : (singles rs).length = rs.length := by simp [singles]

theorem singles_ne {rs : List Run} (h : rs ≠ []) : singles rs ≠ [] := by simpa [singles] using h

/-- What a piece sent to the last dot stage looks like. -/
theorem lastDot_shape (h : LvOK cfg E r) {e : Ent} (he : e ∈ E) (hl : inL cfg E e.1 = true) {s : Str} {rs : List Run} (_hr : Runs s rs)
    (hp : e.1 = ppOf rs) : 2 ≤ rs.length ∧ (lastDotView e.1).pps.length ≠ 1 := by
  have hsl : '/' ∉ (ppOf rs).fuzzyRule := by rw [← hp, h.rule e he]; exact h.slash (inL_lastPath hl)
  have hne : rs ≠ [] := by rintro rfl; exact h.pieces he (by rw [hp]; rfl)
  have h0 := List.length_pos_iff.mpr hne
  obtain ⟨ls, l1, l2, l3⟩ := lastDot_pieces rs
  have viewcase : ∀ {gs : List (List Run)} {V : ParsedPiece → View}, (V e.1).pps = gs.map gpart → (V e.1).view = viewStr (V e.1).pps →
      gs.flatten = rs → gs.length = 3 → (V e.1).view = (lastDotView e.1).view → (lastDotView e.1).pps.length ≠ 1 := by
    intro gs V h1 h2 h3 h4 h5
    rw [h2, h1] at h5
    have hl3 : (lastDotView e.1).pps = ls.map gpart := by rw [hp]; exact l3
    have := same_view_rules h3 l1 (by rintro rfl; simp at h4) l2 hsl (h5.trans (by
      show viewStr (lastDotView e.1).pps = _
      rw [hl3]))
    have := congrArg List.length this
    simp only [List.length_map] at this
    rw [hl3, List.length_map, ← this, h4]
    simp
  have mixcase : 2 ≤ rs.length → (mixedView e.1).pps.length = 3 → (mixedView e.1).view = (lastDotView e.1).view → (lastDotView e.1).pps.length ≠ 1 := by
    intro h2 h3 h4
    obtain ⟨gs, g1, -, g3⟩ := mixg_exists rs
    have hgs : (mixedView e.1).pps = gs.map gpart := by rw [hp]; exact mixed_groups h2 g3 g1
    exact viewcase hgs rfl g1 (by rw [hgs, List.length_map] at h3; exact h3) h4
  simp only [inL, Bool.or_eq_true, Bool.and_eq_true, decide_eq_true_eq] at hl
  rcases hl with h1 | h1 | h1
  · obtain ⟨h2, h3⟩ := dst_lastDot_piece h1
    have h2' : rs.length ≠ 1 := by rw [hp] at h2; simpa [ppOf] using h2
    have htwo : 2 ≤ rs.length := by omega
    refine ⟨htwo, ?_⟩
    rcases h3 with ⟨a, -, c⟩ | ⟨a, -, c⟩
    · have hgs : (multiView e.1).pps = (singles rs).map gpart := by rw [hp]; exact multi_groups rs
      exact viewcase hgs rfl (singles_flatten rs) (by rw [hgs, List.length_map] at a; exact a) c
    · exact mixcase htwo a c
  · have h2 := dstPiece_base (by simpa [inB] using h1.1.1)
    have h2' : rs.length ≠ 1 := by rw [hp] at h2; simpa [ppOf] using h2
    have htwo : 2 ≤ rs.length := by omega
    refine ⟨htwo, ?_⟩
    rcases dst_lastDot_len h1.2 with ⟨-, c⟩ | ⟨a, -, c⟩
    · exact c
    · exact mixcase htwo a c
  · have h2 := h.inM_two he h1.1.1
    exact ⟨by rw [hp] at h2; simpa [ppOf] using h2, dst_lastDot_mixed h1.2⟩

theorem lastDot_info (h : LvOK cfg E r) {e : Ent} (he : e ∈ E) (hs : stageOf cfg E e.1 = .lastDot) {s : Str} {rs : List Run} (hr : Runs s rs)
    (hp : e.1 = ppOf rs) : 2 ≤ rs.length ∧ ∃ d x t ts as, rs = d ++ x :: t ∧ x.1.text = ruleDot ∧ t.length ≤ 2 ∧
      (∀ y ∈ t, y.1.text ∈ digitAsciiRuleSet) ∧ MixG ts ∧ ts.flatten = t ∧ (lastDotView e.1).pps = (d :: [x] :: ts).map gpart ∧
      GFit (d :: [x] :: ts) as ∧ as.flatten = stagePat cfg E e.1 ∧
      ∀ gs0 g, d :: [x] :: ts = gs0 ++ [g] → ∃ as0, as = as0 ++ [(gpair g).1] := by
  obtain ⟨h1, h2⟩ := stageOf_lastDot.mp hs
  obtain ⟨q, hq⟩ := Option.isSome_iff_exists.mp h2
  have hpat : stagePat cfg E e.1 = q := by unfold stagePat; rw [hs]; simp only; rw [hq]; rfl
  have hb : e ∈ E.filter (fun e => inL cfg E e.1) := List.mem_filter.mpr ⟨he, h1⟩
  obtain ⟨htwo, hl⟩ := lastDot_shape h he h1 hr hp
  refine ⟨htwo, ?_⟩
  rcases lastDot_cases rs with c | ⟨d, x, t, ts, c1, c2, c3, c4, c5, c6, c7⟩
  · exfalso
    apply hl
    rw [hp]
    show (lastDotPieces (ppOf rs)).length = 1
    rw [c]; rfl
  · have hgs : (lastDotView e.1).pps = (d :: [x] :: ts).map gpart := by rw [hp]; exact c7
    obtain ⟨as, a1, a2, a3, -⟩ := settle_groups h.mcn joinInj_noslash h.fitL (fun e he => h.pos e (List.mem_filter.mp he).1) hb hq hgs
    exact ⟨d, x, t, ts, as, c1, c2, c3, c4, c5, c6, hgs, a1, a2.trans hpat.symm, a3 rfl⟩

/-! ### The stages differ -/

/-- A base pattern is not a pattern of a later stage with groups. -/
theorem sep_base (h : LvOK cfg E r) {e e' : Ent} (he : e ∈ E) (he' : e' ∈ E) (hs : stageOf cfg E e.1 = .base) {s s' : Str} {rs rs' : List Run}
    (hr : Runs s rs) (hr' : Runs s' rs') (hp : e.1 = ppOf rs) (hp' : e'.1 = ppOf rs') {hs' : List (List Run)} {bs : List Str} (hf : hs'.flatten = rs')
    (hb : GFit hs' bs) (heq : bs.flatten = stagePat cfg E e.1) : stageOf cfg E e'.1 = .base := by
  obtain ⟨-, as, a1, a2, a3⟩ := base_info h he hs hr hp
  obtain ⟨gs', g1, g2, g3⟩ := groups_move (gs := singles rs) (hs := hs') (by rw [singles_flatten]; exact hr) (by rw [hf]; exact hr') a1 hb
    (a2.trans heq.symm)
  have hrul := sameGrps_rules g3
  have hsing : (singles rs).map (fun g => (gpair g).2) = (rs.map (·.1)).map Space.text := by
    unfold singles
    rw [List.map_map, List.map_map]
    apply List.map_congr_left
    intro x _
    simp [single_pair]
  obtain ⟨k1, k2⟩ := singles_of_rules (w := s') (gs := gs') (xs := rs.map (·.1)) (by rw [g1, hf]; exact hr') (by
    intro x hx
    obtain ⟨y, hy, rfl⟩ := List.mem_map.mp hx
    exact hr.valid y hy) (hrul.trans hsing)
  rw [g1, hf] at k1 k2
  refine a3 e' he' ?_ rs' hp' k2 (by rw [← k1]; exact g2)
  have h1 := (stageOf_base.mp hs).1
  unfold inB at h1 ⊢
  rw [hp', dstPiece_rules k2, ← hp]
  exact h1

theorem gfit_lits (rs : List Run) : GFit (singles rs) (rs.map runText) := by
  unfold singles
  induction rs with
  | nil => exact .nil
  | cons r rs ih => exact .cons (.inl (by rw [(gpart_pair _).1, single_pair])) ih

/-- A piece written out is no other piece's pattern. -/
theorem sep_literal {s s' : Str} {rs rs' : List Run} (hr : Runs s rs) (hr' : Runs s' rs') {gs : List (List Run)} {as : List Str}
    (hf : gs.flatten = rs) (ha : GFit gs as) (heq : as.flatten = (ppOf rs').piece) : rs = rs' := by
  obtain ⟨gs', g1, -, g3⟩ := groups_move (gs := singles rs') (hs := gs) (by rw [singles_flatten]; exact hr') (by rw [hf]; exact hr) (gfit_lits rs') ha
    (by rw [heq]; simp [ppOf, ParsedPiece.piece])
  have : gs' = singles rs' := by
    clear g1 heq ha hr hr' hf
    unfold singles at g3 ⊢
    induction rs' generalizing gs' with
    | nil => cases g3; rfl
    | cons x rs' ih =>
      rw [List.map_cons, List.map_cons] at g3
      cases g3 with
      | cons h hs =>
        rw [List.map_cons, ih _ hs, h.lit (by rw [single_pair])]
  rw [this, singles_flatten, hf] at g1
  exact g1.symm

theorem lenPat_cases (mcn : Int) (E : List Ent) (p : ParsedPiece) :
    lenPat mcn E p = p.piece ∨ ∃ n, (n = lenOf p ∨ n = -1) ∧ lenPat mcn E p = specStr p.fuzzyRule n := by
  unfold lenPat
  repeat' split
  · exact .inr ⟨_, .inl rfl, rfl⟩
  · exact .inl rfl
  · exact .inr ⟨_, .inr rfl, rfl⟩

/-- A pattern of the length stage is not a pattern of another stage. -/
theorem sep_length (h : LvOK cfg E r) {e e' : Ent} (he : e ∈ E) (he' : e' ∈ E) (hs' : stageOf cfg E e'.1 = .length)
    (heq : stagePat cfg E e.1 = stagePat cfg E e'.1) : stageOf cfg E e.1 = .length := by
  obtain ⟨s, rs, hr, hp, hne⟩ := h.runs he
  obtain ⟨s', rs', hr', hp', hne'⟩ := h.runs he'
  have key : ∀ gs as, gs.flatten = rs → GFit gs as → as.flatten = stagePat cfg E e.1 →
      (∃ g g', (∃ a b c, gs = a ++ g :: b ++ g' :: c) ∧ g ≠ [] ∧ g' ≠ []) → e.1 = e'.1 := by
    rintro gs as hf ha hq ⟨g, g', hm, n1, n2⟩
    have hlen : stagePat cfg E e'.1 = lenPat cfg.mcn (E.filter (fun e => inN cfg E e.1)) e'.1 := by
      unfold stagePat; rw [hs']
    rw [heq, hlen] at hq
    rcases lenPat_cases cfg.mcn (E.filter (fun e => inN cfg E e.1)) e'.1 with h1 | ⟨n, hn, h1⟩
    · rw [h1, hp'] at hq
      rw [hp, hp', sep_literal hr hr' hf ha hq]
    · exfalso
      rw [h1] at hq
      have hrr : e'.1.fuzzyRule = (sortedSet (rs'.map (·.1.text))).flatten := by
        rw [hp']
        exact congrArg Prod.snd (vpair_ppOf rs')
      rw [hrr] at hq
      have hll := ((h.parsed e' he').len (by rw [h.rule e' he']; exact h.ne)).2.1
      exact cells_class (by rw [hf]; exact hr) ha (by
        intro x hx
        rw [mem_sortedSet] at hx
        exact group_rules_mem hr' x hx) (n := n) (by omega) hq hm n1 n2
  have done : e.1 = e'.1 → stageOf cfg E e.1 = .length := by intro e1; rw [e1]; exact hs'
  cases hs : stageOf cfg E e.1 with
  | length => rfl
  | base =>
    rw [← hs]
    obtain ⟨h2, as, a1, a2, -⟩ := base_info h he hs hr hp
    apply done
    apply key (singles rs) as (singles_flatten rs) a1 a2
    match rs, h2 with
    | x :: y :: rs, _ => exact ⟨[x], [y], ⟨[], [], singles rs, by simp [singles]⟩, by simp, by simp⟩
  | mixed =>
    rw [← hs]
    obtain ⟨h2, gs, as, g1, g2, g3, a1, a2, -⟩ := mixed_info h he hs hr hp
    apply done
    apply key gs as g2 a1 a2
    match gs, g3 with
    | x :: y :: gs, _ => exact ⟨x, y, ⟨[], [], gs, by simp⟩, (g1.good x (by simp)).1, (g1.good y (by simp)).1⟩
  | lastDot =>
    rw [← hs]
    obtain ⟨h2, d, x, t, ts, as, c1, -, -, -, c5, c6, -, a1, a2, -⟩ := lastDot_info h he hs hr hp
    apply done
    apply key (d :: [x] :: ts) as (by rw [c1, ← c6]; simp) a1 a2
    by_cases hd : d = []
    · subst hd
      cases ts with
      | nil =>
        simp at c6
        subst c6
        rw [c1] at h2; simp at h2
      | cons g ts => exact ⟨[x], g, ⟨[[]], [], ts, by simp⟩, by simp, (c5.good g (by simp)).1⟩
    · exact ⟨d, [x], ⟨[], [], ts, by simp⟩, hd, by simp⟩

/-- A mixed pattern is not a last dot pattern. -/
theorem sep_mixed (h : LvOK cfg E r) {e e' : Ent} (he : e ∈ E) (he' : e' ∈ E) (hs : stageOf cfg E e.1 = .mixed)
    (hs' : stageOf cfg E e'.1 = .lastDot) (heq : stagePat cfg E e.1 = stagePat cfg E e'.1) : False := by
  obtain ⟨s, rs, hr, hp, hne⟩ := h.runs he
  obtain ⟨s', rs', hr', hp', hne'⟩ := h.runs he'
  obtain ⟨h2, gs, as, g1, g2, g3, a1, a2, a3⟩ := mixed_info h he hs hr hp
  obtain ⟨h2', d, x, t, ts, bs, c1, c2, c3, c4, c5, c6, c7, b1, b2, b3⟩ := lastDot_info h he' hs' hr' hp'
  have hff : (d :: [x] :: ts).flatten = rs' := by rw [c1, ← c6]; simp
  -- the groups of `e` carry over to `e'`
  obtain ⟨gs', k1, k2, k3⟩ := groups_move (gs := gs) (hs := d :: [x] :: ts) (by rw [g2]; exact hr) (by rw [hff]; exact hr') a1 b1
    (by rw [a2, b2, heq])
  rw [hff] at k1
  have hmg' : MixG gs' := mixG_move k3 (by rw [g2]; exact hr) (by rw [k1]; exact hr') g1
  have hv : (mixedView e.1).pps = gs.map gpart := by rw [hp]; exact mixed_groups h2 g1 g2
  have hv' : (mixedView e'.1).pps = gs'.map gpart := by rw [hp']; exact mixed_groups h2' hmg' k1
  have hrul := sameGrps_rules k3
  have hvl : (mixedView e'.1).pps.length = (mixedView e.1).pps.length := by
    rw [hv, hv', List.length_map, List.length_map]
    simpa using congrArg List.length hrul
  have hvv : (mixedView e'.1).view = (mixedView e.1).view := by
    show viewStr (mixedView e'.1).pps = viewStr (mixedView e.1).pps
    rw [viewStr_prules, viewStr_prules, hv, hv', prules_groups, prules_groups, hrul]
  have hnotM : inM cfg E e'.1 ≠ true := by
    intro hin
    have := a3 e' he' hin rs' gs' hp' hmg' k1 k3 k2
    rw [hs'] at this; cases this
  obtain ⟨m1, m2, m3⟩ := inM_cases (stageOf_mixed.mp hs).1
  have hl := (stageOf_lastDot.mp hs').1
  have hsl' : '/' ∉ (ppOf rs').fuzzyRule := by rw [← hp', h.rule e' he']; exact h.slash (inL_lastPath hl)
  have hv7 : (lastDotView e'.1).view = viewStr ((d :: [x] :: ts).map gpart) := by
    show viewStr (lastDotView e'.1).pps = _
    rw [c7]
  have hvm : (mixedView e'.1).view = viewStr (gs'.map gpart) := by
    show viewStr (mixedView e'.1).pps = _
    rw [hv']
  have hgs'ne : gs' ≠ [] := by rintro rfl; rw [← k1] at hne'; exact hne' rfl
  -- three mixed parts equal to the last dot view
  have hA : (mixedView e'.1).pps.length = 3 → (mixedView e'.1).view = (lastDotView e'.1).view → False := by
    intro l3 hvw
    have hrr := same_view_rules k1 hff hgs'ne (by simp) hsl' (hvm.symm.trans (hvw.trans hv7))
    have hlen := congrArg List.length hrr
    simp only [List.length_map, List.length_cons] at hlen
    rw [hv', List.length_map] at l3
    match ts, hlen with
    | [g], _ =>
      obtain ⟨bs0, hb0⟩ := b3 [d, [x]] g rfl
      obtain ⟨ds, e1, -, e3⟩ := groups_move (gs := [d, [x], g]) (hs := gs) (by rw [hff]; exact hr') (by rw [g2]; exact hr) b1 a1
        (by rw [a2, b2, heq])
      cases e3 with
      | cons f1 e3 =>
        rename_i b1' d1 bs1 ds1
        cases e3 with
        | cons f2 e3 =>
          rename_i b2' d2 bs2 ds2
          cases e3 with
          | cons f3 e3 =>
            rename_i b3' d3 bs3 ds3
            cases e3
            have eb : b3' = (gpair g).1 := by
              have h9 := congrArg List.getLast? hb0
              simp only [List.getLast?_append, List.getLast?_singleton, Option.some_or] at h9
              have h8 : [b1', b2', b3'].getLast? = some b3' := rfl
              rw [h8] at h9
              exact Option.some.inj h9
            have ed3 := f3.lit eb
            rw [g2] at e1
            have e1' : d1 ++ (d2 ++ d3) = rs := by
              rw [← e1]; simp
            have hrd2 : Runs (rawOf d2) d2 := by
              have hx := hr
              rw [← e1'] at hx
              exact runs_take (runs_drop hx)
            have f2r := f2.rule
            rw [single_pair] at f2r
            have hxv : x.1.Valid := hr'.valid x (by rw [c1]; simp)
            obtain ⟨u, rfl⟩ := single_rule_group hrd2 hxv f2r
            have hgt : g = t := by simpa using c6
            rw [ed3, hgt] at e1'
            have hsp := lastDot_split (d := d1) (r := (x.1, u)) (t := t) c2 c3 c4 c5 c6
            have hpl : lastDotPieces e.1 = (d1 :: [(x.1, u)] :: [g]).map gpart := by
              rw [hp, ← e1']; exact hsp
            apply m2
            refine ⟨by rw [← hvl, hv', List.length_map]; exact l3, inL_lastPath hl, ?_⟩
            rw [← hvv, hvw, hv7]
            show _ = viewStr (lastDotPieces e.1)
            rw [hpl, viewStr_prules, viewStr_prules, prules_groups, prules_groups]
            simp only [List.map_cons, List.map_nil, single_pair, f1.rule]
    | [], hl => simp at hl; omega
    | _ :: _ :: _, hl => simp at hl; omega
  simp only [inL, Bool.or_eq_true, Bool.and_eq_true, decide_eq_true_eq] at hl
  rcases hl with hl | hl | hl
  · obtain ⟨-, ⟨l1, -, l3⟩ | ⟨l1, -, l3⟩⟩ := dst_lastDot_piece hl
    · -- three runs
      have hms : (multiView e'.1).pps = (singles rs').map gpart := by rw [hp']; exact multi_groups rs'
      have hmv : (multiView e'.1).view = viewStr ((singles rs').map gpart) := by
        show viewStr (multiView e'.1).pps = _
        rw [hms]
      rw [hms, List.length_map, singles_length] at l1
      have hrr := same_view_rules (singles_flatten rs') hff (singles_ne hne') (by simp) hsl' (hmv.symm.trans (l3.trans hv7))
      match rs', l1 with
      | [x1, x2, x3], _ =>
        simp only [singles, List.map_cons, List.map_nil, single_pair, List.cons.injEq] at hrr
        have hrd : Runs (rawOf d) d := by rw [c1] at hr'; exact runs_take hr'
        obtain ⟨u, rfl⟩ := single_rule_group hrd (hr'.valid x1 (by simp)) hrr.1.symm
        simp only [List.cons_append, List.nil_append, List.cons.injEq] at c1
        have hx2 : ¬ Mixable x2.1.text := by rw [c1.2.1, c2]; decide
        have hmx : MixG (singles [x1, x2, x3]) := by
          refine ⟨?_, ?_⟩
          · intro g hg
            unfold singles at hg
            obtain ⟨y, hy, rfl⟩ := List.mem_map.mp hg
            refine ⟨by simp, ?_⟩
            by_cases hm : Mixable y.1.text
            · left
              intro z hz
              simp at hz; subst hz; exact hm
            · exact .inr ⟨y, rfl, hm⟩
          · show Neighbours _ [[x1], [x2], [x3]]
            rw [neighbours_cons_cons, neighbours_cons_cons]
            refine ⟨?_, ?_, neighbours_single _⟩
            · rintro ⟨-, h9⟩; exact hx2 (h9 x2 (by simp))
            · rintro ⟨h9, -⟩; exact hx2 (h9 x2 (by simp))
        have hgs3 := mixG_unique hmg' hmx (k1.trans (singles_flatten _).symm)
        apply hA
        · rw [hv', hgs3]; rfl
        · rw [hvm, hgs3, ← hmv, l3]
    · exact hA l1 l3
  · rcases dst_lastDot_len hl.2 with ⟨l1, -⟩ | ⟨l1, -, l3⟩
    · -- the mixed view is the multi view
      have hms : (multiView e'.1).pps = (singles rs').map gpart := by rw [hp']; exact multi_groups rs'
      have hmv : (multiView e'.1).view = viewStr ((singles rs').map gpart) := by
        show viewStr (multiView e'.1).pps = _
        rw [hms]
      have hrr := same_view_rules (singles_flatten rs') k1 (singles_ne hne') hgs'ne hsl' (hmv.symm.trans (l1.trans hvm))
      have hsing : (singles rs').map (fun g => (gpair g).2) = (rs'.map (·.1)).map Space.text := by
        unfold singles
        rw [List.map_map, List.map_map]
        apply List.map_congr_left
        intro y _
        simp [single_pair]
      obtain ⟨q1, -⟩ := singles_of_rules (w := s) (gs := gs) (xs := rs'.map (·.1)) (by rw [g2]; exact hr) (by
        intro y hy
        obtain ⟨z, hz, rfl⟩ := List.mem_map.mp hy
        exact hr'.valid z hz) (hrul.symm.trans (hrr.symm.trans hsing))
      rw [g2] at q1
      have hmp : (multiView e.1).pps = (mixedView e.1).pps := by rw [hv, q1, hp]; exact multi_groups rs
      rcases m3 with m3 | m3
      · apply m3
        show viewStr (multiView e.1).pps = viewStr (mixedView e.1).pps
        rw [hmp]
      · rw [hmp] at m3
        have := h.mcn
        omega
    · exact hA l1 l3
  · exact hnotM hl.1.1

/-- Pieces with the same pattern were settled by the same stage. -/
theorem stage_sep (h : LvOK cfg E r) : StageSep cfg E := by
  have fromBase : ∀ e ∈ E, ∀ e' ∈ E, stageOf cfg E e.1 = .base → stagePat cfg E e.1 = stagePat cfg E e'.1 → stageOf cfg E e'.1 = .base := by
    intro e he e' he' hs heq
    obtain ⟨s, rs, hr, hp, -⟩ := h.runs he
    obtain ⟨s', rs', hr', hp', -⟩ := h.runs he'
    cases hs' : stageOf cfg E e'.1 with
    | base => rfl
    | mixed =>
      rw [← hs']
      obtain ⟨-, gs, as, -, g2, -, a1, a2, -⟩ := mixed_info h he' hs' hr' hp'
      exact sep_base h he he' hs hr hr' hp hp' g2 a1 (a2.trans heq.symm)
    | lastDot =>
      rw [← hs']
      obtain ⟨-, d, x, t, ts, bs, c1, -, -, -, -, c6, -, b1, b2, -⟩ := lastDot_info h he' hs' hr' hp'
      exact sep_base h he he' hs hr hr' hp hp' (by rw [c1, ← c6]; simp) b1 (b2.trans heq.symm)
    | length =>
      have := sep_length h he he' hs' heq
      rw [hs] at this; cases this
  intro e he e' he' heq
  cases hs : stageOf cfg E e.1 with
  | base => exact (fromBase e he e' he' hs heq).symm
  | length => exact (sep_length h he' he hs heq.symm).symm
  | mixed =>
    cases hs' : stageOf cfg E e'.1 with
    | base => rw [fromBase e' he' e he hs' heq.symm] at hs; cases hs
    | mixed => rfl
    | lastDot => exact (sep_mixed h he he' hs hs' heq).elim
    | length => rw [sep_length h he he' hs' heq] at hs; cases hs
  | lastDot =>
    cases hs' : stageOf cfg E e'.1 with
    | base => rw [fromBase e' he' e he hs' heq.symm] at hs; cases hs
    | mixed => exact (sep_mixed h he' he hs' hs heq.symm).elim
    | lastDot => rfl
    | length => rw [sep_length h he he' hs' heq] at hs; cases hs

end

/-- The stages of every level compute `topF`, with every nested clustering that is right for the trees of the stages. -/
theorem top_level_nest {h : Runtime} {mcn : Int} (hm : 2 ≤ mcn) (m : URLMeta) (kw : Bool) (n : Nat) {nested : NestedCluster}
    {Lim : List ParsedPiece → Prop} (hmono : ∀ A B : List ParsedPiece, (∀ a ∈ A, a ∈ B) → Lim B → Lim A)
    (hlim : ∀ ps, Lim ps → ∃ N K, NestOK h nested N K ∧ (uniq (ps.map (·.piece))).length ≤ N ∧ ∀ p ∈ ps, p.pieces.length + 1 ≤ K) :
    LevelOK h nested mcn m kw n (fun j ps => TopOK h m j ps ∧ Lim ps) (topF mcn m kw n) := by
  refine top_level_lim hm m kw n hmono hlim ?_
  intro j E _ hnd hpos hok hstop
  obtain ⟨r, hr⟩ := hok.rule
  have hps : ∀ e ∈ E, IsParsed e.1 ∧ e.1.fuzzyRule = r := fun e he =>
    ⟨hok.parsed _ (List.mem_map.mpr ⟨e, he, rfl⟩), hr _ (List.mem_map.mpr ⟨e, he, rfl⟩)⟩
  cases hE : E with
  | nil => intro e he; cases he
  | cons e0 E0 =>
    rw [← hE]
    have he0 : e0 ∈ E := by rw [hE]; simp
    refine stage_sep (r := r) ⟨hm, hnd, hpos, fun e he => (hps e he).1, fun e he => (hps e he).2, ?_, ?_⟩
    · rintro rfl
      have hbl : ∀ e ∈ E, e.1.piece = [] := fun e he => (hps e he).1.blank (hps e he).2
      match E, hE with
      | [e], _ =>
        rw [litStop_single hm _ (hpos e (by simp))] at hstop
        cases hstop
      | e :: e' :: E', _ =>
        rw [List.map_cons, List.map_cons, List.nodup_cons] at hnd
        apply hnd.1
        rw [List.mem_cons]
        left
        rw [hbl e (by simp), hbl e' (by simp)]
    · intro hl
      have hl' : m.pathDepth = j + 1 := by simpa [cfgAt] using hl
      rw [← (hps e0 he0).2]
      exact hok.slash hl' _ (List.mem_map.mpr ⟨e0, he0, rfl⟩)

theorem le_sum_of_mem {α : Type} {f : α → Nat} {l : List α} {a : α} (h : a ∈ l) : f a ≤ (l.map f).sum := by
  induction l with
  | nil => cases h
  | cons b l ih =>
    rw [List.map_cons, List.sum_cons]
    rcases List.mem_cons.mp h with rfl | h
    · omega
    · have := ih h; omega

/-- The stages of every level compute `topF`. -/
theorem top_level_ok {h : Runtime} {mcn : Int} (hm : 2 ≤ mcn) (m : URLMeta) (kw : Bool) (n : Nat) :
    LevelOK h (clusterNest h 1) mcn m kw n (TopOK h m) (topF mcn m kw n) := by
  have hL := top_level_nest (h := h) hm m kw n (nested := clusterNest h 1) (Lim := fun _ => True) (fun _ _ _ h => h)
    (fun ps _ => ⟨_, (ps.map (fun p => p.pieces.length + 1)).sum, fun _ _ _ _ _ _ _ => rfl, Nat.le_refl _,
      fun p hp => le_sum_of_mem (f := fun p : ParsedPiece => p.pieces.length + 1) hp⟩)
  exact ⟨topOK_mono h m, hL.perm, fun j b h1 h2 h3 h4 h5 => hL.run j b h1 h2 h3 h4 ⟨h5, trivial⟩⟩

end OsUrl
