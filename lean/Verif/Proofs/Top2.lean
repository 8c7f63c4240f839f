import Verif.Proofs.Top
import Verif.Proofs.NestOK

/-! The level function of the whole cluster algorithm. -/

namespace OsUrl
open Spec

/-! ### Facts about parsed pieces -/

theorem IsParsed.part {p : ParsedPiece} (h : IsParsed p) : Part (single p.piece p.fuzzyRule) := by
  obtain ⟨s, hk, rfl⟩ := h
  have hv := vpair_ppOf (runsOf s)
  unfold vpair at hv
  have h1 := congrArg Prod.fst hv
  have h2 := congrArg Prod.snd hv
  simp only at h1 h2
  exact ⟨runsOf s, s, runsOf_spec hk, by rw [h1, h2]⟩

theorem IsParsed.len {p : ParsedPiece} (h : IsParsed p) (hr : p.fuzzyRule ≠ []) :
    p.pieceLength = .ok (lenOf p) ∧ 1 ≤ lenOf p ∧ p.pieces ≠ [] := by
  have hp := h.part
  have hv := single_vpair (q := single p.piece p.fuzzyRule) rfl
  have hl := (hp.len).resolve_left (fun h' => hr (hv.2.symm.trans h'.1))
  have hsame : p.pieceLength = (single p.piece p.fuzzyRule).pieceLength := pieceLength_congr (by rw [hv.1])
  have hlen : lenOf p = lenOf (single p.piece p.fuzzyRule) := by unfold lenOf; rw [hsame]
  refine ⟨by rw [hlen, hsame]; exact hl.2.1, by rw [hlen]; exact hl.2.2, ?_⟩
  intro e
  obtain ⟨s, hk, rfl⟩ := h
  apply hr
  have hz : runsOf s = [] := by simpa [ppOf] using e
  rw [hz]; rfl

theorem IsParsed.blank {p : ParsedPiece} (h : IsParsed p) (hr : p.fuzzyRule = []) : p.piece = [] := by
  have hv := single_vpair (q := single p.piece p.fuzzyRule) rfl
  rcases h.part.len with h' | h'
  · rw [← hv.1, h'.2]; rfl
  · exact absurd (hv.2.trans hr) h'.1

theorem dstPiece_base {cfg : LevelCfg} {p : ParsedPiece} (h : dstPiece cfg p = .base) : p.pieces.length ≠ 1 := by
  intro e
  unfold dstPiece routePiece at h
  rw [if_pos e] at h
  cases h

theorem multiView_length {p : ParsedPiece} (h : IsParsed p) : (multiView p).pps.length = p.pieces.length := by
  obtain ⟨s, -, rfl⟩ := h
  have e : (multiView (ppOf (runsOf s))).pps = multiPieces (ppOf (runsOf s)) := rfl
  rw [e, multi_pieces]
  simp [ppOf]

theorem dstPiece_mixed {cfg : LevelCfg} {p : ParsedPiece} (hp : IsParsed p) (h : dstPiece cfg p = .mixed) : 2 ≤ p.pieces.length := by
  have hl := multiView_length hp
  unfold dstPiece routePiece at h
  simp only at h
  split at h
  · cases h
  · split at h
    · split at h <;> cases h
    · split at h
      · omega
      · cases h

theorem dst_lastPath {cfg : LevelCfg} {p : ParsedPiece}
    (h : dstPiece cfg p = .lastDot ∨ dstBase cfg p = .lastDot ∨ dstMixed cfg p = .lastDot) : cfg.lastPath = true := by
  rcases h with h | h | h
  · unfold dstPiece routePiece at h
    simp only at h
    repeat' split at h
    all_goals first | (cases h; done) | simp_all
  · unfold dstBase routeBase at h
    simp only at h
    repeat' split at h
    all_goals first | (cases h; done) | simp_all
  · unfold dstMixed routeMixed at h
    simp only at h
    repeat' split at h
    all_goals first | (cases h; done) | simp_all

/-! ### The level function -/

/-- The level function of the cluster algorithm. -/
def topF (mcn : Int) (m : URLMeta) (kw : Bool) (n : Nat) : LevelFn := fun j E p =>
  if (decide (j + 1 = n) && kw) || litStop mcn E then p.piece else stagePat (cfgAt mcn m kw n j) E p

theorem topF_perm (mcn : Int) (m : URLMeta) (kw : Bool) (n : Nat) : PermInv (topF mcn m kw n) := by
  intro j E E' h
  funext p
  unfold topF
  rw [litStop_perm h, stagePat_perm h]

/-- What a level asks of its pieces. -/
structure TopOK (h : Runtime) (m : URLMeta) (j : Nat) (ps : List ParsedPiece) : Prop where
  parsed : ∀ p ∈ ps, IsParsed p
  rule : ∃ r, ∀ p ∈ ps, p.fuzzyRule = r
  slash : m.pathDepth = j + 1 → ∀ p ∈ ps, '/' ∉ p.fuzzyRule
  hash : SubHash h ps

theorem topOK_mono (h : Runtime) (m : URLMeta) : Mono (TopOK h m) := by
  intro j A B hs hB
  obtain ⟨r, hr⟩ := hB.rule
  exact ⟨fun p hp => hB.parsed p (hs p hp), ⟨r, fun p hp => hr p (hs p hp)⟩, fun hd p hp => hB.slash hd p (hs p hp), hB.hash.mono hs⟩

theorem uniq_append_length {α : Type} [DecidableEq α] {xs ys : List α} (h : ∀ x ∈ xs, x ∉ ys) :
    (uniq (xs ++ ys)).length = (uniq xs).length + (uniq ys).length := by
  rw [← List.length_append]
  symm
  apply length_uniq
  · rw [List.nodup_append]
    refine ⟨nodup_uniq _, nodup_uniq _, ?_⟩
    rintro a ha b hb rfl
    exact h a (mem_uniq.mp ha) (mem_uniq.mp hb)
  · intro q
    rw [List.mem_append, List.mem_append, mem_uniq, mem_uniq]

theorem nodup_perm_sub {bucket l : List PieceBag} {f : PieceBag → Bool} (hn : (bucket.map PieceBag.piece).Nodup)
    (h : l.Perm (bucket.filter f)) : (l.map PieceBag.piece).Nodup :=
  (h.map _).nodup_iff.mpr (hn.sublist (List.filter_sublist.map _))

theorem ent_filter_perm {bucket l : List PieceBag} {f : ParsedPiece → Bool} (h : l.Perm (bucket.filter (fun b => f b.pp))) :
    (l.map PieceBag.ent).Perm ((bucket.map PieceBag.ent).filter (fun e => f e.1)) := by
  rw [List.filter_map]
  exact h.map _

/-- The stages of a level that is not literal. -/
theorem stages_eq {h : Runtime} {cfg : LevelCfg} (hlev : 1 ≤ cfg.level) (hm : 2 ≤ cfg.mcn) {bucket : Bucket} {r : Str}
    (hr : r ≠ []) (hnd : (bucket.map PieceBag.piece).Nodup) (hpos : ∀ b ∈ bucket, 1 ≤ b.count)
    (hps : ∀ b ∈ bucket, IsParsed b.pp ∧ b.pp.fuzzyRule = r) (hsl : cfg.lastPath = true → '/' ∉ r)
    (hh : SubHash h (bucket.map PieceBag.pp))
    (hpc : pieceStage cfg bucket ⟨[], 0, [], [], [], []⟩ = .ok (sentAll cfg bucket))
    {nested : NestedCluster} {N K : Nat} (hnest : NestOK h nested N K) (hN : bucket.length ≤ N) (hK : ∀ b ∈ bucket, b.pp.pieces.length + 1 ≤ K) :
    ∃ st, processStages h nested cfg bucket = .ok st ∧
      (∀ b ∈ bucket, st.assign.pattern b.piece = stagePat cfg (bucket.map PieceBag.ent) b.pp) ∧
      ∃ PB PM PL PN : List Str, st.patternNum = (uniq PB).length + (uniq PM).length + (uniq PL).length + (uniq PN).length ∧
        ∀ q, (q ∈ PB ↔ ∃ b ∈ bucket, stageOf cfg (bucket.map PieceBag.ent) b.pp = .base ∧ stagePat cfg (bucket.map PieceBag.ent) b.pp = q) ∧
          (q ∈ PM ↔ ∃ b ∈ bucket, stageOf cfg (bucket.map PieceBag.ent) b.pp = .mixed ∧ stagePat cfg (bucket.map PieceBag.ent) b.pp = q) ∧
          (q ∈ PL ↔ ∃ b ∈ bucket, stageOf cfg (bucket.map PieceBag.ent) b.pp = .lastDot ∧ stagePat cfg (bucket.map PieceBag.ent) b.pp = q) ∧
          (q ∈ PN ↔ ∃ b ∈ bucket, stageOf cfg (bucket.map PieceBag.ent) b.pp = .length ∧ stagePat cfg (bucket.map PieceBag.ent) b.pp = q) := by
  generalize hE : bucket.map PieceBag.ent = E
  have hne : ∀ b ∈ bucket, b.pp.pieces ≠ [] := fun b hb => ((hps b hb).1.len (by rw [(hps b hb).2]; exact hr)).2.2
  -- the base stage
  have pB : (bucket.filter (fun b => decide (dstPiece cfg b.pp = .base))).Perm (bucket.filter (fun b => inB cfg b.pp)) := .refl _
  generalize hB : bucket.filter (fun b => decide (dstPiece cfg b.pp = .base)) = B at pB
  have mB : ∀ b, b ∈ B ↔ b ∈ bucket ∧ inB cfg b.pp = true := fun b => by rw [pB.mem_iff, List.mem_filter]
  have vokB : ∀ b ∈ B, ViewOK Token multiView b.pp := fun b hb => multi_viewOK (hps b ((mB b).mp hb).1).1 (hne b ((mB b).mp hb).1)
  have okB : StageOK h cfg.mcn false multiView B := stageOK joinInj_token (by simp) (nodup_perm_sub hnd pB)
    (fun b hb => hpos b ((mB b).mp hb).1) vokB
    (hh.mono (fun p hp => by
      obtain ⟨b, hb, rfl⟩ := List.mem_map.mp hp
      exact List.mem_map.mpr ⟨b, ((mB b).mp hb).1, rfl⟩)) hm _
  have sB : ∀ b : PieceBag, settle cfg.mcn false multiView (B.map PieceBag.ent) b.pp = stB cfg E b.pp := by
    intro b; rw [← hE]; exact settle_perm (ent_filter_perm pB) _
  obtain ⟨s1, q1, e1, d1⟩ := multiStage_eq okB hm (d := dstBase cfg) (fwd := fun v b => routeBase cfg v b.pp)
    (fun b _ => routeBase_eq cfg b.pp) 0 (sentAll cfg bucket)
  rw [← multiStage_nest hm joinInj_token vokB okB hnest (by rw [pB.length_eq]; exact Nat.le_trans (List.length_filter_le _ _) hN)
    (fun b hb => Nat.le_trans (multi_parts (hps b ((mB b).mp hb).1).1) (hK b ((mB b).mp hb).1))] at e1
  have d1 := d1.congr (fun b _ => sB b)
  obtain ⟨U1, hU1, -, u1m, u1l, u1n⟩ := d1.sent
  -- the mixed stage
  have hU1' : U1.Perm (bucket.filter (fun b => inB cfg b.pp && (stB cfg E b.pp).isNone)) := by
    refine hU1.trans ((pB.filter _).trans ?_)
    rw [List.filter_filter]
    exact filter_perm_congr (.refl _) (fun b => Bool.and_comm _ _)
  have pM : (bucket.filter (fun b => decide (dstPiece cfg b.pp = .mixed)) ++
      U1.filter (fun b => decide (dstBase cfg b.pp = .mixed))).Perm (bucket.filter (fun b => inM cfg E b.pp)) := by
    refine ((List.Perm.refl _).append (hU1'.filter _)).trans ?_
    rw [List.filter_filter]
    refine (filter_or_perm bucket ?_).trans (filter_perm_congr (.refl _) ?_)
    · intro b _ ⟨h1, h2⟩
      simp [inB] at h1 h2
      rw [h1] at h2; exact absurd h2.2.1 (by simp)
    · intro b
      unfold inM
      cases decide (dstBase cfg b.pp = .mixed) <;> simp
  have vM : s1.toMixed = withView mixedView (bucket.filter (fun b => decide (dstPiece cfg b.pp = .mixed)) ++
      U1.filter (fun b => decide (dstBase cfg b.pp = .mixed))) := by
    rw [u1m]; simp [sentAll, sent, withView, Dst.view]
  generalize hM : bucket.filter (fun b => decide (dstPiece cfg b.pp = .mixed)) ++
      U1.filter (fun b => decide (dstBase cfg b.pp = .mixed)) = M at pM vM
  have mM : ∀ b, b ∈ M ↔ b ∈ bucket ∧ inM cfg E b.pp = true := fun b => by rw [pM.mem_iff, List.mem_filter]
  have vokM : ∀ b ∈ M, ViewOK Token mixedView b.pp := by
    refine fun b hb => mixed_viewOK (hps b ((mM b).mp hb).1).1 ?_
    obtain ⟨hb1, hb2⟩ := (mM b).mp hb
    simp only [inM, Bool.or_eq_true, Bool.and_eq_true, decide_eq_true_eq, inB] at hb2
    rcases hb2 with hb2 | hb2
    · exact dstPiece_mixed (hps b hb1).1 hb2
    · have h1 := dstPiece_base hb2.1.1
      have h2 := List.length_pos_iff.mpr (hne b hb1)
      omega
  have okM : StageOK h cfg.mcn false mixedView M := stageOK joinInj_token (by simp) (nodup_perm_sub hnd pM)
      (fun b hb => hpos b ((mM b).mp hb).1) vokM
      (hh.mono (fun p hp => by
        obtain ⟨b, hb, rfl⟩ := List.mem_map.mp hp
        exact List.mem_map.mpr ⟨b, ((mM b).mp hb).1, rfl⟩)) hm _
  have sM : ∀ b : PieceBag, settle cfg.mcn false mixedView (M.map PieceBag.ent) b.pp = stM cfg E b.pp := by
    intro b; subst hE; exact settle_perm (ent_filter_perm pM) _
  obtain ⟨s2, q2, e2, d2⟩ := multiStage_eq okM hm (d := dstMixed cfg) (fwd := fun _ b => routeMixed cfg b.pp)
    (fun b _ => routeMixed_eq cfg b.pp) 0
    { s1 with patternNum := (sentAll cfg bucket).patternNum +
          (uniq (B.filterMap (fun b => settle cfg.mcn false multiView (B.map PieceBag.ent) b.pp))).length }
  rw [← multiStage_nest hm joinInj_token vokM okM hnest (by rw [pM.length_eq]; exact Nat.le_trans (List.length_filter_le _ _) hN)
    (fun b hb => Nat.le_trans (mixed_parts (hps b ((mM b).mp hb).1).1) (hK b ((mM b).mp hb).1))] at e2
  have d2 := d2.congr (fun b _ => sM b)
  obtain ⟨U2, hU2, -, -, u2l, u2n⟩ := d2.sent
  simp only at u2l u2n
  -- the last dot stage
  have hU2' : U2.Perm (bucket.filter (fun b => inM cfg E b.pp && (stM cfg E b.pp).isNone)) := by
    refine hU2.trans ((pM.filter _).trans ?_)
    rw [List.filter_filter]
    exact filter_perm_congr (.refl _) (fun b => Bool.and_comm _ _)
  have pL : (bucket.filter (fun b => decide (dstPiece cfg b.pp = .lastDot)) ++ (
      U1.filter (fun b => decide (dstBase cfg b.pp = .lastDot)) ++
      U2.filter (fun b => decide (dstMixed cfg b.pp = .lastDot)))).Perm (bucket.filter (fun b => inL cfg E b.pp)) := by
    refine ((List.Perm.refl _).append ((hU1'.filter _).append (hU2'.filter _))).trans ?_
    rw [List.filter_filter, List.filter_filter]
    refine ((List.Perm.refl _).append (filter_or_perm bucket ?_)).trans ((filter_or_perm bucket ?_).trans (filter_perm_congr (.refl _) ?_))
    · intro b _ ⟨h1, h2⟩
      simp only [inM, inB, Bool.or_eq_true, Bool.and_eq_true, decide_eq_true_eq] at h1 h2
      rcases h2.2.1 with h3 | h3
      · rw [h1.2.1] at h3; cases h3
      · rw [h1.1] at h3; cases h3.2
    · intro b _ ⟨h1, h2⟩
      simp only [inM, inB, Bool.or_eq_true, Bool.and_eq_true, decide_eq_true_eq] at h1 h2
      rw [h1] at h2
      simp at h2
    · intro b
      unfold inL
      cases decide (dstBase cfg b.pp = .lastDot) <;> cases decide (dstMixed cfg b.pp = .lastDot) <;> simp
  have vL : s2.toLastDot = withView lastDotView (bucket.filter (fun b => decide (dstPiece cfg b.pp = .lastDot)) ++ (
      U1.filter (fun b => decide (dstBase cfg b.pp = .lastDot)) ++
      U2.filter (fun b => decide (dstMixed cfg b.pp = .lastDot)))) := by
    rw [u2l, u1l]; simp [sentAll, sent, withView, Dst.view]
  generalize hL : bucket.filter (fun b => decide (dstPiece cfg b.pp = .lastDot)) ++ (
      U1.filter (fun b => decide (dstBase cfg b.pp = .lastDot)) ++
      U2.filter (fun b => decide (dstMixed cfg b.pp = .lastDot))) = L at pL vL
  have mL : ∀ b, b ∈ L ↔ b ∈ bucket ∧ inL cfg E b.pp = true := fun b => by rw [pL.mem_iff, List.mem_filter]
  have vokL : ∀ b ∈ L, ViewOK (fun t => '/' ∉ t) lastDotView b.pp := by
    refine fun b hb => lastDot_viewOK (hps b ((mL b).mp hb).1).1 ?_
    obtain ⟨hb1, hb2⟩ := (mL b).mp hb
    rw [(hps b hb1).2]
    apply hsl
    simp only [inL, Bool.or_eq_true, Bool.and_eq_true, decide_eq_true_eq] at hb2
    apply dst_lastPath (p := b.pp)
    rcases hb2 with h1 | h1 | h1
    · exact .inl h1
    · exact .inr (.inl h1.2)
    · exact .inr (.inr h1.2)
  have okL : StageOK h cfg.mcn true lastDotView L := stageOK joinInj_noslash (by simp) (nodup_perm_sub hnd pL)
      (fun b hb => hpos b ((mL b).mp hb).1) vokL
      (hh.mono (fun p hp => by
        obtain ⟨b, hb, rfl⟩ := List.mem_map.mp hp
        exact List.mem_map.mpr ⟨b, ((mL b).mp hb).1, rfl⟩)) hm _
  have sL : ∀ b : PieceBag, settle cfg.mcn true lastDotView (L.map PieceBag.ent) b.pp = stL cfg E b.pp := by
    intro b; subst hE; exact settle_perm (ent_filter_perm pL) _
  obtain ⟨s3, q3, e3, d3⟩ := multiStage_eq okL hm (d := fun _ => .length) (fwd := fun _ _ => .length)
    (fun b _ => rfl) 0
    { s2 with patternNum := ({ s1 with patternNum := (sentAll cfg bucket).patternNum +
          (uniq (B.filterMap (fun b => settle cfg.mcn false multiView (B.map PieceBag.ent) b.pp))).length } : LevelSt).patternNum +
          (uniq (M.filterMap (fun b => settle cfg.mcn false mixedView (M.map PieceBag.ent) b.pp))).length }
  rw [← multiStage_nest hm joinInj_noslash vokL okL hnest (by rw [pL.length_eq]; exact Nat.le_trans (List.length_filter_le _ _) hN)
    (fun b hb => Nat.le_trans (lastDot_parts (hps b ((mL b).mp hb).1).1) (hK b ((mL b).mp hb).1))] at e3
  have d3 := d3.congr (fun b _ => sL b)
  obtain ⟨U3, hU3, -, -, -, u3n⟩ := d3.sent
  simp only at u3n
  -- the length stage
  have hU3' : U3.Perm (bucket.filter (fun b => inL cfg E b.pp && (stL cfg E b.pp).isNone)) := by
    refine hU3.trans ((pL.filter _).trans ?_)
    rw [List.filter_filter]
    exact filter_perm_congr (.refl _) (fun b => Bool.and_comm _ _)
  have pN : s3.toLength.Perm (bucket.filter (fun b => inN cfg E b.pp)) := by
    have e0 : s3.toLength = bucket.filter (fun b => decide (dstPiece cfg b.pp = .length)) ++ (
      U1.filter (fun b => decide (dstBase cfg b.pp = .length)) ++ (
      U2.filter (fun b => decide (dstMixed cfg b.pp = .length)) ++ U3)) := by
      rw [u3n, u2n, u1n]
      simp [sentAll]
    rw [e0]
    refine ((List.Perm.refl _).append ((hU1'.filter _).append ((hU2'.filter _).append hU3'))).trans ?_
    rw [List.filter_filter, List.filter_filter]
    refine ((List.Perm.refl _).append (((List.Perm.refl _).append (filter_or_perm bucket ?_)).trans (filter_or_perm bucket ?_))).trans
      ((filter_or_perm bucket ?_).trans (filter_perm_congr (.refl _) ?_))
    · intro b _ ⟨h1, h2⟩
      simp only [inL, Bool.or_eq_true, Bool.and_eq_true, decide_eq_true_eq] at h1 h2
      rcases h2.1 with h3 | h3 | h3
      · have hx := h1.2.1
        simp only [inM, inB, h3] at hx
        simp at hx
      · have hx := h1.2.1
        have hy := h3.1.1
        simp only [inB, decide_eq_true_eq] at hy
        simp only [inM, inB, h3.2, hy] at hx
        simp at hx
      · rw [h1.1] at h3; cases h3.2
    · intro b _ ⟨h1, h2⟩
      have hdb := h1
      simp only [Bool.and_eq_true, decide_eq_true_eq, inB] at hdb
      simp only [inL, inM, inB, hdb.1, hdb.2.1] at h2
      simp at h2
    · intro b _ ⟨h1, h2⟩
      simp only [decide_eq_true_eq] at h1
      simp [inL, inM, inB, h1] at h2
    · intro b
      unfold inN
      cases decide (dstBase cfg b.pp = .length) <;> cases decide (dstMixed cfg b.pp = .length) <;> simp
  have mN : ∀ b, b ∈ s3.toLength ↔ b ∈ bucket ∧ inN cfg E b.pp = true := fun b => by rw [pN.mem_iff, List.mem_filter]
  have okN : LenOK r s3.toLength := by
    refine ⟨nodup_perm_sub hnd pN, fun b hb => hpos b ((mN b).mp hb).1, fun b hb => ?_, fun b hb => (hps b ((mN b).mp hb).1).2⟩
    have hb1 := ((mN b).mp hb).1
    have := (hps b hb1).1.len (by rw [(hps b hb1).2]; exact hr)
    exact ⟨this.1, this.2.1⟩
  -- patterns of bags
  have inj : ∀ {b b' : PieceBag}, b ∈ bucket → b' ∈ bucket → b'.piece = b.piece → b' = b :=
    fun hb hb' e => bag_inj hnd hb' hb e
  have k1 : ∀ b ∈ bucket, stageOf cfg E b.pp ≠ .base → s1.assign.pattern b.piece = b.piece := by
    intro b hb hst
    rw [d1.keep, sentAll_pattern]
    intro b' hb' hs' e
    obtain rfl := inj hb ((mB b').mp hb').1 e
    exact hst (stageOf_base.mpr ⟨((mB b').mp hb').2, hs'⟩)
  have k2 : ∀ b ∈ bucket, stageOf cfg E b.pp ≠ .mixed → s2.assign.pattern b.piece = s1.assign.pattern b.piece := by
    intro b hb hst
    rw [d2.keep]
    intro b' hb' hs' e
    obtain rfl := inj hb ((mM b').mp hb').1 e
    exact hst (stageOf_mixed.mpr ⟨((mM b').mp hb').2, hs'⟩)
  have k3 : ∀ b ∈ bucket, stageOf cfg E b.pp ≠ .lastDot → s3.assign.pattern b.piece = s2.assign.pattern b.piece := by
    intro b hb hst
    rw [d3.keep]
    intro b' hb' hs' e
    obtain rfl := inj hb ((mL b').mp hb').1 e
    exact hst (stageOf_lastDot.mpr ⟨((mL b').mp hb').2, hs'⟩)
  obtain ⟨a4, e4, h41, h42⟩ := lengthFuzzyStage_eq hlev hm (st := { s3 with
      patternNum := ({ s2 with patternNum := ({ s1 with patternNum := (sentAll cfg bucket).patternNum +
          (uniq (B.filterMap (fun b => settle cfg.mcn false multiView (B.map PieceBag.ent) b.pp))).length } : LevelSt).patternNum +
          (uniq (M.filterMap (fun b => settle cfg.mcn false mixedView (M.map PieceBag.ent) b.pp))).length } : LevelSt).patternNum +
          (uniq (L.filterMap (fun b => settle cfg.mcn true lastDotView (L.map PieceBag.ent) b.pp))).length }) okN (by
    intro b hb
    have hb' := (mN b).mp hb
    have hs := stageOf_length.mpr hb'.2
    show s3.assign.pattern b.piece = b.piece
    rw [k3 b hb'.1 (by rw [hs]; simp), k2 b hb'.1 (by rw [hs]; simp), k1 b hb'.1 (by rw [hs]; simp)])
  simp only at h41 h42 e4
  have nPat : ∀ b : PieceBag, lenPat cfg.mcn (s3.toLength.map PieceBag.ent) b.pp = lenPat cfg.mcn (E.filter (fun e => inN cfg E e.1)) b.pp := by
    intro b; subst hE; exact lenPat_perm (ent_filter_perm pN) _
  have k4 : ∀ b ∈ bucket, stageOf cfg E b.pp ≠ .length → a4.pattern b.piece = s3.assign.pattern b.piece := by
    intro b hb hst
    refine h42 _ ?_
    intro b' hb' e
    obtain rfl := inj hb ((mN b').mp hb').1 e
    exact hst (stageOf_length.mpr ((mN b').mp hb').2)
  refine ⟨_, Eq.trans ?_ e4, ?_, B.filterMap (fun b => settle cfg.mcn false multiView (B.map PieceBag.ent) b.pp),
    M.filterMap (fun b => settle cfg.mcn false mixedView (M.map PieceBag.ent) b.pp),
    L.filterMap (fun b => settle cfg.mcn true lastDotView (L.map PieceBag.ent) b.pp),
    s3.toLength.map (fun b => lenPat cfg.mcn (s3.toLength.map PieceBag.ent) b.pp), ?_, ?_⟩
  · unfold processStages
    rw [hpc]
    simp only [bind, Except.bind]
    have v1 : (sentAll cfg bucket).toBase = withView multiView B := by rw [← hB]; rfl
    rw [v1, e1]
    simp only
    rw [← vM] at e2
    rw [← vL] at e3
    rw [e2]
    simp only
    rw [e3]
  · intro b hb
    show a4.pattern b.piece = _
    unfold stagePat
    cases hs : stageOf cfg E b.pp with
    | base =>
      simp only
      rw [k4 b hb (by rw [hs]; simp), k3 b hb (by rw [hs]; simp), k2 b hb (by rw [hs]; simp)]
      obtain ⟨h1, h2⟩ := stageOf_base.mp hs
      obtain ⟨q, hq⟩ := Option.isSome_iff_exists.mp h2
      rw [d1.set b ((mB b).mpr ⟨hb, h1⟩) q hq, hq]; rfl
    | mixed =>
      simp only
      rw [k4 b hb (by rw [hs]; simp), k3 b hb (by rw [hs]; simp)]
      obtain ⟨h1, h2⟩ := stageOf_mixed.mp hs
      obtain ⟨q, hq⟩ := Option.isSome_iff_exists.mp h2
      rw [d2.set b ((mM b).mpr ⟨hb, h1⟩) q hq, hq]; rfl
    | lastDot =>
      simp only
      rw [k4 b hb (by rw [hs]; simp)]
      obtain ⟨h1, h2⟩ := stageOf_lastDot.mp hs
      obtain ⟨q, hq⟩ := Option.isSome_iff_exists.mp h2
      rw [d3.set b ((mL b).mpr ⟨hb, h1⟩) q hq, hq]; rfl
    | length =>
      simp only
      rw [h41 b ((mN b).mpr ⟨hb, stageOf_length.mp hs⟩)]
      exact nPat b
  · show (sentAll cfg bucket).patternNum + _ + _ + _ + _ = _
    have : (sentAll cfg bucket).patternNum = 0 := rfl
    omega
  · intro q
    refine ⟨?_, ?_, ?_, ?_⟩
    · rw [List.mem_filterMap]
      constructor
      · rintro ⟨b, hb, e⟩
        rw [sB] at e
        have hs := stageOf_base.mpr ⟨((mB b).mp hb).2, by rw [e]; rfl⟩
        exact ⟨b, ((mB b).mp hb).1, hs, by unfold stagePat; rw [hs]; simp only; rw [e]; rfl⟩
      · rintro ⟨b, hb, hs, e⟩
        obtain ⟨h1, h2⟩ := stageOf_base.mp hs
        obtain ⟨q', hq⟩ := Option.isSome_iff_exists.mp h2
        refine ⟨b, (mB b).mpr ⟨hb, h1⟩, ?_⟩
        unfold stagePat at e; rw [hs] at e; simp only at e
        rw [sB, hq, ← e, hq]; rfl
    · rw [List.mem_filterMap]
      constructor
      · rintro ⟨b, hb, e⟩
        rw [sM] at e
        have hs := stageOf_mixed.mpr ⟨((mM b).mp hb).2, by rw [e]; rfl⟩
        exact ⟨b, ((mM b).mp hb).1, hs, by unfold stagePat; rw [hs]; simp only; rw [e]; rfl⟩
      · rintro ⟨b, hb, hs, e⟩
        obtain ⟨h1, h2⟩ := stageOf_mixed.mp hs
        obtain ⟨q', hq⟩ := Option.isSome_iff_exists.mp h2
        refine ⟨b, (mM b).mpr ⟨hb, h1⟩, ?_⟩
        unfold stagePat at e; rw [hs] at e; simp only at e
        rw [sM, hq, ← e, hq]; rfl
    · rw [List.mem_filterMap]
      constructor
      · rintro ⟨b, hb, e⟩
        rw [sL] at e
        have hs := stageOf_lastDot.mpr ⟨((mL b).mp hb).2, by rw [e]; rfl⟩
        exact ⟨b, ((mL b).mp hb).1, hs, by unfold stagePat; rw [hs]; simp only; rw [e]; rfl⟩
      · rintro ⟨b, hb, hs, e⟩
        obtain ⟨h1, h2⟩ := stageOf_lastDot.mp hs
        obtain ⟨q', hq⟩ := Option.isSome_iff_exists.mp h2
        refine ⟨b, (mL b).mpr ⟨hb, h1⟩, ?_⟩
        unfold stagePat at e; rw [hs] at e; simp only at e
        rw [sL, hq, ← e, hq]; rfl
    · rw [List.mem_map]
      constructor
      · rintro ⟨b, hb, e⟩
        have hs := stageOf_length.mpr ((mN b).mp hb).2
        exact ⟨b, ((mN b).mp hb).1, hs, by unfold stagePat; rw [hs]; simp only; rw [← e, nPat]⟩
      · rintro ⟨b, hb, hs, e⟩
        refine ⟨b, (mN b).mpr ⟨hb, stageOf_length.mp hs⟩, ?_⟩
        unfold stagePat at e; rw [hs] at e; simp only at e
        rw [nPat, e]

theorem level_of_stages {α : Type} {bucket : List α} {f : α → Str} {g : α → Dst} {k : Nat} {PB PM PL PN : List Str}
    (hsep : ∀ b ∈ bucket, ∀ b' ∈ bucket, f b = f b' → g b = g b')
    (hk : k = (uniq PB).length + (uniq PM).length + (uniq PL).length + (uniq PN).length)
    (h : ∀ q, (q ∈ PB ↔ ∃ b ∈ bucket, g b = .base ∧ f b = q) ∧ (q ∈ PM ↔ ∃ b ∈ bucket, g b = .mixed ∧ f b = q) ∧
      (q ∈ PL ↔ ∃ b ∈ bucket, g b = .lastDot ∧ f b = q) ∧ (q ∈ PN ↔ ∃ b ∈ bucket, g b = .length ∧ f b = q)) :
    k > 1 ↔ ∃ b ∈ bucket, ∃ b' ∈ bucket, f b ≠ f b' := by
  have hd : ∀ {d d' : Dst} {q : Str}, d ≠ d' → (∃ b ∈ bucket, g b = d ∧ f b = q) → ¬ ∃ b ∈ bucket, g b = d' ∧ f b = q := by
    rintro d d' q hne ⟨b, hb, h1, h2⟩ ⟨b', hb', h3, h4⟩
    have := hsep b hb b' hb' (h2.trans h4.symm)
    rw [h1, h3] at this
    exact hne this
  have e : k = (uniq (PB ++ (PM ++ (PL ++ PN)))).length := by
    rw [hk, uniq_append_length, uniq_append_length, uniq_append_length]
    · omega
    · intro q hq hq'
      rw [(h q).2.2.1] at hq
      rw [(h q).2.2.2] at hq'
      exact hd (by simp) hq hq'
    · intro q hq hq'
      rw [(h q).2.1] at hq
      rw [List.mem_append, (h q).2.2.1, (h q).2.2.2] at hq'
      rcases hq' with hq' | hq' <;> exact hd (by simp) hq hq'
    · intro q hq hq'
      rw [(h q).1] at hq
      rw [List.mem_append, List.mem_append, (h q).2.1, (h q).2.2.1, (h q).2.2.2] at hq'
      rcases hq' with hq' | hq' | hq' <;> exact hd (by simp) hq hq'
  have hmem : ∀ q, q ∈ PB ++ (PM ++ (PL ++ PN)) ↔ ∃ b ∈ bucket, f b = q := by
    intro q
    rw [List.mem_append, List.mem_append, List.mem_append, (h q).1, (h q).2.1, (h q).2.2.1, (h q).2.2.2]
    constructor
    · rintro (⟨b, hb, -, hq⟩ | ⟨b, hb, -, hq⟩ | ⟨b, hb, -, hq⟩ | ⟨b, hb, -, hq⟩) <;> exact ⟨b, hb, hq⟩
    · rintro ⟨b, hb, hq⟩
      cases hg : g b
      · exact .inl ⟨b, hb, hg, hq⟩
      · exact .inr (.inl ⟨b, hb, hg, hq⟩)
      · exact .inr (.inr (.inl ⟨b, hb, hg, hq⟩))
      · exact .inr (.inr (.inr ⟨b, hb, hg, hq⟩))
  rw [e, uniq_gt_one]
  constructor
  · rintro ⟨x, hx, y, hy, hxy⟩
    obtain ⟨b, hb, rfl⟩ := (hmem x).mp hx
    obtain ⟨b', hb', rfl⟩ := (hmem y).mp hy
    exact ⟨b, hb, b', hb', hxy⟩
  · rintro ⟨b, hb, b', hb', hxy⟩
    exact ⟨_, (hmem _).mpr ⟨b, hb, rfl⟩, _, (hmem _).mpr ⟨b', hb', rfl⟩, hxy⟩

/-- The stages of every level compute `topF`, given that stages do not share patterns. -/
theorem top_level_lim {h : Runtime} {mcn : Int} (hm : 2 ≤ mcn) (m : URLMeta) (kw : Bool) (n : Nat) {nested : NestedCluster}
    {Lim : List ParsedPiece → Prop} (hmono : ∀ A B : List ParsedPiece, (∀ a ∈ A, a ∈ B) → Lim B → Lim A)
    (hlim : ∀ ps, Lim ps → ∃ N K, NestOK h nested N K ∧ (uniq (ps.map (·.piece))).length ≤ N ∧ ∀ p ∈ ps, p.pieces.length + 1 ≤ K)
    (hsep : ∀ j (E : List Ent), j < n → (E.map (fun e => e.1.piece)).Nodup → (∀ e ∈ E, 1 ≤ e.2) → TopOK h m j (E.map (·.1)) →
      litStop mcn E = false → StageSep (cfgAt mcn m kw n j) E) :
    LevelOK h nested mcn m kw n (fun j ps => TopOK h m j ps ∧ Lim ps) (topF mcn m kw n) := by
  refine ⟨fun j A B hs hB => ⟨topOK_mono h m j A B hs hB.1, hmono A B hs hB.2⟩, topF_perm _ _ _ _, ?_⟩
  intro j bucket hj hne hnd hpos hok
  obtain ⟨hok, hl⟩ := hok
  obtain ⟨N, K, hnest, hN, hK⟩ := hlim _ hl
  have hN' : bucket.length ≤ N := by
    refine Nat.le_trans (Nat.le_of_eq ?_) hN
    rw [List.map_map]
    have := length_uniq hnd (ys := bucket.map PieceBag.piece) (fun _ => Iff.rfl)
    rw [List.length_map] at this
    exact this
  have hpc := pieceStage_eq (cfg := cfgAt mcn m kw n j) (by simp [cfgAt]) hne hpos
  have hcfg1 : (cfgAt mcn m kw n j).lastLevel = decide (j + 1 = n) := rfl
  have hcfg2 : (cfgAt mcn m kw n j).lastAsPattern = kw := rfl
  have hcfg3 : (cfgAt mcn m kw n j).mcn = mcn := rfl
  rw [hcfg1, hcfg2, hcfg3] at hpc
  by_cases hlit : ((decide (j + 1 = n) && kw) || litStop mcn (bucket.map PieceBag.ent)) = true
  · rw [if_pos hlit] at hpc
    refine ⟨_, stages_literal (by rw [hcfg3]; omega) hpc, ?_, ?_⟩
    · intro b hb
      rw [literalAll_pattern]
      unfold topF
      rw [if_pos hlit]; rfl
    · have hF : ∀ b, topF mcn m kw n j (bucket.map PieceBag.ent) b = b.piece := by
        intro b; unfold topF; rw [if_pos hlit]
      simp only [hF]
      show 0 + (uniq (bucket.map (fun b => b.piece))).length > 1 ↔ _
      rw [Nat.zero_add, uniq_gt_one]
      constructor
      · rintro ⟨x, hx, y, hy, hxy⟩
        obtain ⟨b, hb, rfl⟩ := List.mem_map.mp hx
        obtain ⟨b', hb', rfl⟩ := List.mem_map.mp hy
        exact ⟨b, hb, b', hb', hxy⟩
      · rintro ⟨b, hb, b', hb', hxy⟩
        exact ⟨_, List.mem_map.mpr ⟨b, hb, rfl⟩, _, List.mem_map.mpr ⟨b', hb', rfl⟩, hxy⟩
  · rw [if_neg hlit] at hpc
    have hF : ∀ b, topF mcn m kw n j (bucket.map PieceBag.ent) b = stagePat (cfgAt mcn m kw n j) (bucket.map PieceBag.ent) b := by
      intro b; unfold topF; rw [if_neg hlit]
    obtain ⟨r, hr⟩ := hok.rule
    have hps : ∀ b ∈ bucket, IsParsed b.pp ∧ b.pp.fuzzyRule = r := fun b hb =>
      ⟨hok.parsed _ (List.mem_map.mpr ⟨b, hb, rfl⟩), hr _ (List.mem_map.mpr ⟨b, hb, rfl⟩)⟩
    have hstop : litStop mcn (bucket.map PieceBag.ent) = false := by
      rw [Bool.eq_false_iff]; intro h'; exact hlit (by rw [h', Bool.or_true])
    have hr0 : r ≠ [] := by
      rintro rfl
      have hbl : ∀ b ∈ bucket, b.piece = [] := fun b hb => (hps b hb).1.blank (hps b hb).2
      match bucket, hne with
      | [b], _ =>
        rw [List.map_singleton, litStop_single hm _ (hpos b (by simp))] at hstop
        cases hstop
      | b :: b' :: bs, _ =>
        rw [List.map_cons, List.map_cons, List.nodup_cons] at hnd
        apply hnd.1
        rw [List.mem_cons]
        left
        rw [hbl b (by simp), hbl b' (by simp)]
    obtain ⟨st, hrun, hpat, PB, PM, PL, PN, hk, hP⟩ := stages_eq (h := h) (cfg := cfgAt mcn m kw n j) (by simp [cfgAt]) hm hr0 hnd hpos hps
      (by
        intro hl
        have hl' : m.pathDepth = j + 1 := by simpa [cfgAt] using hl
        cases hb : bucket with
        | nil => exact absurd hb hne
        | cons b bs =>
          have hbm : b ∈ bucket := by rw [hb]; simp
          rw [← (hps b hbm).2]
          exact hok.slash hl' _ (List.mem_map.mpr ⟨b, hbm, rfl⟩)) hok.hash hpc hnest hN' (fun b hb => hK _ (List.mem_map.mpr ⟨b, hb, rfl⟩))
    refine ⟨st, hrun, ?_, ?_⟩
    · intro b hb
      rw [hF]; exact hpat b hb
    · simp only [hF]
      have hs := hsep j (bucket.map PieceBag.ent) hj (by rw [List.map_map]; exact hnd) (by
        intro e he
        obtain ⟨b, hb, rfl⟩ := List.mem_map.mp he
        exact hpos b hb) (by rw [List.map_map]; exact hok) hstop
      exact level_of_stages (g := fun b => stageOf (cfgAt mcn m kw n j) (bucket.map PieceBag.ent) b.pp)
        (fun b hb b' hb' e => hs b.ent (List.mem_map.mpr ⟨b, hb, rfl⟩) b'.ent (List.mem_map.mpr ⟨b', hb', rfl⟩) e) hk hP

end OsUrl
