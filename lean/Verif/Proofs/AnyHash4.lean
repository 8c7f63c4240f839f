import Verif.Proofs.AnyHash3
import Verif.Proofs.Top2

/-! A whole level with an arbitrary `hash`. -/

namespace OsUrl
open Spec

theorem dstMixed_ne {cfg : LevelCfg} {p : ParsedPiece} : dstMixed cfg p ≠ .base ∧ dstMixed cfg p ≠ .mixed := by
  unfold dstMixed routeMixed
  simp only
  constructor <;> (repeat' split) <;> (intro h; cases h)

theorem stageAny {Tok : Str → Prop} {V : ParsedPiece → View} (hj : JoinInj Tok)
    {bs : List PieceBag} (hn : (bs.map PieceBag.piece).Nodup)
    (hpos : ∀ b ∈ bs, 1 ≤ b.count) (hv : ∀ b ∈ bs, ViewOK Tok V b.pp) : StageAny V bs := by
  refine ⟨hn, fun b hb => ?_⟩
  have hG := groupOK hj hn hpos hv hb
  have hne := List.length_pos_iff.mpr (hv b hb).ne
  refine ⟨(V b.pp).pps.length - 1, by omega, ?_⟩
  rw [show (V b.pp).pps.length - 1 + 1 = (V b.pp).pps.length by omega]
  exact hG

/-- The stages of a level that is not literal, with any hash. -/
theorem stages_any {h : Runtime} {cfg : LevelCfg} (hlev : 1 ≤ cfg.level) (hm : 2 ≤ cfg.mcn) {bucket : Bucket} {r : Str}
    (hr : r ≠ []) (hnd : (bucket.map PieceBag.piece).Nodup) (hpos : ∀ b ∈ bucket, 1 ≤ b.count)
    (hps : ∀ b ∈ bucket, IsParsed b.pp ∧ b.pp.fuzzyRule = r) (hsl : cfg.lastPath = true → '/' ∉ r)
    (hpc : pieceStage cfg bucket ⟨[], 0, [], [], [], []⟩ = .ok (sentAll cfg bucket)) :
    RecOr (processStages h (clusterNest h 1) cfg bucket) (fun st => ¬ st.patternNum > 1 →
      ∀ b ∈ bucket, ∀ b' ∈ bucket, st.assign.pattern b.piece = st.assign.pattern b'.piece) := by
  have hne : ∀ b ∈ bucket, b.pp.pieces ≠ [] := fun b hb => ((hps b hb).1.len (by rw [(hps b hb).2]; exact hr)).2.2
  -- the bags by destination
  generalize hB : bucket.filter (fun b => decide (dstPiece cfg b.pp = .base)) = B
  generalize hM0 : bucket.filter (fun b => decide (dstPiece cfg b.pp = .mixed)) = M0
  generalize hL0 : bucket.filter (fun b => decide (dstPiece cfg b.pp = .lastDot)) = L0
  generalize hN0 : bucket.filter (fun b => decide (dstPiece cfg b.pp = .length)) = N0
  have mB : ∀ b ∈ B, b ∈ bucket ∧ dstPiece cfg b.pp = .base := by
    intro b hb; rw [← hB] at hb; simpa using List.mem_filter.mp hb
  have mM0 : ∀ b ∈ M0, b ∈ bucket ∧ dstPiece cfg b.pp = .mixed := by
    intro b hb; rw [← hM0] at hb; simpa using List.mem_filter.mp hb
  have mL0 : ∀ b ∈ L0, b ∈ bucket ∧ dstPiece cfg b.pp = .lastDot := by
    intro b hb; rw [← hL0] at hb; simpa using List.mem_filter.mp hb
  have p0 : Pend bucket (B ++ (M0 ++ (L0 ++ N0))) (sentAll cfg bucket) [] := by
    have base : Pend bucket bucket (sentAll cfg bucket) [] :=
      ⟨hnd, fun b hb => hb, fun b hb => sentAll_pattern _ _ _, fun b hb hn => absurd hb hn⟩
    refine base.perm ?_
    rw [← hB, ← hM0, ← hL0, ← hN0]
    refine List.Perm.symm ?_
    refine ((List.Perm.refl _).append (((List.Perm.refl _).append (filter_or_perm bucket ?_)).trans (filter_or_perm bucket ?_))).trans
      ((filter_or_perm bucket ?_).trans ?_)
    · intro b _ ⟨h1, h2⟩
      rw [decide_eq_true_eq] at h1 h2
      rw [h1] at h2; cases h2
    · intro b _ ⟨h1, h2⟩
      rw [decide_eq_true_eq] at h1
      rw [h1] at h2; simp at h2
    · intro b _ ⟨h1, h2⟩
      rw [decide_eq_true_eq] at h1
      rw [h1] at h2; simp at h2
    · rw [List.filter_eq_self.mpr]
      intro b _
      cases dstPiece cfg b.pp <;> rfl
  have t0 : (sentAll cfg bucket).toBase = withView multiView B := by rw [← hB]; rfl
  have t1 : (sentAll cfg bucket).toMixed = withView mixedView M0 := by rw [← hM0]; rfl
  have t2 : (sentAll cfg bucket).toLastDot = withView lastDotView L0 := by rw [← hL0]; rfl
  have t3 : (sentAll cfg bucket).toLength = N0 := by rw [← hN0]; rfl
  have t4 : (sentAll cfg bucket).patternNum = 0 := rfl
  have t5 : processStages h (clusterNest h 1) cfg bucket = (do
      let s1 ← multiStage (clusterNest h 1) cfg false (fun v b => routeBase cfg v b.pp) (withView multiView B) (sentAll cfg bucket)
      let s2 ← multiStage (clusterNest h 1) cfg false (fun _ b => routeMixed cfg b.pp) s1.toMixed s1
      let s3 ← multiStage (clusterNest h 1) cfg true (fun _ _ => .length) s2.toLastDot s2
      lengthFuzzyStage h cfg s3) := by
    unfold processStages
    rw [hpc, ← t0]
    rfl
  rw [t5]
  generalize sentAll cfg bucket = s0 at *
  have nodupL : ∀ {X Y : List PieceBag}, ((X ++ Y).map PieceBag.piece).Nodup → (X.map PieceBag.piece).Nodup := by
    intro X Y hh
    rw [List.map_append] at hh
    exact (List.nodup_append.mp hh).1
  -- base
  have okB : StageAny multiView B := stageAny joinInj_token (nodupL p0.nodup) (fun b hb => hpos b (mB b hb).1)
    (fun b hb => multi_viewOK (hps b (mB b hb).1).1 (hne b (mB b hb).1))
  refine (multiStage_any (h := h) (kw := false) okB hm (d := dstBase cfg) (fwd := fun v b => routeBase cfg v b.pp)
    (fun b _ => routeBase_eq cfg b.pp) 0 s0).bind ?_
  rintro _ ⟨sB, s1, q1, rfl, d1⟩
  obtain ⟨U1, hU1, -, u1m, u1l, u1n⟩ := d1.sent
  have p1 := p0.step hnd d1 hU1
  have mU1 : ∀ b ∈ U1, b ∈ bucket ∧ dstPiece cfg b.pp = .base := fun b hb => mB b (List.mem_filter.mp (hU1.mem_iff.mp hb)).1
  have e1m : s1.toMixed = withView mixedView (M0 ++ U1.filter (fun b => decide (dstBase cfg b.pp = .mixed))) := by
    rw [u1m, t1]; simp [sent, withView, Dst.view]
  have e1l : s1.toLastDot = withView lastDotView (L0 ++ U1.filter (fun b => decide (dstBase cfg b.pp = .lastDot))) := by
    rw [u1l, t2]; simp [sent, withView, Dst.view]
  rw [t3] at u1n
  have p1' : Pend bucket ((M0 ++ U1.filter (fun b => decide (dstBase cfg b.pp = .mixed))) ++
      ((L0 ++ U1.filter (fun b => decide (dstBase cfg b.pp = .lastDot))) ++
        (N0 ++ U1.filter (fun b => decide (dstBase cfg b.pp = .length))))) s1 ([] ++ q1) := by
    refine p1.perm (List.Perm.symm ?_)
    have hf := filter_dst (U := U1) (d := dstBase cfg) (fun b _ => dstBase_ne _ _)
    rw [List.perm_iff_count] at hf ⊢
    intro a
    have := hf a
    simp only [List.count_append] at this ⊢
    omega
  obtain ⟨T1, hT1⟩ : ∃ T, T = ({ s1 with patternNum := s0.patternNum + q1.length } : LevelSt) := ⟨_, rfl⟩
  rw [← hT1]
  have T1m : T1.toMixed = s1.toMixed := by rw [hT1]
  have T1l : T1.toLastDot = s1.toLastDot := by rw [hT1]
  have T1n : T1.toLength = s1.toLength := by rw [hT1]
  have T1k : T1.patternNum = q1.length := by rw [hT1]; simp only; rw [t4, Nat.zero_add]
  have T1a : T1.assign = s1.assign := by rw [hT1]
  clear hT1
  rw [T1m, e1m]
  have mM : ∀ b ∈ M0 ++ U1.filter (fun b => decide (dstBase cfg b.pp = .mixed)), b ∈ bucket ∧ 2 ≤ b.pp.pieces.length := by
    intro b hb
    rw [List.mem_append] at hb
    rcases hb with hb | hb
    · exact ⟨(mM0 b hb).1, dstPiece_mixed (hps b (mM0 b hb).1).1 (mM0 b hb).2⟩
    · obtain ⟨h1, h2⟩ := mU1 b (List.mem_filter.mp hb).1
      have h3 := dstPiece_base h2
      have h4 := List.length_pos_iff.mpr (hne b h1)
      exact ⟨h1, by omega⟩
  have mL1 : ∀ b ∈ L0 ++ U1.filter (fun b => decide (dstBase cfg b.pp = .lastDot)), b ∈ bucket ∧ cfg.lastPath = true := by
    intro b hb
    rw [List.mem_append] at hb
    rcases hb with hb | hb
    · exact ⟨(mL0 b hb).1, dst_lastPath (p := b.pp) (.inl (mL0 b hb).2)⟩
    · have h1 := List.mem_filter.mp hb
      exact ⟨(mU1 b h1.1).1, dst_lastPath (p := b.pp) (.inr (.inl (of_decide_eq_true h1.2)))⟩
  generalize M0 ++ U1.filter (fun b => decide (dstBase cfg b.pp = .mixed)) = M at *
  generalize L0 ++ U1.filter (fun b => decide (dstBase cfg b.pp = .lastDot)) = L1 at *
  generalize N0 ++ U1.filter (fun b => decide (dstBase cfg b.pp = .length)) = N1 at *
  have hnum1 := d1.num
  -- mixed
  have okM : StageAny mixedView M := stageAny joinInj_token (nodupL p1'.nodup) (fun b hb => hpos b (mM b hb).1)
    (fun b hb => mixed_viewOK (hps b (mM b hb).1).1 (mM b hb).2)
  have p1'' : Pend bucket (M ++ (L1 ++ N1)) T1 ([] ++ q1) :=
    ⟨p1'.nodup, p1'.sub, by rw [T1a]; exact p1'.own, by rw [T1a]; exact p1'.rec_⟩
  refine (multiStage_any (h := h) (kw := false) okM hm (d := dstMixed cfg) (fwd := fun _ b => routeMixed cfg b.pp)
    (fun b _ => routeMixed_eq cfg b.pp) 0 T1).bind ?_
  rintro _ ⟨sM, s2, q2, rfl, d2⟩
  obtain ⟨U2, hU2, -, -, u2l, u2n⟩ := d2.sent
  have p2 := p1''.step hnd d2 hU2
  have mU2 : ∀ b ∈ U2, b ∈ bucket := fun b hb => (mM b (List.mem_filter.mp (hU2.mem_iff.mp hb)).1).1
  have e2l : s2.toLastDot = withView lastDotView (L1 ++ U2.filter (fun b => decide (dstMixed cfg b.pp = .lastDot))) := by
    rw [u2l, T1l, e1l]; simp [sent, withView, Dst.view]
  have e2n : s2.toLength = N1 ++ U2.filter (fun b => decide (dstMixed cfg b.pp = .length)) := by
    rw [u2n, T1n, u1n]
  have p2' : Pend bucket ((L1 ++ U2.filter (fun b => decide (dstMixed cfg b.pp = .lastDot))) ++
      (N1 ++ U2.filter (fun b => decide (dstMixed cfg b.pp = .length)))) s2 (([] ++ q1) ++ q2) := by
    refine p2.perm (List.Perm.symm ?_)
    have hf := filter_dst (U := U2) (d := dstMixed cfg) (fun b _ => dstMixed_ne.1)
    have hz : U2.filter (fun b => decide (dstMixed cfg b.pp = .mixed)) = [] := by
      rw [List.filter_eq_nil_iff]
      intro b _ hb
      exact dstMixed_ne.2 (of_decide_eq_true hb)
    rw [hz, List.nil_append] at hf
    rw [List.perm_iff_count] at hf ⊢
    intro a
    have := hf a
    simp only [List.count_append] at this ⊢
    omega
  have mL : ∀ b ∈ L1 ++ U2.filter (fun b => decide (dstMixed cfg b.pp = .lastDot)), b ∈ bucket ∧ cfg.lastPath = true := by
    intro b hb
    rw [List.mem_append] at hb
    rcases hb with hb | hb
    · exact mL1 b hb
    · have h1 := List.mem_filter.mp hb
      exact ⟨mU2 b h1.1, dst_lastPath (p := b.pp) (.inr (.inr (of_decide_eq_true h1.2)))⟩
  obtain ⟨T2, hT2⟩ : ∃ T, T = ({ s2 with patternNum := T1.patternNum + q2.length } : LevelSt) := ⟨_, rfl⟩
  rw [← hT2]
  have T2l : T2.toLastDot = s2.toLastDot := by rw [hT2]
  have T2n : T2.toLength = s2.toLength := by rw [hT2]
  have T2k : T2.patternNum = q1.length + q2.length := by rw [hT2, ← T1k]
  have T2a : T2.assign = s2.assign := by rw [hT2]
  clear hT2
  rw [T2l, e2l]
  generalize L1 ++ U2.filter (fun b => decide (dstMixed cfg b.pp = .lastDot)) = L at *
  generalize N1 ++ U2.filter (fun b => decide (dstMixed cfg b.pp = .length)) = N2 at *
  -- last dot
  have okL : StageAny lastDotView L := stageAny joinInj_noslash (nodupL p2'.nodup) (fun b hb => hpos b (mL b hb).1)
    (fun b hb => lastDot_viewOK (hps b (mL b hb).1).1 (by
      rw [(hps b (mL b hb).1).2]; exact hsl (mL b hb).2))
  have p2'' : Pend bucket (L ++ N2) T2 (([] ++ q1) ++ q2) :=
    ⟨p2'.nodup, p2'.sub, by rw [T2a]; exact p2'.own, by rw [T2a]; exact p2'.rec_⟩
  refine (multiStage_any (h := h) (kw := true) okL hm (d := fun _ => .length) (fwd := fun _ _ => .length)
    (fun b _ => rfl) 0 T2).bind ?_
  rintro _ ⟨sL, s3, q3, rfl, d3⟩
  obtain ⟨U3, hU3, -, -, -, u3n⟩ := d3.sent
  have p3 := p2''.step hnd d3 hU3
  have e3n : s3.toLength = N2 ++ U3 := by
    rw [u3n, T2n, e2n]; simp
  have p3' : Pend bucket s3.toLength s3 ((([] ++ q1) ++ q2) ++ q3) := by
    rw [e3n]
    exact p3.perm List.perm_append_comm
  -- length
  have okN : LenOK r s3.toLength := by
    refine ⟨p3'.nodup, fun b hb => hpos b (p3'.sub b hb), fun b hb => ?_, fun b hb => (hps b (p3'.sub b hb)).2⟩
    have hb1 := p3'.sub b hb
    have := (hps b hb1).1.len (by rw [(hps b hb1).2]; exact hr)
    exact ⟨this.1, this.2.1⟩
  obtain ⟨a4, e4, h41, h42⟩ := lengthFuzzyStage_eq (rt := h) hlev hm (st := { s3 with
      patternNum := T2.patternNum + q3.length })
      okN (fun b hb => p3'.own b hb)
  refine .inr ⟨_, e4, ?_⟩
  intro hsmall
  simp only [T2k] at hsmall h41 h42 ⊢
  have hall : ∀ b ∈ bucket, a4.pattern b.piece ∈ (q1 ++ (q2 ++ q3)) ++
      uniq (s3.toLength.map (fun b => lenPat cfg.mcn (s3.toLength.map PieceBag.ent) b.pp)) := by
    intro b hb
    rw [List.mem_append]
    by_cases hl : b ∈ s3.toLength
    · right
      rw [h41 b hl, mem_uniq]
      exact List.mem_map.mpr ⟨b, hl, rfl⟩
    · left
      rw [h42 b.piece (by
        intro b' hb' e
        exact hl (by rw [← bag_inj hnd (p3'.sub b' hb') hb e]; exact hb'))]
      have := p3'.rec_ b hb hl
      simpa using this
  have hR : ((q1 ++ (q2 ++ q3)) ++ uniq (s3.toLength.map (fun b => lenPat cfg.mcn (s3.toLength.map PieceBag.ent) b.pp))).length ≤ 1 := by
    simp only [List.length_append]
    omega
  generalize (q1 ++ (q2 ++ q3)) ++ uniq (s3.toLength.map (fun b => lenPat cfg.mcn (s3.toLength.map PieceBag.ent) b.pp)) = R at *
  intro b hb b' hb'
  have h1 := hall b hb
  have h2 := hall b' hb'
  match R, hR with
  | [], _ => cases h1
  | [x], _ =>
    rw [List.mem_singleton] at h1 h2
    rw [h1, h2]

/-- What a level asks of its pieces when nothing is known about the hash. -/
structure AnyOK (m : URLMeta) (j : Nat) (ps : List ParsedPiece) : Prop where
  parsed : ∀ p ∈ ps, IsParsed p
  rule : ∃ r, ∀ p ∈ ps, p.fuzzyRule = r
  slash : m.pathDepth = j + 1 → ∀ p ∈ ps, '/' ∉ p.fuzzyRule

theorem anyOK_mono (m : URLMeta) : Mono (AnyOK m) := by
  intro j A B hs hB
  obtain ⟨r, hr⟩ := hB.rule
  exact ⟨fun p hp => hB.parsed p (hs p hp), ⟨r, fun p hp => hr p (hs p hp)⟩, fun hd p hp => hB.slash hd p (hs p hp)⟩

/-- Every level, with any hash. -/
theorem top_any {h : Runtime} {mcn : Int} (hm : 2 ≤ mcn) (m : URLMeta) (kw : Bool) (n : Nat) :
    LevelAny h (clusterNest h 1) mcn m kw n (AnyOK m) := by
  refine ⟨anyOK_mono m, ?_⟩
  intro j bucket hj hne hnd hpos hok
  have hpc := pieceStage_eq (cfg := cfgAt mcn m kw n j) (by simp [cfgAt]) hne hpos
  have hcfg1 : (cfgAt mcn m kw n j).lastLevel = decide (j + 1 = n) := rfl
  have hcfg2 : (cfgAt mcn m kw n j).lastAsPattern = kw := rfl
  have hcfg3 : (cfgAt mcn m kw n j).mcn = mcn := rfl
  rw [hcfg1, hcfg2, hcfg3] at hpc
  by_cases hlit : ((decide (j + 1 = n) && kw) || litStop mcn (bucket.map PieceBag.ent)) = true
  · rw [if_pos hlit] at hpc
    refine .inr ⟨_, stages_literal (by rw [hcfg3]; omega) hpc, ?_⟩
    intro hsmall b hb b' hb'
    rw [literalAll_pattern, literalAll_pattern]
    have hs : ¬ 0 + (uniq (bucket.map (fun b => b.piece))).length > 1 := hsmall
    rw [Nat.zero_add, uniq_gt_one] at hs
    apply Classical.byContradiction
    intro e
    exact hs ⟨_, List.mem_map.mpr ⟨b, hb, rfl⟩, _, List.mem_map.mpr ⟨b', hb', rfl⟩, e⟩
  · rw [if_neg hlit] at hpc
    obtain ⟨r, hr⟩ := hok.rule
    have hps : ∀ b ∈ bucket, IsParsed b.pp ∧ b.pp.fuzzyRule = r := fun b hb =>
      ⟨hok.parsed _ (List.mem_map.mpr ⟨b, hb, rfl⟩), hr _ (List.mem_map.mpr ⟨b, hb, rfl⟩)⟩
    have hstop : litStop mcn (bucket.map PieceBag.ent) = false := by
      rw [Bool.eq_false_iff]; intro h'; exact hlit (by rw [h', Bool.or_true])
    have hr0 : r ≠ [] := by
      rintro rfl
      have hbl : ∀ b ∈ bucket, b.piece = [] := fun b hb => (hps b hb).1.blank (hps b hb).2
      match bucket, hne with
      | [b], _ =>
        rw [List.map_singleton, litStop_single hm _ (hpos b (by simp))] at hstop
        cases hstop
      | b :: b' :: bs, _ =>
        rw [List.map_cons, List.map_cons, List.nodup_cons] at hnd
        apply hnd.1
        rw [List.mem_cons]
        left
        rw [hbl b (by simp), hbl b' (by simp)]
    refine stages_any (cfg := cfgAt mcn m kw n j) (by simp [cfgAt]) hm hr0 hnd hpos hps ?_ hpc
    intro hl
    have hl' : m.pathDepth = j + 1 := by simpa [cfgAt] using hl
    cases hb : bucket with
    | nil => exact absurd hb hne
    | cons b bs =>
      have hbm : b ∈ bucket := by rw [hb]; simp
      rw [← (hps b hbm).2]
      exact hok.slash hl' _ (List.mem_map.mpr ⟨b, hbm, rfl⟩)

end OsUrl
