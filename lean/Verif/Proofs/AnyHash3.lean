import Verif.Proofs.AnyHash2

/-! The stages of a level with an arbitrary `hash`. -/

namespace OsUrl

section group
variable {V : ParsedPiece → View} {n : Nat} {G : List PieceBag} {mcn : Int} {kw : Bool}

/-- One resulting cluster of a group. -/
theorem transfer_any (hG : GroupOK V (n + 1) G) {C : List Ins}
    (hsub : ∀ x ∈ C, x.bare ∈ vrows V G) (hC : Done (n + 1) C) :
    ∃ (Bs : List PieceBag) (q : Str), transfer (vbBags (withView V G)) (doneTree (n + 1) C) = .ok (withView V Bs, q) ∧
      Bs ≠ [] ∧ (∀ b ∈ Bs, b ∈ G) ∧ (vrows V Bs).Perm (C.map Ins.bare) := by
  have hpaths : (doneTree (n + 1) C).paths = growPaths (n + 1) C := by rw [← paths_growTree hC.ne]; rfl
  have hrows := rows_of_paths hC.normal hC.coh hC.full
  have hps : ∀ p ∈ growPaths (n + 1) C, ∃ b ∈ G, (rowOf p).bare = vrow V b.ent ∧
      (p.map (fun kn => kn.2.pp.piece)).flatten = b.piece := by
    intro p hp
    have hm := hrows.mem_iff.mp (List.mem_map.mpr ⟨p, hp, rfl⟩)
    obtain ⟨b, hb, e⟩ := List.mem_map.mp (hsub _ hm)
    refine ⟨b, hb, e.symm, ?_⟩
    rw [← hG.flat b hb]
    have : (rowOf p).bare.keys = (vrow V b.ent).keys := by rw [e]
    rw [bare_keys, vrow_keys] at this
    show _ = ((V b.ent.1).pps.map (·.piece)).flatten
    rw [← this]
    simp [rowOf, Ins.keys, Function.comp_def]
  obtain ⟨Bs, e1, e2, e3⟩ := transferBags_eq hG.nodup _ hps
  have hperm : (vrows V Bs).Perm (C.map Ins.bare) := by
    rw [e3]
    have := hrows.map Ins.bare
    rwa [List.map_map] at this
  cases hp0 : growPaths (n + 1) C with
  | nil =>
    exfalso
    rw [hp0] at hrows
    exact hC.ne (List.Perm.nil_eq hrows).symm
  | cons p0 ps =>
    have hBne : Bs ≠ [] := by
      rintro rfl
      rw [hp0] at e3
      simp [vrows] at e3
    refine ⟨Bs, (p0.map (fun kn => kn.2.pattern)).flatten, ?_, hBne, e2, hperm⟩
    unfold transfer
    rw [hpaths, hp0]
    simp only
    rw [hp0] at e1
    rw [e1]; rfl

/-- Two parts of a stage with their own choices. -/
theorem Did.join {d : ParsedPiece → Dst} {s s' : PieceBag → Option Str} {G G' : List PieceBag} {st st1 st2 : LevelSt}
    {p p1 p2 : List Str} (h1 : Did d s G st p st1 p1) (h2 : Did d s' G' st1 p1 st2 p2)
    (hn : ((G ++ G').map PieceBag.piece).Nodup) : ∃ s'', Did d s'' (G ++ G') st p st2 p2 := by
  refine ⟨fun b => if b.piece ∈ G.map PieceBag.piece then s b else s' b, ?_⟩
  have hn' := hn
  rw [List.map_append, List.nodup_append] at hn'
  refine Did.append (h1.congr ?_) (h2.congr ?_) hn
  · intro b hb
    rw [if_pos (List.mem_map.mpr ⟨b, hb, rfl⟩)]
  · intro b hb
    rw [if_neg]
    intro hm
    exact hn'.2.2 _ hm _ (List.mem_map.mpr ⟨b, hb, rfl⟩) rfl

theorem multiClusters_any (hG : GroupOK V (n + 1) G) {d : ParsedPiece → Dst} {fwd : View → PieceBag → Route}
    (hf : ∀ b ∈ G, fwd (V b.pp) b = mkRoute (d b.pp) b.pp) :
    ∀ (Cs : List (List Ins)), (∀ C ∈ Cs, ∀ x ∈ C, x.bare ∈ vrows V G) → (Cs.flatten.map Ins.bare).Nodup →
    (∀ C ∈ Cs, Done (n + 1) C) →
    ∀ (st : LevelSt) (pats : List Str), ∃ st' pats' Bs s,
      multiClusters mcn fwd (vbBags (withView V G)) (Cs.map (doneTree (n + 1))) (st, pats) = .ok (st', pats') ∧
      (∀ b ∈ Bs, b ∈ G) ∧ (vrows V Bs).Perm (Cs.flatten.map Ins.bare) ∧ Did d s Bs st pats st' pats' := by
  intro Cs
  induction Cs with
  | nil => intro _ _ _ st pats; exact ⟨st, pats, [], fun _ => none, rfl, by simp, by simp [vrows], Did.nil _ _ _ _⟩
  | cons C Cs ih =>
    intro hsub hnd hfin st pats
    obtain ⟨Bs, q, e, hne, hBG, hperm⟩ := transfer_any hG (hsub C (by simp)) (hfin C (by simp))
    have hvnd : ∀ Bs : List PieceBag, (∀ b ∈ Bs, b ∈ G) → (vrows V Bs).Nodup → (Bs.map PieceBag.piece).Nodup := by
      intro Bs hB hn
      have hb := nodup_of_map hn
      rw [List.nodup_iff_pairwise_ne, List.pairwise_map]
      rw [List.nodup_iff_pairwise_ne] at hb
      refine List.Pairwise.imp_of_mem ?_ hb
      intro a b ha hb' hab e
      exact hab (bag_inj hG.nodup (hB a ha) (hB b hb') e)
    rw [List.flatten_cons, List.map_append] at hnd
    have hnd' := List.nodup_append.mp hnd
    have hBn : (Bs.map PieceBag.piece).Nodup := hvnd Bs hBG (hperm.nodup_iff.mpr hnd'.1)
    simp only [List.map_cons, multiClusters, e, bind, Except.bind]
    have hstep : ∃ st1 p1 s1, (if vbCount (withView V Bs) < mcn then
          multiClusters mcn fwd (vbBags (withView V G)) (Cs.map (doneTree (n + 1))) (forwardAll fwd (withView V Bs) st, pats)
        else multiClusters mcn fwd (vbBags (withView V G)) (Cs.map (doneTree (n + 1)))
          ({ st with assign := st.assign.setBucket ((withView V Bs).map (·.2)) q }, setAdd q pats)) =
        multiClusters mcn fwd (vbBags (withView V G)) (Cs.map (doneTree (n + 1))) (st1, p1) ∧
        Did d s1 Bs st pats st1 p1 := by
      by_cases ht : vbCount (withView V Bs) < mcn
      · rw [if_pos ht]
        exact ⟨_, _, fun _ => none, rfl, Did.forward hBn (fun b hb => hf b (hBG b hb)) (fun b hb => rfl) st pats⟩
      · rw [if_neg ht]
        have : (withView V Bs).map (·.2) = Bs := by unfold withView; rw [List.map_map]; exact List.map_id _
        rw [this]
        exact ⟨_, _, fun _ => some q, rfl, Did.settle q hne (fun b hb => rfl) st pats⟩
    obtain ⟨st1, p1, s1, e1, hdid⟩ := hstep
    rw [e1]
    obtain ⟨st', pats', Bs', s2, e2, hB', hperm', hdid'⟩ := ih (fun C' hC' => hsub C' (by simp [hC'])) hnd'.2.1
      (fun C' hC' => hfin C' (by simp [hC'])) st1 p1
    have hp2 : (vrows V (Bs ++ Bs')).Perm ((C ++ Cs.flatten).map Ins.bare) := by
      unfold vrows at *
      rw [List.map_append, List.map_append]
      exact hperm.append hperm'
    have hall : ∀ b ∈ Bs ++ Bs', b ∈ G := by
      intro b hb
      rw [List.mem_append] at hb
      exact hb.elim (hBG b) (hB' b)
    obtain ⟨s3, hd3⟩ := hdid.join hdid' (by
      apply hvnd _ hall
      rw [hp2.nodup_iff, List.map_append]
      exact hnd)
    exact ⟨st', pats', Bs ++ Bs', s3, e2, hall, hp2, hd3⟩

/-- The bucket of one view. -/
theorem bucket_any (hG : GroupOK V (n + 1) G) (hne : G ≠ []) {d : ParsedPiece → Dst} {fwd : View → PieceBag → Route}
    (hf : ∀ b ∈ G, fwd (V b.pp) b = mkRoute (d b.pp) b.pp) (hm : 2 ≤ mcn) (h : Runtime) (k : Nat)
    (st : LevelSt) (pats : List Str) :
    RecOr (do
      let tree ← vbTree (withView V G) emptyTree
      let roots ← clusterNest h (k + 1) mcn ⟨vbDepth (withView V G), [], false⟩ kw tree
      multiClusters mcn fwd (vbBags (withView V G)) roots (st, pats)) (fun r => ∃ s, Did d s G st pats r.1 r.2) := by
  have hlen : ∀ b ∈ G, (V b.pp).pps.length = n + 1 := by
    intro b hb
    have := hG.rows.len (vrow V b.ent) (List.mem_map.mpr ⟨b, hb, rfl⟩)
    simpa [vrow, PieceBag.ent] using this
  have ht := vbTree_grow G hlen [] (by simp)
  rw [growTree_nil, List.nil_append] at ht
  have hd : vbDepth (withView V G) = n + 1 := by
    cases G with
    | nil => exact absurd rfl hne
    | cons b G => exact hlen b (by simp)
  have hvne : vrows V G ≠ [] := by unfold vrows; simpa using hne
  have hcl := cluster_any h (flat_level h (clusterNest h k) hm ⟨n + 1, [], false⟩ kw (n + 1)).any hm
    (by simp [URLMeta.depth]) ((vrows V G).length + 1) (vrows V G) hG.normal hG.rows hvne
  rw [vrows_bare] at hcl
  have hgn : (vrows V G).Nodup := nodup_of_map hG.keys
  rw [ht]
  show RecOr (clusterNest h (k + 1) mcn _ kw _ >>= _) _
  have hc2 : clusterNest h (k + 1) mcn ⟨vbDepth (withView V G), [], false⟩ kw (growTree (n + 1) (vrows V G)) =
      clusterWith (clusterNest h k) h mcn ⟨n + 1, [], false⟩ kw ((vrows V G).length + 1) (growTree (n + 1) (vrows V G)) := by
    show clusterWith _ _ _ _ _ _ _ = _
    rw [hd, paths_length hG.normal hvne]
  rw [hc2]
  refine hcl.bind ?_
  rintro ts ⟨Cs, rfl, h2, h3⟩
  obtain ⟨st', pats', Bs, s, e, hB, hperm, hdid⟩ := multiClusters_any (mcn := mcn) hG hf Cs (by
    intro C hC x hx
    exact h2.mem_iff.mp (List.mem_map.mpr ⟨x, List.mem_flatten.mpr ⟨C, hC, hx⟩, rfl⟩)) (h2.nodup_iff.mpr hgn) h3 st pats
  have hBp : Bs.Perm G := by
    have h4 := hperm.trans h2
    have hBn : Bs.Nodup := nodup_of_map (h4.nodup_iff.mpr hgn)
    have hGn : G.Nodup := nodup_of_map hG.nodup
    rw [List.perm_ext_iff_of_nodup hBn hGn]
    intro b
    refine ⟨hB b, fun hb => ?_⟩
    obtain ⟨b', hb', e'⟩ := List.mem_map.mp (h4.mem_iff.mpr (List.mem_map.mpr ⟨b, hb, rfl⟩))
    have : b'.piece = b.piece := by
      rw [← hG.flat b' (hB b' hb'), ← hG.flat b hb]
      have := congrArg Ins.keys e'
      rw [vrow_keys, vrow_keys] at this
      exact congrArg List.flatten this
    rw [← bag_inj hG.nodup (hB b' hb') hb this]
    exact hb'
  exact .inr ⟨(st', pats'), e, s, hdid.perm hBp⟩

end group

/-- The bags of a stage that sees them through `V`. -/
structure StageAny (V : ParsedPiece → View) (bs : List PieceBag) : Prop where
  nodup : (bs.map PieceBag.piece).Nodup
  group : ∀ b ∈ bs, ∃ n, (V b.pp).pps.length = n + 1 ∧ GroupOK V (n + 1) (bagView V bs (V b.pp).view)

section
variable {h : Runtime} {cfg : LevelCfg} {kw : Bool} {V : ParsedPiece → View} {bs : List PieceBag}

theorem bagViews_nodup (hn : (bs.map PieceBag.piece).Nodup) {ws : List Str} (hw : ws.Nodup) :
    ((ws.flatMap (bagView V bs)).map PieceBag.piece).Nodup := by
  have hp := perm_partition (fun b : PieceBag => (V b.pp).view) (bs.filter (fun b => decide ((V b.pp).view ∈ ws)))
    ws hw (by
      intro b hb
      exact of_decide_eq_true (List.mem_filter.mp hb).2)
  have hsame : ws.flatMap (fun k => (bs.filter (fun b => decide ((V b.pp).view ∈ ws))).filter
      (fun b => decide ((V b.pp).view = k))) = ws.flatMap (bagView V bs) := by
    apply flatMap_congr
    intro w hw
    unfold bagView
    rw [List.filter_filter]
    apply List.filter_congr
    intro b _
    by_cases e : (V b.pp).view = w
    · simp only [e, decide_true, Bool.true_and]
      exact decide_eq_true hw
    · simp [e]
  rw [hsame] at hp
  rw [(hp.map PieceBag.piece).nodup_iff]
  exact hn.sublist (List.filter_sublist.map _)

theorem multiBuckets_any (hok : StageAny V bs) (hm : 2 ≤ cfg.mcn) {d : ParsedPiece → Dst}
    {fwd : View → PieceBag → Route} (hf : ∀ b ∈ bs, fwd (V b.pp) b = mkRoute (d b.pp) b.pp) (k : Nat) :
    ∀ (ws : List Str), ws.Nodup → (∀ w ∈ ws, w ∈ bs.map (fun b => (V b.pp).view)) → ∀ (st : LevelSt) (pats : List Str),
    RecOr (multiBuckets (clusterNest h (k + 1)) cfg kw fwd (ws.map (fun w => withView V (bagView V bs w))) (st, pats))
      (fun r => ∃ s, Did d s (ws.flatMap (bagView V bs)) st pats r.1 r.2) := by
  intro ws
  induction ws with
  | nil => intro _ _ st pats; exact .inr ⟨(st, pats), rfl, fun _ => none, Did.nil _ _ _ _⟩
  | cons w ws ih =>
    intro hn hws st pats
    have hn' := List.nodup_cons.mp hn
    obtain ⟨b0, hb0, rfl⟩ := List.mem_map.mp (hws w (by simp))
    have hsub : ∀ b ∈ bagView V bs (V b0.pp).view, b ∈ bs := fun b hb => (List.mem_filter.mp hb).1
    have hgne : bagView V bs (V b0.pp).view ≠ [] := List.ne_nil_of_mem (List.mem_filter.mpr ⟨hb0, by simp⟩)
    obtain ⟨n, hl, hG⟩ := hok.group b0 hb0
    have hnext : ∀ st1 p1 s1, Did d s1 (bagView V bs (V b0.pp).view) st pats st1 p1 →
        RecOr (multiBuckets (clusterNest h (k + 1)) cfg kw fwd (ws.map (fun w => withView V (bagView V bs w))) (st1, p1))
          (fun r => ∃ s, Did d s (((V b0.pp).view :: ws).flatMap (bagView V bs)) st pats r.1 r.2) := by
      intro st1 p1 s1 hd1
      refine (ih hn'.2 (fun w hw => hws w (by simp [hw])) st1 p1).mono ?_
      rintro r ⟨s2, hd2⟩
      rw [List.flatMap_cons]
      refine hd1.join hd2 ?_
      have := bagViews_nodup (V := V) hok.nodup hn
      rwa [List.flatMap_cons] at this
    rw [List.map_cons, multiBuckets]
    by_cases hc : vbCount (withView V (bagView V bs (V b0.pp).view)) < cfg.mcn
    · rw [if_pos hc]
      exact hnext _ _ (fun _ => none) (Did.forward hG.nodup (fun b hb => hf b (hsub b hb)) (fun b hb => rfl) st pats)
    · rw [if_neg hc]
      have hb := bucket_any (kw := kw) hG hgne (d := d) (fwd := fwd) (fun b hb => hf b (hsub b hb)) hm h k st pats
      have hb' := hb.bind (f := fun st' => multiBuckets (clusterNest h (k + 1)) cfg kw fwd
        (ws.map (fun w => withView V (bagView V bs w))) st') (Q := fun r => ∃ s, Did d s (((V b0.pp).view :: ws).flatMap (bagView V bs)) st pats r.1 r.2)
        (by
          rintro ⟨st1, p1⟩ ⟨s1, hd1⟩
          exact hnext st1 p1 s1 hd1)
      simpa only [bind_assoc] using hb'

/-- A multi part stage with any hash. -/
theorem multiStage_any (hok : StageAny V bs) (hm : 2 ≤ cfg.mcn) {d : ParsedPiece → Dst}
    {fwd : View → PieceBag → Route} (hf : ∀ b ∈ bs, fwd (V b.pp) b = mkRoute (d b.pp) b.pp) (k : Nat) (st : LevelSt) :
    RecOr (multiStage (clusterNest h (k + 1)) cfg kw fwd (withView V bs) st) (fun st2 => ∃ s st' pats',
      st2 = { st' with patternNum := st.patternNum + pats'.length } ∧ Did d s bs st [] st' pats') := by
  have hgr : (groupBy (fun vb : ViewBag => vb.1.view) (withView V bs)).map (·.2) =
      (uniq (bs.map (fun b => (V b.pp).view))).map (fun w => withView V (bagView V bs w)) := by
    rw [groupBy_eq, List.map_map]
    have e1 : (withView V bs).map (fun vb : ViewBag => vb.1.view) = bs.map (fun b => (V b.pp).view) := by
      unfold withView; rw [List.map_map]; rfl
    rw [e1]
    apply List.map_congr_left
    intro w _
    simp only [Function.comp]
    unfold withView bagView
    rw [List.filter_map]
    rfl
  unfold multiStage
  rw [hgr]
  refine (multiBuckets_any hok hm hf k (uniq (bs.map (fun b => (V b.pp).view))) (nodup_uniq _)
    (fun w hw => mem_uniq.mp hw) st []).bind ?_
  rintro ⟨st', pats'⟩ ⟨s, hd⟩
  have hd' := hd.perm (perm_partition (fun b : PieceBag => (V b.pp).view) bs _ (nodup_uniq _)
    (fun b hb => mem_uniq.mpr (List.mem_map.mpr ⟨b, hb, rfl⟩)))
  refine .inr ⟨_, rfl, s, st', pats', ?_, hd'⟩
  simp only at hd' ⊢
  rw [hd'.num]

end

/-! ### All stages -/

/-- The bags `P` are still to be clustered, every other bag has a recorded pattern. -/
structure Pend (bucket : Bucket) (P : List PieceBag) (st : LevelSt) (R : List Str) : Prop where
  nodup : (P.map PieceBag.piece).Nodup
  sub : ∀ b ∈ P, b ∈ bucket
  own : ∀ b ∈ P, st.assign.pattern b.piece = b.piece
  rec_ : ∀ b ∈ bucket, b ∉ P → st.assign.pattern b.piece ∈ R

theorem Pend.perm {bucket : Bucket} {P P' : List PieceBag} {st : LevelSt} {R : List Str} (h : Pend bucket P st R) (hp : P.Perm P') :
    Pend bucket P' st R :=
  ⟨(hp.map _).nodup_iff.mp h.nodup, fun b hb => h.sub b (hp.mem_iff.mpr hb), fun b hb => h.own b (hp.mem_iff.mpr hb),
    fun b hb hn => h.rec_ b hb (fun hm => hn (hp.mem_iff.mp hm))⟩

theorem Pend.step {bucket : Bucket} (hnd : (bucket.map PieceBag.piece).Nodup) {G X U : List PieceBag} {st st' : LevelSt}
    {R p' : List Str} {d : ParsedPiece → Dst} {s : PieceBag → Option Str} (h : Pend bucket (G ++ X) st R)
    (hd : Did d s G st [] st' p') (hU : U.Perm (G.filter (fun b => (s b).isNone))) : Pend bucket (U ++ X) st' (R ++ p') := by
  have mU : ∀ b, b ∈ U ↔ b ∈ G ∧ s b = none := fun b => by
    rw [hU.mem_iff, List.mem_filter, Option.isNone_iff_eq_none]
  have hG : ∀ b ∈ G, b ∈ bucket := fun b hb => h.sub b (by simp [hb])
  have hn2 := h.nodup
  rw [List.map_append, List.nodup_append] at hn2
  have hdis : ∀ b ∈ G, b ∉ X := fun b hb hx =>
    hn2.2.2 _ (List.mem_map.mpr ⟨b, hb, rfl⟩) _ (List.mem_map.mpr ⟨b, hx, rfl⟩) rfl
  have hkeep : ∀ b ∈ bucket, (b ∈ G → s b = none) → st'.assign.pattern b.piece = st.assign.pattern b.piece := by
    intro b hb hs
    apply hd.keep
    intro b' hb' hs' e
    obtain rfl := bag_inj hnd (hG b' hb') hb e
    rw [hs hb'] at hs'
    cases hs'
  refine ⟨?_, ?_, ?_, ?_⟩
  · rw [List.map_append, List.nodup_append]
    refine ⟨(hU.map _).nodup_iff.mpr (hn2.1.sublist (List.filter_sublist.map _)), hn2.2.1, ?_⟩
    intro a ha b hb e
    obtain ⟨c, hc, rfl⟩ := List.mem_map.mp ha
    exact hn2.2.2 _ (List.mem_map.mpr ⟨c, ((mU c).mp hc).1, rfl⟩) _ hb e
  · intro b hb
    rw [List.mem_append] at hb
    rcases hb with hb | hb
    · exact hG b ((mU b).mp hb).1
    · exact h.sub b (by simp [hb])
  · intro b hb
    rw [List.mem_append] at hb
    have hmem : b ∈ G ++ X := by
      rw [List.mem_append]
      exact hb.imp (fun h => ((mU b).mp h).1) id
    rw [hkeep b (h.sub b hmem), h.own b hmem]
    intro hg
    rcases hb with hb | hb
    · exact ((mU b).mp hb).2
    · exact absurd hb (hdis b hg)
  · intro b hb hn
    rw [List.mem_append, not_or] at hn
    rw [List.mem_append]
    by_cases hg : b ∈ G
    · cases hs : s b with
      | none => exact absurd ((mU b).mpr ⟨hg, hs⟩) hn.1
      | some q =>
        right
        rw [hd.set b hg q hs, hd.mem]
        exact .inr ⟨b, hg, hs⟩
    · left
      rw [hkeep b hb (fun h => absurd h hg)]
      exact h.rec_ b hb (by rw [List.mem_append, not_or]; exact ⟨hg, hn.2⟩)

theorem filter_dst {U : List PieceBag} {d : ParsedPiece → Dst} (hd : ∀ b ∈ U, d b.pp ≠ .base) :
    (U.filter (fun b => decide (d b.pp = .mixed)) ++ (U.filter (fun b => decide (d b.pp = .lastDot)) ++
      U.filter (fun b => decide (d b.pp = .length)))).Perm U := by
  refine ((List.Perm.refl _).append (filter_or_perm U ?_)).trans ((filter_or_perm U ?_).trans ?_)
  · intro b _ ⟨h1, h2⟩
    rw [decide_eq_true_eq] at h1 h2
    rw [h1] at h2; cases h2
  · intro b _ ⟨h1, h2⟩
    rw [Bool.or_eq_true, decide_eq_true_eq, decide_eq_true_eq] at h2
    rw [decide_eq_true_eq] at h1
    rw [h1] at h2; rcases h2 with h2 | h2 <;> cases h2
  · rw [List.filter_eq_self.mpr]
    intro b hb
    cases he : d b.pp with
    | base => exact absurd he (hd b hb)
    | mixed => rfl
    | lastDot => rfl
    | length => rfl

end OsUrl
