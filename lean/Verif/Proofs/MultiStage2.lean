import Verif.Proofs.MultiStage

/-! All groups of a multi part stage. -/

namespace OsUrl

theorem labs_pp {F : LevelFn} {x y : Ins} (h : ∀ j, x.pp j = y.pp j) (k j : Nat) (S : List Ins) : labs F k j S x = labs F k j S y := by
  induction k generalizing j S with
  | zero => rfl
  | succ k ih =>
    have e : lab F j S x = lab F j S y := by unfold lab; rw [h]
    rw [labs, labs, e, nxt_congr e, ih]

theorem famN_pp {F : LevelFn} {x y : Ins} (h : ∀ j, x.pp j = y.pp j) (n f : Nat) (S : List Ins) : famN F n f S x = famN F n f S y := by
  induction f generalizing S with
  | zero => rfl
  | succ f ih =>
    rw [famN, famN, labs_pp h, ih]

theorem rowSettle_pp {x y : Ins} (h : ∀ j, x.pp j = y.pp j) (mcn : Int) (kw : Bool) (n : Nat) (R : List Ins) :
    rowSettle mcn kw n R x = rowSettle mcn kw n R y := by
  unfold rowSettle
  rw [famN_pp h, labs_pp h]

theorem rowSettle_perm {R R' : List Ins} (h : R.Perm R') (mcn : Int) (kw : Bool) (n : Nat) (x : Ins) :
    rowSettle mcn kw n R x = rowSettle mcn kw n R' x := by
  have h2 := famN_perm (flatF_perm mcn kw n) (n := n) (R.length + 1) h x
  unfold rowSettle
  rw [← h.length_eq, total_perm h2, labs_perm (flatF_perm mcn kw n) h2]

/-- The pieces with the same view. -/
def vgrp (V : ParsedPiece → View) (E : List Ent) (p : ParsedPiece) : List Ent :=
  E.filter (fun e => decide ((V e.1).view = (V p).view))

/-- The pattern of a piece settled at a stage, if there is one. -/
def settle (mcn : Int) (kw : Bool) (V : ParsedPiece → View) (E : List Ent) (p : ParsedPiece) : Option Str :=
  if cntE (vgrp V E p) < mcn then none
  else rowSettle mcn kw (V p).pps.length ((vgrp V E p).map (vrow V)) (vrow V (p, 0))

theorem settle_perm {mcn : Int} {kw : Bool} {V : ParsedPiece → View} {E E' : List Ent} (h : E.Perm E') (p : ParsedPiece) :
    settle mcn kw V E p = settle mcn kw V E' p := by
  have h2 : (vgrp V E p).Perm (vgrp V E' p) := h.filter _
  unfold settle
  rw [cntE_perm h2, rowSettle_perm (h2.map _)]

/-- The bags with the same view. -/
def bagView (V : ParsedPiece → View) (bs : List PieceBag) (w : Str) : List PieceBag :=
  bs.filter (fun b => decide ((V b.pp).view = w))

theorem vgrp_map (V : ParsedPiece → View) (bs : List PieceBag) (p : ParsedPiece) :
    vgrp V (bs.map PieceBag.ent) p = (bagView V bs (V p).view).map PieceBag.ent := by
  unfold vgrp bagView
  rw [List.filter_map]; rfl

theorem vrow_same (V : ParsedPiece → View) (p : ParsedPiece) (c c' : Int) (j : Nat) : (vrow V (p, c)).pp j = (vrow V (p, c')).pp j := by
  rw [vrow_pp, vrow_pp]

theorem settle_bag {mcn : Int} {kw : Bool} {V : ParsedPiece → View} {bs : List PieceBag} (b : PieceBag) :
    settle mcn kw V (bs.map PieceBag.ent) b.pp =
      if cntE ((bagView V bs (V b.pp).view).map PieceBag.ent) < mcn then none
      else rowSettle mcn kw (V b.pp).pps.length (vrows V (bagView V bs (V b.pp).view)) (vrow V b.ent) := by
  unfold settle
  rw [vgrp_map, List.map_map]
  rw [rowSettle_pp (fun j => vrow_same V b.pp 0 b.count j)]
  rfl

/-- What a multi part stage asks of its bags. -/
structure StageOK (h : Runtime) (mcn : Int) (kw : Bool) (V : ParsedPiece → View) (bs : List PieceBag) : Prop where
  nodup : (bs.map PieceBag.piece).Nodup
  group : ∀ b ∈ bs, ∃ n, (V b.pp).pps.length = n + 1 ∧ GroupOK V (n + 1) (bagView V bs (V b.pp).view) ∧
    HashSep h (flatF mcn kw (n + 1)) (n + 1) (vrows V (bagView V bs (V b.pp).view))

section
variable {h : Runtime} {kw : Bool} {V : ParsedPiece → View} {bs : List PieceBag} {cfg : LevelCfg}

theorem multiBuckets_eq (hok : StageOK h cfg.mcn kw V bs) (hm : 2 ≤ cfg.mcn) {d : ParsedPiece → Dst}
    {fwd : View → PieceBag → Route} (hf : ∀ b ∈ bs, fwd (V b.pp) b = mkRoute (d b.pp) b.pp) (k : Nat) :
    ∀ (ws : List Str), ws.Nodup → (∀ w ∈ ws, w ∈ bs.map (fun b => (V b.pp).view)) → ∀ (st : LevelSt) (pats : List Str),
    ∃ st' pats', multiBuckets (clusterNest h (k + 1)) cfg kw fwd (ws.map (fun w => withView V (bagView V bs w))) (st, pats) =
        .ok (st', pats') ∧
      Did d (fun b => settle cfg.mcn kw V (bs.map PieceBag.ent) b.pp) (ws.flatMap (bagView V bs)) st pats st' pats' := by
  intro ws
  induction ws with
  | nil => intro _ _ st pats; exact ⟨st, pats, rfl, Did.nil _ _ _ _⟩
  | cons w ws ih =>
    intro hn hws st pats
    have hn' := List.nodup_cons.mp hn
    obtain ⟨b0, hb0, rfl⟩ := List.mem_map.mp (hws w (by simp))
    have hview : ∀ b ∈ bagView V bs (V b0.pp).view, (V b.pp).view = (V b0.pp).view := by
      intro b hb; exact of_decide_eq_true (List.mem_filter.mp hb).2
    have hsub : ∀ b ∈ bagView V bs (V b0.pp).view, b ∈ bs := fun b hb => (List.mem_filter.mp hb).1
    have hgne : bagView V bs (V b0.pp).view ≠ [] := List.ne_nil_of_mem (List.mem_filter.mpr ⟨hb0, by simp⟩)
    obtain ⟨n, hl, hG, hh⟩ := hok.group b0 hb0
    have hlen : ∀ b ∈ bagView V bs (V b0.pp).view, (V b.pp).pps.length = n + 1 := by
      intro b hb
      have := hG.rows.len (vrow V b.ent) (List.mem_map.mpr ⟨b, hb, rfl⟩)
      simpa [vrow, PieceBag.ent] using this
    have hstep : ∃ st1 p1, multiBuckets (clusterNest h (k + 1)) cfg kw fwd
          (((V b0.pp).view :: ws).map (fun w => withView V (bagView V bs w))) (st, pats) =
        multiBuckets (clusterNest h (k + 1)) cfg kw fwd (ws.map (fun w => withView V (bagView V bs w))) (st1, p1) ∧
        Did d (fun b => settle cfg.mcn kw V (bs.map PieceBag.ent) b.pp) (bagView V bs (V b0.pp).view) st pats st1 p1 := by
      rw [List.map_cons]
      rw [multiBuckets, vbCount_eq]
      by_cases hc : cntE ((bagView V bs (V b0.pp).view).map PieceBag.ent) < cfg.mcn
      · rw [if_pos hc]
        refine ⟨_, _, rfl, Did.forward hG.nodup (fun b hb => hf b (hsub b hb)) (fun b hb => ?_) st pats⟩
        rw [settle_bag, hview b hb, if_pos hc]
      · rw [if_neg hc]
        obtain ⟨tree, roots, st', pats', e1, e2, e3, hd⟩ := bucket_eq hG hgne (d := d) (fwd := fwd)
          (fun b hb => hf b (hsub b hb)) hm h k hh st pats
        simp only [e1, e2, e3, bind, Except.bind]
        refine ⟨st', pats', rfl, hd.congr (fun b hb => ?_)⟩
        rw [settle_bag, hview b hb, if_neg hc, hlen b hb]
    obtain ⟨st1, p1, e1, hd1⟩ := hstep
    rw [e1]
    obtain ⟨st', pats', e2, hd2⟩ := ih hn'.2 (fun w hw => hws w (by simp [hw])) st1 p1
    refine ⟨st', pats', e2, ?_⟩
    rw [List.flatMap_cons]
    refine hd1.append hd2 ?_
    have hp := perm_partition (fun b : PieceBag => (V b.pp).view) (bs.filter (fun b => decide ((V b.pp).view ∈ (V b0.pp).view :: ws)))
      ((V b0.pp).view :: ws) hn (by
        intro b hb
        exact of_decide_eq_true (List.mem_filter.mp hb).2)
    have hsame : ((V b0.pp).view :: ws).flatMap (fun k => (bs.filter (fun b => decide ((V b.pp).view ∈ (V b0.pp).view :: ws))).filter
        (fun b => decide ((V b.pp).view = k))) = ((V b0.pp).view :: ws).flatMap (bagView V bs) := by
      apply flatMap_congr
      intro w hw
      unfold bagView
      rw [List.filter_filter]
      apply List.filter_congr
      intro b _
      by_cases e : (V b.pp).view = w
      · simp only [e, decide_true, Bool.true_and]
        exact decide_eq_true hw
      · simp [e]
    rw [hsame, List.flatMap_cons] at hp
    rw [(hp.map PieceBag.piece).nodup_iff]
    exact hok.nodup.sublist (List.filter_sublist.map _)

/-- Closed form of a multi part stage. -/
theorem multiStage_eq (hok : StageOK h cfg.mcn kw V bs) (hm : 2 ≤ cfg.mcn) {d : ParsedPiece → Dst}
    {fwd : View → PieceBag → Route} (hf : ∀ b ∈ bs, fwd (V b.pp) b = mkRoute (d b.pp) b.pp) (k : Nat) (st : LevelSt) :
    ∃ st' pats', multiStage (clusterNest h (k + 1)) cfg kw fwd (withView V bs) st =
        .ok { st' with patternNum := st.patternNum +
          (uniq (bs.filterMap (fun b => settle cfg.mcn kw V (bs.map PieceBag.ent) b.pp))).length } ∧
      Did d (fun b => settle cfg.mcn kw V (bs.map PieceBag.ent) b.pp) bs st [] st' pats' := by
  have hgr : (groupBy (fun vb : ViewBag => vb.1.view) (withView V bs)).map (·.2) =
      (uniq (bs.map (fun b => (V b.pp).view))).map (fun w => withView V (bagView V bs w)) := by
    rw [groupBy_eq, List.map_map]
    have e1 : (withView V bs).map (fun vb : ViewBag => vb.1.view) = bs.map (fun b => (V b.pp).view) := by
      unfold withView; rw [List.map_map]; rfl
    rw [e1]
    apply List.map_congr_left
    intro w _
    simp only [Function.comp]
    unfold withView bagView
    rw [List.filter_map]
    rfl
  obtain ⟨st', pats', e, hd⟩ := multiBuckets_eq hok hm hf k (uniq (bs.map (fun b => (V b.pp).view))) (nodup_uniq _)
    (fun w hw => mem_uniq.mp hw) st []
  have hd' := hd.perm (perm_partition (fun b : PieceBag => (V b.pp).view) bs _ (nodup_uniq _)
    (fun b hb => mem_uniq.mpr (List.mem_map.mpr ⟨b, hb, rfl⟩)))
  refine ⟨st', pats', ?_, hd'⟩
  unfold multiStage
  rw [hgr]
  simp only [e, bind, Except.bind, pure, Except.pure]
  rw [hd'.num, length_uniq (hd'.nodup List.nodup_nil) (ys := bs.filterMap (fun b => settle cfg.mcn kw V (bs.map PieceBag.ent) b.pp))]
  intro q
  rw [hd'.mem, List.mem_filterMap]
  simp

end

end OsUrl
