import Verif.Proofs.LenStage

/-! The piece stage and the levels whose pieces have only one part. -/

namespace OsUrl

/-- The stage a bag goes to. -/
inductive Dst where
  | base | mixed | lastDot | length
  deriving DecidableEq

/-- The stage of a route. -/
def Route.dst : Route → Dst
  | .base _ => .base
  | .mixed _ => .mixed
  | .lastDot _ => .lastDot
  | .length => .length

/-- The view with which a piece goes to a stage. -/
def Dst.view : Dst → ParsedPiece → View
  | .base => multiView
  | .mixed => mixedView
  | .lastDot => lastDotView
  | .length => multiView

/-- The route of a piece to a stage. -/
def mkRoute : Dst → ParsedPiece → Route
  | .base, p => .base (multiView p)
  | .mixed, p => .mixed (mixedView p)
  | .lastDot, p => .lastDot (lastDotView p)
  | .length, _ => .length

/-- The stage after the piece stage. -/
def dstPiece (cfg : LevelCfg) (p : ParsedPiece) : Dst := (routePiece cfg p).dst
/-- The stage after the base stage. -/
def dstBase (cfg : LevelCfg) (p : ParsedPiece) : Dst := (routeBase cfg (multiView p) p).dst
/-- The stage after the mixed stage. -/
def dstMixed (cfg : LevelCfg) (p : ParsedPiece) : Dst := (routeMixed cfg p).dst

theorem routePiece_eq (cfg : LevelCfg) (p : ParsedPiece) : routePiece cfg p = mkRoute (dstPiece cfg p) p := by
  unfold dstPiece routePiece
  simp only
  repeat' (first | rfl | split)

theorem routeBase_eq (cfg : LevelCfg) (p : ParsedPiece) :
    routeBase cfg (multiView p) p = mkRoute (dstBase cfg p) p := by
  unfold dstBase routeBase
  simp only
  repeat' (first | rfl | split)

theorem routeMixed_eq (cfg : LevelCfg) (p : ParsedPiece) : routeMixed cfg p = mkRoute (dstMixed cfg p) p := by
  unfold dstMixed routeMixed
  simp only
  repeat' (first | rfl | split)

/-- The bags that go to a stage, with their views. -/
def sent (d : ParsedPiece → Dst) (t : Dst) (bs : List PieceBag) : List ViewBag :=
  (bs.filter (fun b => decide (d b.pp = t))).map (fun b => (t.view b.pp, b))

theorem sent_append (d : ParsedPiece → Dst) (t : Dst) (xs ys : List PieceBag) : sent d t (xs ++ ys) = sent d t xs ++ sent d t ys := by
  simp [sent]

/-- Forwarding a list of bags. -/
theorem forward_foldl (d : ParsedPiece → Dst) : ∀ (bs : List PieceBag) (st : LevelSt),
    bs.foldl (fun st b => st.forward (mkRoute (d b.pp) b.pp) b) st =
      { st with
        toBase := st.toBase ++ sent d .base bs
        toMixed := st.toMixed ++ sent d .mixed bs
        toLastDot := st.toLastDot ++ sent d .lastDot bs
        toLength := st.toLength ++ bs.filter (fun b => decide (d b.pp = .length)) } := by
  intro bs
  induction bs with
  | nil => intro st; simp [sent]
  | cons b bs ih =>
    intro st
    rw [List.foldl_cons, ih]
    cases h : d b.pp <;>
      simp [sent, h, mkRoute, LevelSt.forward, Dst.view]

theorem pieceLoop_eq {cfg : LevelCfg} (hl : 1 ≤ cfg.level) : ∀ (bs : List PieceBag) (st : LevelSt) (pats : List Str),
    pieceLoop cfg bs (st, pats) = .ok ({ st with
        assign := bs.foldl (fun a b => a.set b.piece b.piece) st.assign
        toBase := st.toBase ++ sent (dstPiece cfg) .base bs
        toMixed := st.toMixed ++ sent (dstPiece cfg) .mixed bs
        toLastDot := st.toLastDot ++ sent (dstPiece cfg) .lastDot bs
        toLength := st.toLength ++ bs.filter (fun b => decide (dstPiece cfg b.pp = .length)) }, pats) := by
  intro bs
  induction bs with
  | nil => intro st pats; simp [pieceLoop, sent]
  | cons b bs ih =>
    intro st pats
    unfold pieceLoop
    rw [preSeek_false _ _ hl]
    simp only [bind, Except.bind, pure, Except.pure, Bool.not_false, if_true, ite_self]
    rw [ih, routePiece_eq]
    cases h : dstPiece cfg b.pp <;>
      simp [sent, h, mkRoute, LevelSt.forward, Dst.view]

/-- All pieces of the level stay as they are: too few of them and one not much more frequent. -/
def litStop (mcn : Int) (E : List Ent) : Bool :=
  decide ((E.length : Int) < mcn) && !confused (cntE E) (mx (E.map (·.2))) mcn

theorem litStop_perm {mcn : Int} {E E' : List Ent} (h : E.Perm E') : litStop mcn E = litStop mcn E' := by
  unfold litStop
  rw [h.length_eq, cntE_perm h, mx_perm (h.map _)]

/-- The state after the piece stage when the pieces are sent on. -/
def sentAll (cfg : LevelCfg) (bucket : Bucket) : LevelSt :=
  ⟨bucket.foldl (fun a b => a.set b.piece b.piece) [], 0, sent (dstPiece cfg) .base bucket,
    sent (dstPiece cfg) .mixed bucket, sent (dstPiece cfg) .lastDot bucket,
    bucket.filter (fun b => decide (dstPiece cfg b.pp = .length))⟩

theorem pieceStage_eq {cfg : LevelCfg} (hl : 1 ≤ cfg.level) {bucket : Bucket} (hne : bucket ≠ [])
    (hpos : ∀ b ∈ bucket, 1 ≤ b.count) :
    pieceStage cfg bucket ⟨[], 0, [], [], [], []⟩ =
      .ok (if (cfg.lastLevel && cfg.lastAsPattern) || litStop cfg.mcn (bucket.map PieceBag.ent) then
        literalAll bucket ⟨[], 0, [], [], [], []⟩ else sentAll cfg bucket) := by
  unfold pieceStage
  have he : bucket.isEmpty = false := by cases bucket with
    | nil => exact absurd rfl hne
    | cons _ _ => rfl
  rw [he]
  simp only [Bool.false_eq_true, if_false]
  by_cases hk : cfg.lastLevel = true ∧ cfg.lastAsPattern = true
  · rw [if_pos hk]
    simp [hk.1, hk.2]
  · rw [if_neg hk]
    have hk' : (cfg.lastLevel && cfg.lastAsPattern) = false := by
      rw [Bool.eq_false_iff]; intro h; rw [Bool.and_eq_true] at h; exact hk h
    rw [hk', Bool.false_or]
    rw [maxCount_eq (by simpa using hne) (by
      intro x hx
      obtain ⟨b, hb, rfl⟩ := List.mem_map.mp hx
      have := hpos b hb; omega)]
    unfold litStop
    rw [cntE_map, ent_counts, List.length_map, pieceLoop_eq hl]
    simp only [bind, Except.bind, pure, Except.pure, List.nil_append]
    by_cases h1 : (bucket.length : Int) < cfg.mcn
    · rw [if_pos h1]
      simp only [h1, decide_true, Bool.true_and]
      by_cases h2 : (!confused (Bucket.count bucket) (mx (bucket.map (·.count))) cfg.mcn) = true
      · rw [if_pos h2, if_pos h2]
      · rw [if_neg h2, if_neg h2]; rfl
    · rw [if_neg h1]
      simp only [h1, decide_false, Bool.false_and, Bool.false_eq_true, if_false]
      rfl

theorem literalAll_pattern (bucket : Bucket) (x : Str) :
    (literalAll bucket ⟨[], 0, [], [], [], []⟩).assign.pattern x = x := set_pattern_self bucket [] x rfl

theorem sentAll_pattern (cfg : LevelCfg) (bucket : Bucket) (x : Str) : (sentAll cfg bucket).assign.pattern x = x :=
  set_pattern_self bucket [] x rfl

theorem uniq_gt_one {α : Type} [DecidableEq α] (l : List α) : (uniq l).length > 1 ↔ ∃ x ∈ l, ∃ y ∈ l, x ≠ y := by
  constructor
  · intro h
    cases hu : uniq l with
    | nil => rw [hu] at h; simp at h
    | cons a as =>
      cases as with
      | nil => rw [hu] at h; simp at h
      | cons b bs =>
        have hn := nodup_uniq l
        rw [hu, List.nodup_cons] at hn
        refine ⟨a, mem_uniq.mp (by rw [hu]; simp), b, mem_uniq.mp (by rw [hu]; simp), ?_⟩
        rintro rfl; exact hn.1 (by simp)
  · rintro ⟨x, hx, y, hy, hxy⟩
    have hx' := mem_uniq.mpr hx
    have hy' := mem_uniq.mpr hy
    match hu : uniq l with
    | [] => rw [hu] at hx'; simp at hx'
    | [a] => rw [hu] at hx' hy'; simp at hx' hy'; exact absurd (hx'.trans hy'.symm) hxy
    | a :: b :: t => simp

theorem multiStage_nil (nested : NestedCluster) (cfg : LevelCfg) (kw : Bool) (fwd : View → PieceBag → Route) (st : LevelSt) :
    multiStage nested cfg kw fwd [] st = .ok st := by
  simp [multiStage, groupBy, multiBuckets, bind, Except.bind, pure, Except.pure]

/-! ### Flat levels -/

/-- What a level of single parts asks of its pieces: one part, one rule and known lengths, or only one piece. -/
def FlatOK (_ : Nat) (ps : List ParsedPiece) : Prop :=
  (∃ r, ∀ p ∈ ps, p.pieces.length = 1 ∧ p.fuzzyRule = r ∧ p.pieceLength = .ok (lenOf p) ∧ 1 ≤ lenOf p) ∨
    ∃ q, ∀ p ∈ ps, p = q

/-- The patterns of a level of single parts. -/
def flatF (mcn : Int) (kw : Bool) (n : Nat) : LevelFn := fun j E p =>
  if (decide (j + 1 = n) && kw) || litStop mcn E then p.piece else lenPat mcn E p

theorem flatF_perm (mcn : Int) (kw : Bool) (n : Nat) : PermInv (flatF mcn kw n) := by
  intro j E E' h
  funext p
  unfold flatF
  rw [litStop_perm h, lenPat_perm h]

theorem litStop_single {mcn : Int} (hm : 2 ≤ mcn) (e : Ent) (he : 1 ≤ e.2) : litStop mcn [e] = true := by
  unfold litStop
  simp only [List.length_singleton, cntE, List.map_cons, List.map_nil, List.sum_cons, List.sum_nil, mx, List.foldl_cons,
    List.foldl_nil]
  rw [show max 0 e.2 = e.2 by omega, Int.add_zero, confused_self _ _ he hm]
  simp; omega

theorem flat_level (rt : Runtime) (nested : NestedCluster) {mcn : Int} (hm : 2 ≤ mcn) (m : URLMeta) (kw : Bool) (n : Nat) :
    LevelOK rt nested mcn m kw n FlatOK (flatF mcn kw n) := by
  refine ⟨?_, flatF_perm _ _ _, ?_⟩
  · intro j A B hsub hA
    rcases hA with ⟨r, h⟩ | ⟨q, h⟩
    · exact .inl ⟨r, fun p hp => h p (hsub p hp)⟩
    · exact .inr ⟨q, fun p hp => h p (hsub p hp)⟩
  · intro j bucket hj hne hnd hpos hok
    have hps := pieceStage_eq (cfg := cfgAt mcn m kw n j) (by simp [cfgAt]) hne hpos
    have hcfg1 : (cfgAt mcn m kw n j).lastLevel = decide (j + 1 = n) := rfl
    have hcfg2 : (cfgAt mcn m kw n j).lastAsPattern = kw := rfl
    have hcfg3 : (cfgAt mcn m kw n j).mcn = mcn := rfl
    rw [hcfg1, hcfg2, hcfg3] at hps
    by_cases hlit : ((decide (j + 1 = n) && kw) || litStop mcn (bucket.map PieceBag.ent)) = true
    · rw [if_pos hlit] at hps
      refine ⟨_, stages_literal (by rw [hcfg3]; omega) hps, ?_, ?_⟩
      · intro b hb
        rw [literalAll_pattern]
        unfold flatF
        rw [if_pos hlit]; rfl
      · have hF : ∀ b, flatF mcn kw n j (bucket.map PieceBag.ent) b = b.piece := by
          intro b; unfold flatF; rw [if_pos hlit]
        simp only [hF]
        show 0 + (uniq (bucket.map (fun b => b.piece))).length > 1 ↔ _
        rw [Nat.zero_add, uniq_gt_one]
        constructor
        · rintro ⟨x, hx, y, hy, hxy⟩
          obtain ⟨b, hb, rfl⟩ := List.mem_map.mp hx
          obtain ⟨b', hb', rfl⟩ := List.mem_map.mp hy
          exact ⟨b, hb, b', hb', hxy⟩
        · rintro ⟨b, hb, b', hb', hxy⟩
          exact ⟨_, List.mem_map.mpr ⟨b, hb, rfl⟩, _, List.mem_map.mpr ⟨b', hb', rfl⟩, hxy⟩
    · rw [if_neg hlit] at hps
      have hF : ∀ b, flatF mcn kw n j (bucket.map PieceBag.ent) b = lenPat mcn (bucket.map PieceBag.ent) b := by
        intro b; unfold flatF; rw [if_neg hlit]
      -- with only one piece the level is literal
      have hok' : ∃ r, ∀ p ∈ bucket.map PieceBag.pp, p.pieces.length = 1 ∧ p.fuzzyRule = r ∧
          p.pieceLength = .ok (lenOf p) ∧ 1 ≤ lenOf p := by
        rcases hok with h | ⟨q, h⟩
        · exact h
        · exfalso
          apply hlit
          match bucket, hne with
          | [b], _ =>
            rw [List.map_singleton, litStop_single hm _ (hpos b (by simp)), Bool.or_true]
          | b :: b' :: bs, _ =>
            exfalso
            have e1 := h b.pp (by simp)
            have e2 := h b'.pp (by simp)
            rw [List.map_cons, List.map_cons, List.nodup_cons] at hnd
            apply hnd.1
            rw [List.mem_cons]
            left
            show b.pp.piece = b'.pp.piece
            rw [e1, e2]
      obtain ⟨r, hr⟩ := hok'
      have hr' : ∀ b ∈ bucket, b.pp.pieces.length = 1 ∧ b.pp.fuzzyRule = r ∧
          b.pp.pieceLength = .ok (lenOf b.pp) ∧ 1 ≤ lenOf b.pp := fun b hb => hr _ (List.mem_map.mpr ⟨b, hb, rfl⟩)
      have hd : ∀ b ∈ bucket, dstPiece (cfgAt mcn m kw n j) b.pp = .length := by
        intro b hb
        unfold dstPiece routePiece
        rw [if_pos (hr' b hb).1]; rfl
      have hsent : ∀ t, t ≠ Dst.length → sent (dstPiece (cfgAt mcn m kw n j)) t bucket = [] := by
        intro t ht
        unfold sent
        rw [List.map_eq_nil_iff, List.filter_eq_nil_iff]
        intro b hb
        rw [decide_eq_true_eq, hd b hb]
        exact Ne.symm ht
      have hlen : bucket.filter (fun b => decide (dstPiece (cfgAt mcn m kw n j) b.pp = .length)) = bucket := by
        rw [List.filter_eq_self]
        intro b hb
        rw [decide_eq_true_eq]; exact hd b hb
      have hst : sentAll (cfgAt mcn m kw n j) bucket =
          ⟨bucket.foldl (fun a b => a.set b.piece b.piece) [], 0, [], [], [], bucket⟩ := by
        unfold sentAll
        rw [hsent _ (by simp), hsent _ (by simp), hsent _ (by simp), hlen]
      have hpat : ∀ x, Assign.pattern (bucket.foldl (fun a b => a.set b.piece b.piece) []) x = x :=
        fun x => set_pattern_self bucket [] x rfl
      obtain ⟨a', e, h1, h2⟩ := lengthFuzzyStage_eq (r := r) (cfg := cfgAt mcn m kw n j) (by simp [cfgAt]) hm
        (st := ⟨bucket.foldl (fun a b => a.set b.piece b.piece) [], 0, [], [], [], bucket⟩)
        ⟨hnd, hpos, fun b hb => ⟨(hr' b hb).2.2.1, (hr' b hb).2.2.2⟩, fun b hb => (hr' b hb).2.1⟩
        (fun b _ => hpat b.piece)
      have hrun : processStages rt nested (cfgAt mcn m kw n j) bucket =
          lengthFuzzyStage rt (cfgAt mcn m kw n j) ⟨bucket.foldl (fun a b => a.set b.piece b.piece) [], 0, [], [], [], bucket⟩ := by
        unfold processStages
        rw [hps, hst]
        simp only [bind, Except.bind, multiStage_nil]
      rw [e] at hrun
      refine ⟨_, hrun, ?_, ?_⟩
      · intro b hb
        rw [hF]
        exact h1 b hb
      · simp only [hF, hcfg3, Nat.zero_add]
        rw [uniq_gt_one]
        constructor
        · rintro ⟨x, hx, y, hy, hxy⟩
          obtain ⟨b, hb, rfl⟩ := List.mem_map.mp hx
          obtain ⟨b', hb', rfl⟩ := List.mem_map.mp hy
          exact ⟨b, hb, b', hb', hxy⟩
        · rintro ⟨b, hb, b', hb', hxy⟩
          exact ⟨_, List.mem_map.mpr ⟨b, hb, rfl⟩, _, List.mem_map.mpr ⟨b', hb', rfl⟩, hxy⟩

end OsUrl
