import Verif.Proofs.PieceStage

/-! The multi part stages on rows. -/

namespace OsUrl

/-! ### What a stage does to its bags -/

/-- A stage that settles the patterns `s` of the bags `G` and sends the others on by `d`. -/
structure Did (d : ParsedPiece → Dst) (s : PieceBag → Option Str) (G : List PieceBag) (st : LevelSt) (pats : List Str)
    (st' : LevelSt) (pats' : List Str) : Prop where
  num : st'.patternNum = st.patternNum
  sent : ∃ U : List PieceBag, U.Perm (G.filter (fun b => (s b).isNone)) ∧ st'.toBase = st.toBase ++ sent d .base U ∧
    st'.toMixed = st.toMixed ++ sent d .mixed U ∧ st'.toLastDot = st.toLastDot ++ sent d .lastDot U ∧
    st'.toLength = st.toLength ++ U.filter (fun b => decide (d b.pp = .length))
  set : ∀ b ∈ G, ∀ q, s b = some q → st'.assign.pattern b.piece = q
  keep : ∀ x, (∀ b ∈ G, (s b).isSome → b.piece ≠ x) → st'.assign.pattern x = st.assign.pattern x
  mem : ∀ q, q ∈ pats' ↔ q ∈ pats ∨ ∃ b ∈ G, s b = some q
  nodup : pats.Nodup → pats'.Nodup

theorem Did.nil (d : ParsedPiece → Dst) (s : PieceBag → Option Str) (st : LevelSt) (pats : List Str) :
    Did d s [] st pats st pats :=
  ⟨rfl, ⟨[], .nil, by simp [OsUrl.sent]⟩, by simp, by simp, by simp, id⟩

theorem Did.append {d : ParsedPiece → Dst} {s : PieceBag → Option Str} {G G' : List PieceBag} {st st1 st2 : LevelSt}
    {p p1 p2 : List Str} (h1 : Did d s G st p st1 p1) (h2 : Did d s G' st1 p1 st2 p2)
    (hn : ((G ++ G').map PieceBag.piece).Nodup) : Did d s (G ++ G') st p st2 p2 := by
  obtain ⟨U, hU, u1, u2, u3, u4⟩ := h1.sent
  obtain ⟨U', hU', v1, v2, v3, v4⟩ := h2.sent
  rw [List.map_append, List.nodup_append] at hn
  refine ⟨h2.num.trans h1.num, ⟨U ++ U', ?_, ?_, ?_, ?_, ?_⟩, ?_, ?_, ?_, fun h => h2.nodup (h1.nodup h)⟩
  · rw [List.filter_append]; exact hU.append hU'
  · rw [v1, u1, sent_append, List.append_assoc]
  · rw [v2, u2, sent_append, List.append_assoc]
  · rw [v3, u3, sent_append, List.append_assoc]
  · rw [v4, u4, List.filter_append, List.append_assoc]
  · intro b hb q hq
    rw [List.mem_append] at hb
    rcases hb with hb | hb
    · rw [h2.keep b.piece, h1.set b hb q hq]
      intro b' hb' _ e
      exact hn.2.2 _ (List.mem_map.mpr ⟨b, hb, rfl⟩) _ (List.mem_map.mpr ⟨b', hb', rfl⟩) e.symm
    · exact h2.set b hb q hq
  · intro x hx
    rw [h2.keep x (fun b hb => hx b (by simp [hb])), h1.keep x (fun b hb => hx b (by simp [hb]))]
  · intro q
    rw [h2.mem, h1.mem]
    simp only [List.mem_append]
    constructor
    · rintro ((h | ⟨b, hb, e⟩) | ⟨b, hb, e⟩)
      · exact .inl h
      · exact .inr ⟨b, .inl hb, e⟩
      · exact .inr ⟨b, .inr hb, e⟩
    · rintro (h | ⟨b, hb | hb, e⟩)
      · exact .inl (.inl h)
      · exact .inl (.inr ⟨b, hb, e⟩)
      · exact .inr ⟨b, hb, e⟩

theorem Did.perm {d : ParsedPiece → Dst} {s : PieceBag → Option Str} {G G' : List PieceBag} {st st1 : LevelSt}
    {p p1 : List Str} (h : Did d s G st p st1 p1) (hp : G.Perm G') : Did d s G' st p st1 p1 := by
  obtain ⟨U, hU, hr⟩ := h.sent
  refine ⟨h.num, ⟨U, hU.trans (hp.filter _), hr⟩, fun b hb => h.set b (hp.mem_iff.mpr hb),
    fun x hx => h.keep x (fun b hb => hx b (hp.mem_iff.mp hb)), ?_, h.nodup⟩
  intro q
  rw [h.mem]
  constructor
  · rintro (h | ⟨b, hb, e⟩)
    · exact .inl h
    · exact .inr ⟨b, hp.mem_iff.mp hb, e⟩
  · rintro (h | ⟨b, hb, e⟩)
    · exact .inl h
    · exact .inr ⟨b, hp.mem_iff.mpr hb, e⟩

theorem Did.congr {d : ParsedPiece → Dst} {s s' : PieceBag → Option Str} {G : List PieceBag} {st st1 : LevelSt}
    {p p1 : List Str} (h : Did d s G st p st1 p1) (he : ∀ b ∈ G, s b = s' b) : Did d s' G st p st1 p1 := by
  obtain ⟨U, hU, hr⟩ := h.sent
  refine ⟨h.num, ⟨U, ?_, hr⟩, fun b hb q hq => h.set b hb q ((he b hb).trans hq),
    fun x hx => h.keep x (fun b hb hs => hx b hb (by rw [← he b hb]; exact hs)), ?_, h.nodup⟩
  · rw [List.filter_congr (q := fun b => (s b).isNone) (fun b hb => by rw [he b hb])]; exact hU
  · intro q
    rw [h.mem]
    constructor
    · rintro (h | ⟨b, hb, e⟩)
      · exact .inl h
      · exact .inr ⟨b, hb, by rw [← he b hb]; exact e⟩
    · rintro (h | ⟨b, hb, e⟩)
      · exact .inl h
      · exact .inr ⟨b, hb, by rw [he b hb]; exact e⟩

/-! ### Bags of views -/

theorem foldl_upd_new {κ α β : Type} [DecidableEq κ] (key : β → κ) (val : β → α) (xs : List β) (pre : Dict κ α)
    (hn : (xs.map key).Nodup) (hp : ∀ x ∈ xs, ∀ kv ∈ pre, kv.1 ≠ key x) :
    xs.foldl (fun d x => Dict.upd (key x) (fun _ => val x) d) pre = pre ++ xs.map (fun x => (key x, val x)) := by
  induction xs generalizing pre with
  | nil => simp
  | cons x xs ih =>
    rw [List.map_cons, List.nodup_cons] at hn
    have e : Dict.upd (key x) (fun _ => val x) pre = pre ++ [(key x, val x)] := by
      have h0 := hp x (by simp)
      clear ih hp
      induction pre with
      | nil => rfl
      | cons kv pre ihp =>
        obtain ⟨k, v⟩ := kv
        unfold Dict.upd
        rw [if_neg (h0 (k, v) (by simp)), ihp (fun kv hkv => h0 kv (by simp [hkv]))]; rfl
    rw [List.foldl_cons, e, ih _ hn.2]
    · simp
    · intro y hy kv hkv
      rw [List.mem_append, List.mem_singleton] at hkv
      rcases hkv with hkv | rfl
      · exact hp y (by simp [hy]) kv hkv
      · intro e'
        exact hn.1 (List.mem_map.mpr ⟨y, hy, e'.symm⟩)

/-- The bags with their views. -/
def withView (V : ParsedPiece → View) (G : List PieceBag) : List ViewBag := G.map (fun b => (V b.pp, b))

theorem vbBags_eq {V : ParsedPiece → View} {G : List PieceBag} (hn : (G.map PieceBag.piece).Nodup) :
    vbBags (withView V G) = G.map (fun b => (b.piece, (V b.pp, b))) := by
  unfold vbBags withView
  rw [List.foldl_map]
  have := foldl_upd_new PieceBag.piece (fun b : PieceBag => ((V b.pp, b) : ViewBag)) G [] hn (by simp)
  simpa using this

theorem vbBags_get {V : ParsedPiece → View} {G : List PieceBag} (hn : (G.map PieceBag.piece).Nodup) {b : PieceBag} (hb : b ∈ G) :
    Dict.get? b.piece (vbBags (withView V G)) = some (V b.pp, b) := by
  rw [vbBags_eq hn]
  apply Dict.get?_of_mem
  · rw [List.map_map]; exact hn
  · exact List.mem_map.mpr ⟨b, hb, rfl⟩

theorem vbCount_eq (V : ParsedPiece → View) (G : List PieceBag) : vbCount (withView V G) = cntE (G.map PieceBag.ent) := by
  unfold vbCount withView
  rw [List.map_map, cntE_map]; rfl

theorem forwardAll_eq {V : ParsedPiece → View} {d : ParsedPiece → Dst} {fwd : View → PieceBag → Route} {G : List PieceBag}
    (hn : (G.map PieceBag.piece).Nodup) (hf : ∀ b ∈ G, fwd (V b.pp) b = mkRoute (d b.pp) b.pp) (st : LevelSt) :
    forwardAll fwd (withView V G) st = { st with
        toBase := st.toBase ++ sent d .base G
        toMixed := st.toMixed ++ sent d .mixed G
        toLastDot := st.toLastDot ++ sent d .lastDot G
        toLength := st.toLength ++ G.filter (fun b => decide (d b.pp = .length)) } := by
  rw [← forward_foldl]
  unfold forwardAll
  rw [vbBags_eq hn, List.foldl_map]
  clear hn
  induction G generalizing st with
  | nil => rfl
  | cons b G ih =>
    rw [List.foldl_cons, List.foldl_cons]
    simp only
    rw [hf b (by simp), ih (fun b' hb' => hf b' (by simp [hb']))]

theorem Did.forward {V : ParsedPiece → View} {d : ParsedPiece → Dst} {fwd : View → PieceBag → Route} {G : List PieceBag}
    {s : PieceBag → Option Str} (hn : (G.map PieceBag.piece).Nodup) (hf : ∀ b ∈ G, fwd (V b.pp) b = mkRoute (d b.pp) b.pp)
    (hs : ∀ b ∈ G, s b = none) (st : LevelSt) (p : List Str) : Did d s G st p (forwardAll fwd (withView V G) st) p := by
  rw [forwardAll_eq hn hf]
  refine ⟨rfl, ⟨G, ?_, rfl, rfl, rfl, rfl⟩, ?_, fun _ _ => rfl, ?_, id⟩
  · rw [List.filter_eq_self.mpr]
    intro b hb; rw [hs b hb]; rfl
  · intro b hb q hq; rw [hs b hb] at hq; cases hq
  · intro q
    constructor
    · exact .inl
    · rintro (h | ⟨b, hb, e⟩)
      · exact h
      · rw [hs b hb] at e; cases e

theorem Did.settle {d : ParsedPiece → Dst} {G : List PieceBag} {s : PieceBag → Option Str} (q : Str) (hne : G ≠ [])
    (hs : ∀ b ∈ G, s b = some q) (st : LevelSt) (p : List Str) :
    Did d s G st p { st with assign := st.assign.setBucket G q } (setAdd q p) := by
  refine ⟨rfl, ⟨[], ?_, by simp [OsUrl.sent]⟩, ?_, ?_, ?_, nodup_setAdd⟩
  · rw [List.filter_eq_nil_iff.mpr]
    intro b hb; rw [hs b hb]; simp
  · intro b hb q' hq'
    rw [hs b hb] at hq'
    injection hq' with hq'
    rw [← hq']
    show Assign.pattern _ _ = q
    rw [pattern_setBucket, if_pos (List.mem_map.mpr ⟨b, hb, rfl⟩)]
  · intro x hx
    show Assign.pattern _ _ = _
    rw [pattern_setBucket, if_neg]
    intro hm
    obtain ⟨b, hb, e⟩ := List.mem_map.mp hm
    exact hx b hb (by rw [hs b hb]; rfl) e
  · intro q'
    rw [mem_setAdd]
    constructor
    · rintro (rfl | h)
      · cases G with
        | nil => exact absurd rfl hne
        | cons b G => exact .inr ⟨b, by simp, hs b (by simp)⟩
      · exact .inl h
    · rintro (h | ⟨b, hb, e⟩)
      · exact .inr h
      · rw [hs b hb] at e; injection e with e; exact .inl e.symm

/-! ### One group of bags with the same view -/

/-- The row of a piece seen in parts. -/
def vrow (V : ParsedPiece → View) (e : Ent) : Ins := ⟨(V e.1).pps.map (fun q => (q, none)), e.2, []⟩

/-- The rows of the bags. -/
def vrows (V : ParsedPiece → View) (G : List PieceBag) : List Ins := G.map (fun b => vrow V b.ent)

theorem vrow_keys (V : ParsedPiece → View) (e : Ent) : (vrow V e).keys = (V e.1).pps.map (·.piece) := by
  simp [vrow, Ins.keys, Function.comp_def]

theorem vrow_bare (V : ParsedPiece → View) (e : Ent) : (vrow V e).bare = vrow V e := by
  simp [vrow, Ins.bare, Function.comp_def]

theorem vrow_pp (V : ParsedPiece → View) (e : Ent) (j : Nat) : (vrow V e).pp j = ((V e.1).pps[j]?).getD emptyParsedPiece := by
  unfold vrow Ins.pp
  rw [List.getElem?_map, Option.map_map]
  congr 1
  cases (V e.1).pps[j]? <;> rfl

/-- Bags of one view, `n` parts. -/
structure GroupOK (V : ParsedPiece → View) (n : Nat) (G : List PieceBag) : Prop where
  nodup : (G.map PieceBag.piece).Nodup
  flat : ∀ b ∈ G, ((V b.pp).pps.map (·.piece)).flatten = b.piece
  rows : RowsOK FlatOK n (vrows V G)

theorem GroupOK.keys {V : ParsedPiece → View} {n : Nat} {G : List PieceBag} (h : GroupOK V n G) :
    ((vrows V G).map Ins.keys).Nodup := by
  have e : ((vrows V G).map Ins.keys).map List.flatten = G.map PieceBag.piece := by
    unfold vrows
    rw [List.map_map, List.map_map]
    apply List.map_congr_left
    intro b hb
    simp only [Function.comp, vrow_keys]
    exact h.flat b hb
  have := h.nodup
  rw [← e] at this
  exact nodup_of_map this

theorem GroupOK.normal {V : ParsedPiece → View} {n : Nat} {G : List PieceBag} (h : GroupOK V n G) : Normal n (vrows V G) :=
  ⟨h.rows.len, h.keys, by
    intro x hx
    obtain ⟨b, _, rfl⟩ := List.mem_map.mp hx
    exact List.nodup_nil⟩

theorem vrows_bare (V : ParsedPiece → View) (G : List PieceBag) : (vrows V G).map Ins.bare = vrows V G := by
  unfold vrows
  rw [List.map_map]
  apply List.map_congr_left
  intro b _
  exact vrow_bare V b.ent

theorem buildFromParsedPieces_grow {n : Nat} {L : List Ins} (hL : ∀ i ∈ L, i.path.length = n + 1) {pps : List ParsedPiece}
    (hp : pps.length = n + 1) (c : Int) :
    ∃ f, buildFromParsedPieces (growTree (n + 1) L) pps c none false =
      .ok (growTree (n + 1) (L ++ [⟨pps.map (fun q => (q, none)), c, []⟩]), f) := by
  have hb := growTree_concat hL (i := ⟨pps.map (fun q => (q, none)), c, []⟩) (by simpa using hp)
  unfold buildFromParsedPieces
  cases pps with
  | nil => simp at hp
  | cons q qs =>
    refine ⟨isNewPath ((q :: qs).map (·.piece)) (growTree (n + 1) L).kids, ?_⟩
    rw [← hb]
    rfl

theorem vbTree_grow {V : ParsedPiece → View} {n : Nat} (G : List PieceBag) (hG : ∀ b ∈ G, (V b.pp).pps.length = n + 1)
    (L : List Ins) (hL : ∀ i ∈ L, i.path.length = n + 1) :
    vbTree (withView V G) (growTree (n + 1) L) = .ok (growTree (n + 1) (L ++ vrows V G)) := by
  induction G generalizing L with
  | nil => simp [withView, vbTree, vrows]
  | cons b G ih =>
    obtain ⟨f, e⟩ := buildFromParsedPieces_grow hL (hG b (by simp)) b.count
    show vbTree ((V b.pp, b) :: withView V G) _ = _
    unfold vbTree
    simp only [e, bind, Except.bind]
    rw [ih (fun b' hb' => hG b' (by simp [hb']))]
    · simp [vrows, vrow, PieceBag.ent]
    · intro i hi
      rw [List.mem_append, List.mem_singleton] at hi
      rcases hi with hi | rfl
      · exact hL i hi
      · simpa using hG b (by simp)

theorem growTree_nil (n : Nat) : growTree (n + 1) [] = emptyTree := by
  simp [growTree, grow, groupBy, Forest.ofList, emptyTree]

theorem paths_length {n : Nat} {L : List Ins} (hN : Normal (n + 1) L) (hne : L ≠ []) :
    (growTree (n + 1) L).paths.length = L.length := by
  rw [paths_growTree hne]
  have : ((growPaths (n + 1) L).map (fun p => p.map (·.1))).Perm (L.map Ins.keys) := by
    rw [List.perm_ext_iff_of_nodup growPaths_nodup hN.nodup]
    exact growPaths_keys hN.len hne
  have := this.length_eq
  simpa using this

/-- The pattern that the nested clustering of the rows `R` gives a row. -/
def rowSettle (mcn : Int) (kw : Bool) (n : Nat) (R : List Ins) (x : Ins) : Option Str :=
  if total (famN (flatF mcn kw n) n (R.length + 1) R x) < mcn then none
  else some (labs (flatF mcn kw n) n 0 (famN (flatF mcn kw n) n (R.length + 1) R x) x).flatten

theorem transferBags_eq {V : ParsedPiece → View} {G : List PieceBag} (hn : (G.map PieceBag.piece).Nodup)
    (ps : List (List (Str × NodeData)))
    (hps : ∀ p ∈ ps, ∃ b ∈ G, (rowOf p).bare = vrow V b.ent ∧ (p.map (fun kn => kn.2.pp.piece)).flatten = b.piece) :
    ∃ Bs : List PieceBag, transferBags (vbBags (withView V G)) ps = .ok (withView V Bs) ∧ (∀ b ∈ Bs, b ∈ G) ∧
      vrows V Bs = ps.map (fun p => (rowOf p).bare) := by
  induction ps with
  | nil => exact ⟨[], rfl, by simp, rfl⟩
  | cons p ps ih =>
    obtain ⟨Bs, e1, e2, e3⟩ := ih (fun p hp => hps p (by simp [hp]))
    obtain ⟨b, hb, h1, h2⟩ := hps p (by simp)
    refine ⟨b :: Bs, ?_, ?_, ?_⟩
    · unfold transferBags
      rw [h2, vbBags_get hn hb, e1]
      rfl
    · intro b' hb'
      rw [List.mem_cons] at hb'
      rcases hb' with rfl | hb'
      · exact hb
      · exact e2 b' hb'
    · rw [List.map_cons, h1, ← e3]; rfl

theorem vrows_total (V : ParsedPiece → View) (G : List PieceBag) : total (vrows V G) = cntE (G.map PieceBag.ent) := by
  unfold total vrows cntE
  rw [List.map_map, List.map_map]; rfl

section group
variable {V : ParsedPiece → View} {n : Nat} {G : List PieceBag} {mcn : Int} {kw : Bool}

/-- One resulting cluster of a group. -/
theorem transfer_eq (hG : GroupOK V (n + 1) G) {C : List Ins}
    (hsub : ∀ x ∈ C, x.bare ∈ vrows V G)
    (hC : Final (flatF mcn kw (n + 1)) (n + 1) ((vrows V G).length + 1) (vrows V G) C) :
    ∃ (Bs : List PieceBag) (q : Str), transfer (vbBags (withView V G)) (doneTree (n + 1) C) = .ok (withView V Bs, q) ∧
      Bs ≠ [] ∧ (∀ b ∈ Bs, b ∈ G) ∧ (vrows V Bs).Perm (C.map Ins.bare) ∧ vbCount (withView V Bs) = total (C.map Ins.bare) ∧
      (∀ b ∈ Bs, rowSettle mcn kw (n + 1) (vrows V G) (vrow V b.ent) =
        if total (C.map Ins.bare) < mcn then none else some q) := by
  have hfull : ∀ x ∈ C, x.Full := by
    intro x hx a ha
    have : a.2 ∈ x.path.map (·.2) := List.mem_map.mpr ⟨a, ha, rfl⟩
    rw [hC.pats x hx] at this
    obtain ⟨q, _, e⟩ := List.mem_map.mp this
    rw [← e]; rfl
  have hpaths : (doneTree (n + 1) C).paths = growPaths (n + 1) C := by rw [← paths_growTree hC.ne]; rfl
  have hrows := rows_of_paths hC.normal hC.coh hfull
  have hps : ∀ p ∈ growPaths (n + 1) C, ∃ b ∈ G, (rowOf p).bare = vrow V b.ent ∧
      (p.map (fun kn => kn.2.pp.piece)).flatten = b.piece := by
    intro p hp
    have hm := hrows.mem_iff.mp (List.mem_map.mpr ⟨p, hp, rfl⟩)
    obtain ⟨b, hb, e⟩ := List.mem_map.mp (hsub _ hm)
    refine ⟨b, hb, e.symm, ?_⟩
    rw [← hG.flat b hb]
    have : (rowOf p).bare.keys = (vrow V b.ent).keys := by rw [e]
    rw [bare_keys, vrow_keys] at this
    show _ = ((V b.ent.1).pps.map (·.piece)).flatten
    rw [← this]
    simp [rowOf, Ins.keys, Function.comp_def]
  obtain ⟨Bs, e1, e2, e3⟩ := transferBags_eq hG.nodup _ hps
  have hperm : (vrows V Bs).Perm (C.map Ins.bare) := by
    rw [e3]
    have := hrows.map Ins.bare
    rwa [List.map_map] at this
  cases hp0 : growPaths (n + 1) C with
  | nil =>
    exfalso
    rw [hp0] at hrows
    exact hC.ne (List.Perm.nil_eq hrows).symm
  | cons p0 ps =>
    have hm0 : rowOf p0 ∈ C := hrows.mem_iff.mp (List.mem_map.mpr ⟨p0, by rw [hp0]; simp, rfl⟩)
    have hpat : p0.map (fun kn => kn.2.pattern) =
        labs (flatF mcn kw (n + 1)) (n + 1) 0 (C.map Ins.bare) (rowOf p0).bare := by
      have := hC.pats _ hm0
      simp only [rowOf, List.map_map] at this
      have h2 := congrArg (List.map (fun o : Option Str => o.getD [])) this
      rw [List.map_map, List.map_map] at h2
      simpa [Function.comp_def, rowOf] using h2
    have hBne : Bs ≠ [] := by
      rintro rfl
      rw [hp0] at e3
      simp [vrows] at e3
    refine ⟨Bs, (p0.map (fun kn => kn.2.pattern)).flatten, ?_, hBne, e2, hperm, ?_, ?_⟩
    · unfold transfer
      rw [hpaths, hp0]
      simp only
      rw [hp0] at e1
      rw [e1]; rfl
    · rw [vbCount_eq, ← vrows_total V, total_perm hperm]
    · intro b hb
      have hbm : vrow V b.ent ∈ C.map Ins.bare := hperm.mem_iff.mp (List.mem_map.mpr ⟨b, hb, rfl⟩)
      obtain ⟨x, hx, ex⟩ := List.mem_map.mp hbm
      have hfam := hC.fam x hx
      rw [ex] at hfam
      unfold rowSettle
      rw [← total_perm hfam, ← labs_perm (flatF_perm mcn kw (n + 1)) hfam]
      by_cases ht : total (C.map Ins.bare) < mcn
      · rw [if_pos ht, if_pos ht]
      · rw [if_neg ht, if_neg ht, hpat]
        rw [unif_iff.mp hC.unif _ hbm _ (List.mem_map.mpr ⟨_, hm0, rfl⟩)]

theorem multiClusters_eq (hG : GroupOK V (n + 1) G) {d : ParsedPiece → Dst} {fwd : View → PieceBag → Route}
    (hf : ∀ b ∈ G, fwd (V b.pp) b = mkRoute (d b.pp) b.pp) :
    ∀ (Cs : List (List Ins)), (∀ C ∈ Cs, ∀ x ∈ C, x.bare ∈ vrows V G) → (Cs.flatten.map Ins.bare).Nodup →
    (∀ C ∈ Cs, Final (flatF mcn kw (n + 1)) (n + 1) ((vrows V G).length + 1) (vrows V G) C) →
    ∀ (st : LevelSt) (pats : List Str), ∃ st' pats' Bs,
      multiClusters mcn fwd (vbBags (withView V G)) (Cs.map (doneTree (n + 1))) (st, pats) = .ok (st', pats') ∧
      (∀ b ∈ Bs, b ∈ G) ∧ (vrows V Bs).Perm (Cs.flatten.map Ins.bare) ∧
      Did d (fun b => rowSettle mcn kw (n + 1) (vrows V G) (vrow V b.ent)) Bs st pats st' pats' := by
  intro Cs
  induction Cs with
  | nil => intro _ _ _ st pats; exact ⟨st, pats, [], rfl, by simp, by simp [vrows], Did.nil _ _ _ _⟩
  | cons C Cs ih =>
    intro hsub hnd hfin st pats
    obtain ⟨Bs, q, e, hne, hBG, hperm, hcnt, hset⟩ := transfer_eq hG (hsub C (by simp)) (hfin C (by simp))
    have hvnd : ∀ Bs : List PieceBag, (∀ b ∈ Bs, b ∈ G) → (vrows V Bs).Nodup → (Bs.map PieceBag.piece).Nodup := by
      intro Bs hB hn
      have hb := nodup_of_map hn
      rw [List.nodup_iff_pairwise_ne, List.pairwise_map]
      rw [List.nodup_iff_pairwise_ne] at hb
      refine List.Pairwise.imp_of_mem ?_ hb
      intro a b ha hb' hab e
      exact hab (bag_inj hG.nodup (hB a ha) (hB b hb') e)
    rw [List.flatten_cons, List.map_append] at hnd
    have hnd' := List.nodup_append.mp hnd
    have hBn : (Bs.map PieceBag.piece).Nodup := hvnd Bs hBG (hperm.nodup_iff.mpr hnd'.1)
    simp only [List.map_cons, multiClusters, e, bind, Except.bind]
    rw [hcnt]
    have hstep : ∃ st1 p1, (if total (C.map Ins.bare) < mcn then
          multiClusters mcn fwd (vbBags (withView V G)) (Cs.map (doneTree (n + 1))) (forwardAll fwd (withView V Bs) st, pats)
        else multiClusters mcn fwd (vbBags (withView V G)) (Cs.map (doneTree (n + 1)))
          ({ st with assign := st.assign.setBucket ((withView V Bs).map (·.2)) q }, setAdd q pats)) =
        multiClusters mcn fwd (vbBags (withView V G)) (Cs.map (doneTree (n + 1))) (st1, p1) ∧
        Did d (fun b => rowSettle mcn kw (n + 1) (vrows V G) (vrow V b.ent)) Bs st pats st1 p1 := by
      by_cases ht : total (C.map Ins.bare) < mcn
      · rw [if_pos ht]
        refine ⟨_, _, rfl, Did.forward hBn (fun b hb => hf b (hBG b hb)) (fun b hb => ?_) st pats⟩
        rw [hset b hb, if_pos ht]
      · rw [if_neg ht]
        have : (withView V Bs).map (·.2) = Bs := by unfold withView; rw [List.map_map]; exact List.map_id _
        rw [this]
        refine ⟨_, _, rfl, Did.settle q hne (fun b hb => ?_) st pats⟩
        rw [hset b hb, if_neg ht]
    obtain ⟨st1, p1, e1, hdid⟩ := hstep
    rw [e1]
    obtain ⟨st', pats', Bs', e2, hB', hperm', hdid'⟩ := ih (fun C' hC' => hsub C' (by simp [hC'])) hnd'.2.1
      (fun C' hC' => hfin C' (by simp [hC'])) st1 p1
    have hp2 : (vrows V (Bs ++ Bs')).Perm ((C ++ Cs.flatten).map Ins.bare) := by
      unfold vrows at *
      rw [List.map_append, List.map_append]
      exact hperm.append hperm'
    have hall : ∀ b ∈ Bs ++ Bs', b ∈ G := by
      intro b hb
      rw [List.mem_append] at hb
      exact hb.elim (hBG b) (hB' b)
    refine ⟨st', pats', Bs ++ Bs', e2, hall, hp2, hdid.append hdid' ?_⟩
    apply hvnd _ hall
    rw [hp2.nodup_iff, List.map_append]
    exact hnd

/-- The bucket of one view. -/
theorem bucket_eq (hG : GroupOK V (n + 1) G) (hne : G ≠ []) {d : ParsedPiece → Dst} {fwd : View → PieceBag → Route}
    (hf : ∀ b ∈ G, fwd (V b.pp) b = mkRoute (d b.pp) b.pp) (hm : 2 ≤ mcn) (h : Runtime) (k : Nat)
    (hh : HashSep h (flatF mcn kw (n + 1)) (n + 1) (vrows V G)) (st : LevelSt) (pats : List Str) :
    ∃ tree roots st' pats', vbTree (withView V G) emptyTree = .ok tree ∧
      clusterNest h (k + 1) mcn ⟨vbDepth (withView V G), [], false⟩ kw tree = .ok roots ∧
      multiClusters mcn fwd (vbBags (withView V G)) roots (st, pats) = .ok (st', pats') ∧
      Did d (fun b => rowSettle mcn kw (n + 1) (vrows V G) (vrow V b.ent)) G st pats st' pats' := by
  have hlen : ∀ b ∈ G, (V b.pp).pps.length = n + 1 := by
    intro b hb
    have := hG.rows.len (vrow V b.ent) (List.mem_map.mpr ⟨b, hb, rfl⟩)
    simpa [vrow, PieceBag.ent] using this
  have ht := vbTree_grow G hlen [] (by simp)
  rw [growTree_nil, List.nil_append] at ht
  have hd : vbDepth (withView V G) = n + 1 := by
    cases G with
    | nil => exact absurd rfl hne
    | cons b G => exact hlen b (by simp)
  have hvne : vrows V G ≠ [] := by unfold vrows; simpa using hne
  obtain ⟨Cs, h1, h2, h3, -⟩ := cluster_spec h (flat_level h (clusterNest h k) hm ⟨n + 1, [], false⟩ kw (n + 1)) hm
    (by simp [URLMeta.depth]) ((vrows V G).length + 1) (vrows V G) hG.normal hG.rows hvne (by omega)
    (by rw [vrows_bare]; exact hh)
  rw [vrows_bare] at h2 h3
  have hgn : (vrows V G).Nodup := nodup_of_map hG.keys
  obtain ⟨st', pats', Bs, e, hB, hperm, hdid⟩ := multiClusters_eq (mcn := mcn) (kw := kw) hG hf Cs (by
    intro C hC x hx
    exact h2.mem_iff.mp (List.mem_map.mpr ⟨x, List.mem_flatten.mpr ⟨C, hC, hx⟩, rfl⟩)) (h2.nodup_iff.mpr hgn) h3 st pats
  have hBp : Bs.Perm G := by
    have h4 := hperm.trans h2
    have hBn : Bs.Nodup := nodup_of_map (h4.nodup_iff.mpr hgn)
    have hGn : G.Nodup := nodup_of_map hG.nodup
    rw [List.perm_ext_iff_of_nodup hBn hGn]
    intro b
    refine ⟨hB b, fun hb => ?_⟩
    obtain ⟨b', hb', e'⟩ := List.mem_map.mp (h4.mem_iff.mpr (List.mem_map.mpr ⟨b, hb, rfl⟩))
    have : b'.piece = b.piece := by
      rw [← hG.flat b' (hB b' hb'), ← hG.flat b hb]
      have := congrArg Ins.keys e'
      rw [vrow_keys, vrow_keys] at this
      exact congrArg List.flatten this
    rw [← bag_inj hG.nodup (hB b' hb') hb this]
    exact hb'
  refine ⟨_, _, st', pats', ht, ?_, e, hdid.perm hBp⟩
  show clusterWith _ _ _ _ _ _ _ = _
  rw [hd, paths_length hG.normal hvne]
  exact h1

end group

end OsUrl
