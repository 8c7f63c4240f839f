import Verif.Proofs.Norm

/-! The length and fuzzy stages of a level, as functions of the pieces and counts. -/

namespace OsUrl

/-! ### Counting -/

/-- Sum of the counts. -/
def cntE (E : List Ent) : Int := (E.map (·.2)).sum

/-- The largest of the numbers (they are not negative). -/
def mx (l : List Int) : Int := l.foldl max 0

/-- The length of a piece. -/
def lenOf (p : ParsedPiece) : Int :=
  match p.pieceLength with
  | .ok l => l
  | .error _ => 0

/-- The pieces of one length. -/
def lenGrp (E : List Ent) (l : Int) : List Ent := E.filter (fun e => decide (lenOf e.1 = l))

/-- The lengths. -/
def lens (E : List Ent) : List Int := uniq (E.map (fun e => lenOf e.1))

/-- The pieces of one length are many enough for a pattern. -/
def asClu (mcn : Int) (E : List Ent) : Bool :=
  if (E.length : Int) < mcn then
    if cntE E < mcn then false else confused (cntE E) (mx (E.map (·.2))) mcn
  else true

/-- The lengths are too few for a wildcard. -/
def lenStop (mcn : Int) (E : List Ent) : Bool :=
  decide (((lens E).length : Int) < mcn) &&
    !confused (cntE E) (mx ((lens E).map (fun l => cntE (lenGrp E l)))) mcn

/-- The pattern of a piece after the length and fuzzy stages, among the pieces `E` given to them. -/
def lenPat (mcn : Int) (E : List Ent) (p : ParsedPiece) : Str :=
  if lenStop mcn E then
    if asClu mcn (lenGrp E (lenOf p)) then specStr p.fuzzyRule (lenOf p) else p.piece
  else specStr p.fuzzyRule (-1)

theorem cntE_perm {E E' : List Ent} (h : E.Perm E') : cntE E = cntE E' := sum_perm (h.map _)

theorem foldl_max_perm {l l' : List Int} (h : l.Perm l') (a : Int) : l.foldl max a = l'.foldl max a := by
  induction h generalizing a with
  | nil => rfl
  | cons x _ ih => exact ih _
  | swap x y l => simp only [List.foldl_cons]; congr 1; omega
  | trans _ _ h1 h2 => rw [h1, h2]

theorem mx_perm {l l' : List Int} (h : l.Perm l') : mx l = mx l' := foldl_max_perm h 0

theorem lens_perm {E E' : List Ent} (h : E.Perm E') : (lens E).Perm (lens E') :=
  uniq_perm (fun _ => (h.map _).mem_iff)

theorem asClu_perm {mcn : Int} {E E' : List Ent} (h : E.Perm E') : asClu mcn E = asClu mcn E' := by
  unfold asClu
  rw [h.length_eq, cntE_perm h, mx_perm (h.map _)]

theorem lenStop_perm {mcn : Int} {E E' : List Ent} (h : E.Perm E') : lenStop mcn E = lenStop mcn E' := by
  unfold lenStop
  have hg : (fun l => cntE (lenGrp E l)) = (fun l => cntE (lenGrp E' l)) := by
    funext l; exact cntE_perm (h.filter _)
  rw [(lens_perm h).length_eq, cntE_perm h, hg, mx_perm ((lens_perm h).map _)]

theorem lenPat_perm {mcn : Int} {E E' : List Ent} (h : E.Perm E') (p : ParsedPiece) : lenPat mcn E p = lenPat mcn E' p := by
  unfold lenPat
  rw [lenStop_perm h, show asClu mcn (lenGrp E (lenOf p)) = asClu mcn (lenGrp E' (lenOf p)) from asClu_perm (h.filter _)]

theorem maxCount_eq {l : List Int} (hne : l ≠ []) (h : ∀ x ∈ l, 0 ≤ x) : maxCount l = .ok (mx l) := by
  cases l with
  | nil => exact absurd rfl hne
  | cons x xs =>
    have := h x (by simp)
    simp only [maxCount, mx, List.foldl_cons]
    rw [show max 0 x = x by omega]

theorem length_uniq {α : Type} [DecidableEq α] {xs ys : List α} (h : xs.Nodup) (hm : ∀ q, q ∈ xs ↔ q ∈ ys) :
    xs.length = (uniq ys).length := by
  have : xs.Perm (uniq ys) := by
    rw [List.perm_ext_iff_of_nodup h (nodup_uniq _)]
    intro a; rw [hm, mem_uniq]
  exact this.length_eq

/-! ### Seeking never finds anything -/

theorem seekLoop_false (mcn : Int) (back : Bool) (p : Package) (cs : List ClusterCls) : seekLoop mcn back p cs = false := by
  induction cs with
  | nil => rfl
  | cons c cs ih =>
    unfold seekLoop
    cases c <;> simp only [seekIn] <;> try exact ih
    split <;> rename_i h
    · split at h <;> cases h
    · rfl
    · split at h <;> cases h
    · exact ih

theorem seekCluster_false (mcn : Int) (l : Nat) (p : Package) : seekCluster mcn l p = false := by
  cases l with
  | zero => rfl
  | succ l => exact seekLoop_false _ _ _ _

theorem preSeek_false (mcn : Int) (l : Nat) (hl : 1 ≤ l) (p : Package) : preSeek mcn l p = .ok false := by
  cases l with
  | zero => omega
  | succ l => simp [preSeek, seekCluster_false]

/-! ### Assignments -/

theorem pattern_set (a : Assign) (k pat x : Str) : (a.set k pat).pattern x = if x = k then pat else a.pattern x := by
  unfold Assign.pattern Assign.set
  rw [Dict.get?_upd]
  by_cases e : k = x
  · simp [e]
  · rw [if_neg e, if_neg (Ne.symm e)]

theorem pattern_setBucket (B : Bucket) (pat : Str) (a : Assign) (x : Str) :
    (a.setBucket B pat).pattern x = if x ∈ B.map PieceBag.piece then pat else a.pattern x := by
  unfold Assign.setBucket
  induction B generalizing a with
  | nil => simp
  | cons b B ih =>
    rw [List.foldl_cons, ih, pattern_set]
    by_cases h : x ∈ B.map PieceBag.piece
    · rw [if_pos h, if_pos (by rw [List.map_cons, List.mem_cons]; exact .inr h)]
    · rw [if_neg h]
      by_cases e : x = b.piece
      · rw [if_pos e, if_pos (by simp [e])]
      · rw [if_neg e, if_neg (by rw [List.map_cons, List.mem_cons, not_or]; exact ⟨e, h⟩)]

theorem pattern_setAll (Bs : List Bucket) (pat : Str) (a : Assign) (x : Str) :
    (Bs.foldl (fun a b => a.setBucket b pat) a).pattern x =
      if x ∈ Bs.flatten.map PieceBag.piece then pat else a.pattern x := by
  induction Bs generalizing a with
  | nil => simp
  | cons B Bs ih =>
    rw [List.foldl_cons, ih, pattern_setBucket, List.flatten_cons, List.map_append]
    by_cases h : x ∈ Bs.flatten.map PieceBag.piece
    · rw [if_pos h, if_pos (List.mem_append.mpr (.inr h))]
    · rw [if_neg h]
      by_cases e : x ∈ B.map PieceBag.piece
      · rw [if_pos e, if_pos (List.mem_append.mpr (.inl e))]
      · rw [if_neg e, if_neg (by rw [List.mem_append, not_or]; exact ⟨e, h⟩)]

/-! ### The buckets by length -/

/-- The length of a bag's piece. -/
def PieceBag.len (b : PieceBag) : Int := lenOf b.pp

theorem Dict.upd_congr {κ α : Type} [DecidableEq κ] (k : κ) (f g : Option α → α) (d : Dict κ α)
    (h : f (Dict.get? k d) = g (Dict.get? k d)) : Dict.upd k f d = Dict.upd k g d := by
  induction d with
  | nil => simp [Dict.upd]; simpa [Dict.get?] using h
  | cons x xs ih =>
    obtain ⟨k', v⟩ := x
    unfold Dict.upd
    by_cases e : k' = k
    · rw [if_pos e, if_pos e]
      simp only [Dict.get?, e, if_true] at h
      rw [h]
    · rw [if_neg e, if_neg e]
      simp only [Dict.get?, e, if_false] at h
      rw [ih h]

theorem lengthBuckets_eq : ∀ (L pre : List PieceBag), (∀ b ∈ L, b.pp.pieceLength = .ok b.len) →
    ((pre ++ L).map PieceBag.piece).Nodup →
    lengthBuckets L (groupBy PieceBag.len pre) = .ok (groupBy PieceBag.len (pre ++ L)) := by
  intro L
  induction L with
  | nil => intro pre _ _; simp [lengthBuckets]
  | cons b L ih =>
    intro pre hl hn
    have hb := hl b (by simp)
    have hany : ((Dict.get? b.len (groupBy PieceBag.len pre)).getD []).any (fun b' => decide (b'.piece = b.piece)) = false := by
      rw [List.any_eq_false]
      intro b' hb'
      rw [decide_eq_true_eq]
      cases hg : Dict.get? b.len (groupBy PieceBag.len pre) with
      | none => rw [hg] at hb'; simp at hb'
      | some g =>
        rw [hg] at hb'
        simp only [Option.getD_some] at hb'
        have := (mem_groupBy (Dict.get?_mem hg)).2
        rw [this, List.mem_filter] at hb'
        intro e
        rw [List.map_append, List.nodup_append] at hn
        exact hn.2.2 _ (List.mem_map.mpr ⟨b', hb'.1, rfl⟩) _ (by simp) e
    unfold lengthBuckets
    rw [hb]
    simp only [bind, Except.bind, Bucket.addBag, hany, Bool.false_eq_true, if_false]
    rw [Dict.upd_congr (g := fun o => o.getD [] ++ [b]) _ _ _ rfl, ← groupBy_concat, ih (pre ++ [b])]
    · simp
    · intro b' hb'; exact hl b' (by simp [hb'])
    · simpa using hn

/-- The bags of length `l`. -/
def bagGrp (L : List PieceBag) (l : Int) : List PieceBag := L.filter (fun b => decide (b.len = l))

theorem lenGrp_map (L : List PieceBag) (l : Int) : lenGrp (L.map PieceBag.ent) l = (bagGrp L l).map PieceBag.ent := by
  unfold lenGrp bagGrp
  rw [List.filter_map]
  rfl

theorem cntE_map (L : List PieceBag) : cntE (L.map PieceBag.ent) = Bucket.count L := by
  unfold cntE Bucket.count
  rw [List.map_map]; rfl

theorem ent_counts (L : List PieceBag) : (L.map PieceBag.ent).map (·.2) = L.map (·.count) := by
  rw [List.map_map]; rfl

theorem lens_map (L : List PieceBag) : lens (L.map PieceBag.ent) = uniq (L.map PieceBag.len) := by
  unfold lens
  rw [List.map_map]; rfl

theorem lengthAsCluster_eq {mcn : Int} {B : Bucket} (hne : B ≠ []) (h : ∀ b ∈ B, 1 ≤ b.count) :
    lengthAsCluster mcn B = .ok (asClu mcn (B.map PieceBag.ent)) := by
  unfold lengthAsCluster asClu
  rw [cntE_map, ent_counts, List.length_map, maxCount_eq (by simpa using hne) (by
    intro x hx
    obtain ⟨b, hb, rfl⟩ := List.mem_map.mp hx
    have := h b hb; omega)]
  by_cases h1 : (B.length : Int) < mcn
  · rw [if_pos h1, if_pos h1]
    by_cases h2 : Bucket.count B < mcn
    · rw [if_pos h2, if_pos h2]
    · rw [if_neg h2, if_neg h2]; rfl
  · rw [if_neg h1, if_neg h1]

theorem lengthPattern_eq {B : Bucket} {r : Str} {l : Int} (hne : B ≠ []) (hl : l ≠ 0)
    (h : ∀ b ∈ B, b.pp.pieceLength = .ok b.len ∧ b.len = l ∧ b.pp.fuzzyRule = r) :
    lengthPattern B = .ok (specStr r l) := by
  cases B with
  | nil => exact absurd rfl hne
  | cons b B =>
    obtain ⟨h1, h2, h3⟩ := h b (by simp)
    simp only [lengthPattern, h1, bind, Except.bind, specifyRule, h2, h3]
    rw [if_neg hl]

/-- What the stages ask of their bags. -/
structure LenOK (r : Str) (L : List PieceBag) : Prop where
  nodup : (L.map PieceBag.piece).Nodup
  pos : ∀ b ∈ L, 1 ≤ b.count
  len : ∀ b ∈ L, b.pp.pieceLength = .ok b.len ∧ 1 ≤ b.len
  rule : ∀ b ∈ L, b.pp.fuzzyRule = r

theorem bag_inj {L : List PieceBag} (h : (L.map PieceBag.piece).Nodup) {b b' : PieceBag} (hb : b ∈ L) (hb' : b' ∈ L)
    (e : b.piece = b'.piece) : b = b' := by
  induction L with
  | nil => simp at hb
  | cons x L ih =>
    rw [List.map_cons, List.nodup_cons] at h
    rw [List.mem_cons] at hb hb'
    rcases hb with rfl | hb <;> rcases hb' with rfl | hb'
    · rfl
    · exact absurd (List.mem_map.mpr ⟨b', hb', e.symm⟩) h.1
    · exact absurd (List.mem_map.mpr ⟨b, hb, e⟩) h.1
    · exact ih h.2 hb hb'

section stages
variable {mcn : Int} {r : Str} {L : List PieceBag}

theorem grp_ne {l : Int} (h : l ∈ L.map PieceBag.len) : bagGrp L l ≠ [] := by
  obtain ⟨b, hb, rfl⟩ := List.mem_map.mp h
  exact List.ne_nil_of_mem (List.mem_filter.mpr ⟨hb, by simp⟩)

theorem mem_bagGrp {l : Int} {b : PieceBag} : b ∈ bagGrp L l ↔ b ∈ L ∧ b.len = l := by simp [bagGrp]

theorem mem_grp_pieces {l : Int} {x : Str} : x ∈ (bagGrp L l).map PieceBag.piece ↔ ∃ b ∈ L, b.len = l ∧ b.piece = x := by
  rw [List.mem_map]
  constructor
  · rintro ⟨b, hb, e⟩; obtain ⟨h1, h2⟩ := mem_bagGrp.mp hb; exact ⟨b, h1, h2, e⟩
  · rintro ⟨b, h1, h2, e⟩; exact ⟨b, mem_bagGrp.mpr ⟨h1, h2⟩, e⟩

theorem foldl_setAdd_map {β : Type} (B : List β) (f : β → Str) (pats : List Str) :
    B.foldl (fun ps b => setAdd (f b) ps) pats = (B.map f).foldl (fun acc x => setAdd x acc) pats := by
  rw [List.foldl_map]

/-- The pattern a bag keeps when the lengths are few. -/
def stopPat (mcn : Int) (L : List PieceBag) (b : PieceBag) : Str :=
  if asClu mcn ((bagGrp L b.len).map PieceBag.ent) then specStr b.pp.fuzzyRule b.len else b.piece

theorem lengthStopLoop_eq (h : LenOK r L) : ∀ (ls : List Int) (a : Assign) (pats : List Str), ls.Nodup →
    (∀ l ∈ ls, l ∈ L.map PieceBag.len) → (∀ b ∈ L, b.len ∈ ls → a.pattern b.piece = b.piece) → pats.Nodup →
    ∃ a' pats', lengthStopLoop mcn (ls.map (bagGrp L)) (a, pats) = .ok (a', pats') ∧
      (∀ b ∈ L, b.len ∈ ls → a'.pattern b.piece = stopPat mcn L b) ∧
      (∀ x, (∀ b ∈ L, b.len ∈ ls → b.piece ≠ x) → a'.pattern x = a.pattern x) ∧ pats'.Nodup ∧
      (∀ q, q ∈ pats' ↔ q ∈ pats ∨ ∃ b ∈ L, b.len ∈ ls ∧ q = stopPat mcn L b) := by
  intro ls
  induction ls with
  | nil => intro a pats _ _ _ hp; exact ⟨a, pats, rfl, by simp, by simp, hp, by simp⟩
  | cons l ls ih =>
    intro a pats hn hls ha hp
    rw [List.nodup_cons] at hn
    have hgne := grp_ne (hls l (by simp))
    have hgpos : ∀ b ∈ bagGrp L l, 1 ≤ b.count := fun b hb => h.pos b (mem_bagGrp.mp hb).1
    have hl0 : l ≠ 0 := by
      obtain ⟨b, hb, e⟩ := List.mem_map.mp (hls l (by simp))
      have := (h.len b hb).2; omega
    have hnot : ∀ b ∈ L, b.len ∈ ls → b.piece ∉ (bagGrp L l).map PieceBag.piece := by
      intro b hb hbl hm
      obtain ⟨b', h1, h2, e⟩ := mem_grp_pieces.mp hm
      rw [bag_inj h.nodup h1 hb e] at h2
      exact hn.1 (h2 ▸ hbl)
    simp only [List.map_cons, lengthStopLoop, lengthAsCluster_eq hgne hgpos, bind, Except.bind]
    by_cases has : asClu mcn ((bagGrp L l).map PieceBag.ent) = true
    · rw [if_pos has, lengthPattern_eq (r := r) (l := l) hgne hl0 (fun b hb => by
        obtain ⟨h1, h2⟩ := mem_bagGrp.mp hb
        exact ⟨(h.len b h1).1, h2, h.rule b h1⟩)]
      simp only
      obtain ⟨a', pats', e, h1, h2, h3, h4⟩ := ih (a.setBucket (bagGrp L l) (specStr r l)) (setAdd (specStr r l) pats) hn.2
        (fun l' hl' => hls l' (by simp [hl'])) (fun b hb hbl => by
          rw [pattern_setBucket, if_neg (hnot b hb hbl)]; exact ha b hb (by simp [hbl])) (nodup_setAdd hp)
      have hsp : ∀ b ∈ L, b.len = l → stopPat mcn L b = specStr r l := by
        intro b hb hbl
        unfold stopPat
        rw [hbl, if_pos has, h.rule b hb]
      refine ⟨a', pats', e, ?_, ?_, h3, ?_⟩
      · intro b hb hbl
        rw [List.mem_cons] at hbl
        rcases hbl with hbl | hbl
        · rw [h2 b.piece (fun b' hb' hbl' e' => by
            rw [bag_inj h.nodup hb' hb e', hbl] at hbl'; exact hn.1 hbl'), pattern_setBucket,
            if_pos (mem_grp_pieces.mpr ⟨b, hb, hbl, rfl⟩), hsp b hb hbl]
        · exact h1 b hb hbl
      · intro x hx
        rw [h2 x (fun b hb hbl => hx b hb (by simp [hbl])), pattern_setBucket, if_neg]
        intro hm
        obtain ⟨b, hb, hbl, e'⟩ := mem_grp_pieces.mp hm
        exact hx b hb (by simp [hbl]) e'
      · intro q
        rw [h4, mem_setAdd]
        constructor
        · rintro ((rfl | hq) | ⟨b, hb, hbl, rfl⟩)
          · obtain ⟨b, hb, hbl⟩ := List.mem_map.mp (hls l (by simp))
            exact .inr ⟨b, hb, by simp [hbl], (hsp b hb hbl).symm⟩
          · exact .inl hq
          · exact .inr ⟨b, hb, by simp [hbl], rfl⟩
        · rintro (hq | ⟨b, hb, hbl, rfl⟩)
          · exact .inl (.inr hq)
          · rw [List.mem_cons] at hbl
            rcases hbl with hbl | hbl
            · exact .inl (.inl (hsp b hb hbl))
            · exact .inr ⟨b, hb, hbl, rfl⟩
    · rw [if_neg has]
      have hsp : ∀ b ∈ L, b.len = l → stopPat mcn L b = b.piece := by
        intro b hb hbl
        unfold stopPat
        rw [hbl, if_neg has]
      obtain ⟨a', pats', e, h1, h2, h3, h4⟩ := ih a ((bagGrp L l).foldl (fun ps b => setAdd (a.pattern b.piece) ps) pats) hn.2
        (fun l' hl' => hls l' (by simp [hl'])) (fun b hb hbl => ha b hb (by simp [hbl])) (by
          rw [foldl_setAdd_map]; exact foldl_setAdd_nodup hp)
      refine ⟨a', pats', e, ?_, ?_, h3, ?_⟩
      · intro b hb hbl
        rw [List.mem_cons] at hbl
        rcases hbl with hbl | hbl
        · rw [h2 b.piece (fun b' hb' hbl' e' => by
            rw [bag_inj h.nodup hb' hb e', hbl] at hbl'; exact hn.1 hbl'), ha b hb (by simp [hbl]), hsp b hb hbl]
        · exact h1 b hb hbl
      · intro x hx
        exact h2 x (fun b hb hbl => hx b hb (by simp [hbl]))
      · intro q
        rw [h4, foldl_setAdd_map, foldl_setAdd_mem]
        constructor
        · rintro ((hq | hq) | ⟨b, hb, hbl, rfl⟩)
          · exact .inl hq
          · obtain ⟨b, hb, rfl⟩ := List.mem_map.mp hq
            obtain ⟨hb, hbl⟩ := mem_bagGrp.mp hb
            exact .inr ⟨b, hb, by simp [hbl], by rw [hsp b hb hbl]; exact ha b hb (by simp [hbl])⟩
          · exact .inr ⟨b, hb, by simp [hbl], rfl⟩
        · rintro (hq | ⟨b, hb, hbl, rfl⟩)
          · exact .inl (.inl hq)
          · rw [List.mem_cons] at hbl
            rcases hbl with hbl | hbl
            · refine .inl (.inr (List.mem_map.mpr ⟨b, mem_bagGrp.mpr ⟨hb, hbl⟩, ?_⟩))
              rw [hsp b hb hbl]; exact ha b hb (by simp [hbl])
            · exact .inr ⟨b, hb, hbl, rfl⟩

theorem lengthFwdLoop_eq {cfg : LevelCfg} (hlev : 1 ≤ cfg.level) (h : LenOK r L) : ∀ (ls : List Int) (a : Assign)
    (pats : List Str) (fwd : List Bucket), (∀ l ∈ ls, l ∈ L.map PieceBag.len) →
    ∃ a', lengthFwdLoop cfg (ls.map (bagGrp L)) (a, pats, fwd) = .ok (a', pats, fwd ++ ls.map (bagGrp L)) ∧
      (∀ x, (∀ b ∈ L, b.piece ≠ x) → a'.pattern x = a.pattern x) := by
  intro ls
  induction ls with
  | nil => intro a pats fwd _; exact ⟨a, by simp [lengthFwdLoop], fun _ _ => rfl⟩
  | cons l ls ih =>
    intro a pats fwd hls
    have hgne := grp_ne (hls l (by simp))
    have hgpos : ∀ b ∈ bagGrp L l, 1 ≤ b.count := fun b hb => h.pos b (mem_bagGrp.mp hb).1
    have hl0 : l ≠ 0 := by
      obtain ⟨b, hb, e⟩ := List.mem_map.mp (hls l (by simp))
      have := (h.len b hb).2; omega
    simp only [List.map_cons, lengthFwdLoop, lengthAsCluster_eq hgne hgpos, bind, Except.bind]
    by_cases has : asClu cfg.mcn ((bagGrp L l).map PieceBag.ent) = true
    · rw [if_pos has, preSeek_false _ _ hlev, lengthPattern_eq (r := r) (l := l) hgne hl0 (fun b hb => by
        obtain ⟨h1, h2⟩ := mem_bagGrp.mp hb
        exact ⟨(h.len b h1).1, h2, h.rule b h1⟩)]
      simp only [Bool.false_eq_true, if_false]
      obtain ⟨a', e, h2⟩ := ih (a.setBucket (bagGrp L l) (specStr r l)) pats (fwd ++ [bagGrp L l])
        (fun l' hl' => hls l' (by simp [hl']))
      refine ⟨a', by rw [e]; simp, ?_⟩
      intro x hx
      rw [h2 x hx, pattern_setBucket, if_neg]
      intro hm
      obtain ⟨b, hb, -, e'⟩ := mem_grp_pieces.mp hm
      exact hx b hb e'
    · rw [if_neg has]
      obtain ⟨a', e, h2⟩ := ih a pats (fwd ++ [bagGrp L l]) (fun l' hl' => hls l' (by simp [hl']))
      exact ⟨a', by rw [e]; simp, h2⟩

theorem fuzzySet_eq {Bs : List Bucket} {st : FuzzySt} (hne : Bs ≠ []) (hB : ∀ B ∈ Bs, B ≠ [] ∧ ∀ b ∈ B, b.pp.fuzzyRule = r)
    (hp : st.fuzzyPat = none ∨ st.fuzzyPat = some (specStr r (-1))) :
    ∃ a', fuzzySet Bs st = .ok { st with fuzzyPat := some (specStr r (-1)), assign := a' } ∧
      ∀ x, a'.pattern x = if x ∈ Bs.flatten.map PieceBag.piece then specStr r (-1) else st.assign.pattern x := by
  refine ⟨Bs.foldl (fun a b => a.setBucket b (specStr r (-1))) st.assign, ?_, fun x => pattern_setAll _ _ _ _⟩
  unfold fuzzySet
  rcases hp with hp | hp
  · cases Bs with
    | nil => exact absurd rfl hne
    | cons B Bs =>
      obtain ⟨h1, h2⟩ := hB B (by simp)
      cases B with
      | nil => exact absurd rfl h1
      | cons b B =>
        rw [hp]
        simp only [wildcardRule, specifyRule, h2 b (by simp), bind, Except.bind]
        rfl
  · rw [hp]; rfl

theorem fuzzyAdds_eq : ∀ (Bs : List Bucket) (st : FuzzySt), (∀ B ∈ Bs, B ≠ [] ∧ ∀ b ∈ B, b.pp.fuzzyRule = r) →
    (st.fuzzyPat = none ∨ st.fuzzyPat = some (specStr r (-1))) →
    st.force = decide ((st.cached.length : Int) ≥ mcn) →
    ∃ st' c w, fuzzyAdds mcn Bs st = .ok st' ∧ Bs = c ++ w ∧ st'.cached = st.cached ++ c ∧
      (st'.fuzzyPat = none ∨ st'.fuzzyPat = some (specStr r (-1))) ∧
      st'.force = decide ((st'.cached.length : Int) ≥ mcn) ∧ (st'.force = false → w = []) ∧
      (∀ x, x ∈ w.flatten.map PieceBag.piece → st'.assign.pattern x = specStr r (-1)) ∧
      (∀ x, x ∉ Bs.flatten.map PieceBag.piece → st'.assign.pattern x = st.assign.pattern x) := by
  intro Bs
  induction Bs with
  | nil => intro st _ hp hf; exact ⟨st, [], [], rfl, rfl, by simp, hp, hf, by simp, by simp, by simp⟩
  | cons B Bs ih =>
    intro st hB hp hf
    have hB' : ∀ B' ∈ Bs, B' ≠ [] ∧ ∀ b ∈ B', b.pp.fuzzyRule = r := fun B' h' => hB B' (by simp [h'])
    unfold fuzzyAdds
    by_cases hforce : st.force = true
    · rw [if_pos hforce]
      obtain ⟨a', e, ha'⟩ := fuzzySet_eq (r := r) (Bs := [B]) (st := st) (by simp) (by
        intro B' h'; exact hB B' (by simp at h'; simp [h'])) hp
      simp only [e, bind, Except.bind]
      obtain ⟨st', c, w, e1, e2, e3, h4, h5, h6, h7, h8⟩ := ih { st with fuzzyPat := some (specStr r (-1)), assign := a' }
        hB' (.inr rfl) hf
      -- everything later is set at once
      have hc : c = [] ∨ True := .inr trivial
      by_cases hc0 : c = []
      · subst hc0
        refine ⟨st', [], B :: w, e1, by simp [e2], e3, h4, h5, ?_, ?_, ?_⟩
        · intro hff
          have : st'.force = true := by
            rw [h5, decide_eq_true_eq, e3]
            have := hf.symm.trans hforce
            rw [decide_eq_true_eq] at this
            simpa using this
          rw [this] at hff; cases hff
        · intro x hx
          rw [List.flatten_cons, List.map_append, List.mem_append] at hx
          by_cases hw : x ∈ w.flatten.map PieceBag.piece
          · exact h7 x hw
          · rw [h8 x (by rw [e2]; simpa using hw), ha', if_pos]
            simpa using hx.resolve_right hw
        · intro x hx
          rw [List.flatten_cons, List.map_append, List.mem_append, not_or] at hx
          rw [h8 x hx.2, ha', if_neg]
          simpa using hx.1
      · exfalso
        -- with `force` nothing is cached any more
        have key : ∀ (Bs : List Bucket) (st st' : FuzzySt), st.force = true → fuzzyAdds mcn Bs st = .ok st' →
            st'.cached = st.cached := by
          intro Bs
          induction Bs with
          | nil => intro st st' _ e; simp [fuzzyAdds] at e; rw [e]
          | cons B Bs ih2 =>
            intro st st' hf e
            unfold fuzzyAdds at e
            rw [if_pos hf] at e
            cases hs : fuzzySet [B] st with
            | error e' => rw [hs] at e; simp [bind, Except.bind] at e
            | ok st2 =>
              rw [hs] at e
              simp only [bind, Except.bind] at e
              have hst2 : st2.force = st.force ∧ st2.cached = st.cached := by
                unfold fuzzySet at hs
                simp only [bind, Except.bind, pure, Except.pure] at hs
                repeat' split at hs
                all_goals first
                  | cases hs; done
                  | (injection hs with hs; subst hs; exact ⟨rfl, rfl⟩)
              rw [ih2 st2 st' (hst2.1.trans hf) e, hst2.2]
        have := key Bs { st with fuzzyPat := some (specStr r (-1)), assign := a' } st' hforce e1
        rw [e3] at this
        simp only [List.append_right_eq_self] at this
        exact hc0 this
    · rw [if_neg hforce]
      obtain ⟨st', c, w, e1, e2, e3, h4, h5, h6, h7, h8⟩ := ih
        { st with cached := st.cached ++ [B], force := decide (((st.cached ++ [B]).length : Int) ≥ mcn) } hB' hp rfl
      refine ⟨st', B :: c, w, e1, by simp [e2], by simp [e3], h4, h5, h6, h7, ?_⟩
      intro x hx
      rw [List.flatten_cons, List.map_append, List.mem_append, not_or] at hx
      exact h8 x hx.2

/-- Closed form of the length and fuzzy stages. -/
theorem lengthFuzzyStage_eq {rt : Runtime} {cfg : LevelCfg} (hlev : 1 ≤ cfg.level) (hm : 2 ≤ cfg.mcn) {st : LevelSt}
    (h : LenOK r st.toLength) (ha : ∀ b ∈ st.toLength, st.assign.pattern b.piece = b.piece) :
    ∃ a', lengthFuzzyStage rt cfg st = .ok { st with
        assign := a'
        patternNum := st.patternNum +
          (uniq (st.toLength.map (fun b => lenPat cfg.mcn (st.toLength.map PieceBag.ent) b.pp))).length } ∧
      (∀ b ∈ st.toLength, a'.pattern b.piece = lenPat cfg.mcn (st.toLength.map PieceBag.ent) b.pp) ∧
      (∀ x, (∀ b ∈ st.toLength, b.piece ≠ x) → a'.pattern x = st.assign.pattern x) := by
  generalize hL : st.toLength = L at *
  have hbnil : rt.buckets [] = [] := List.perm_nil.mp (rt.buckets_perm [])
  have hlb := lengthBuckets_eq L [] (fun b hb => (h.len b hb).1) (by simpa using h.nodup)
  rw [List.nil_append] at hlb
  have hg0 : groupBy PieceBag.len ([] : List PieceBag) = [] := rfl
  rw [hg0] at hlb
  have hbk : (groupBy PieceBag.len L).map (·.2) = (uniq (L.map PieceBag.len)).map (bagGrp L) := by
    rw [groupBy_eq, List.map_map]; rfl
  unfold lengthFuzzyStage
  rw [hL, hlb]
  simp only [bind, Except.bind, pure, Except.pure, hbk]
  by_cases hemp : L = []
  · subst hemp
    simp only [List.map_nil, uniq_nil, List.isEmpty_nil, if_true, fuzzyCluster, hbnil, Bool.false_eq_true, if_false, List.sum_nil,
      show (0 : Int) < cfg.mcn from by omega, fuzzyUpdate, List.flatMap_nil, patternSet, Option.toList_none,
      List.nil_append, List.length_nil, Nat.add_zero, List.foldl_nil, bind, Except.bind, pure, Except.pure]
    exact ⟨st.assign, rfl, by simp, by simp⟩
  · have hlne : uniq (L.map PieceBag.len) ≠ [] := by rw [Ne, uniq_eq_nil]; simpa using hemp
    have hmem : ∀ l ∈ uniq (L.map PieceBag.len), l ∈ L.map PieceBag.len := fun l hl => mem_uniq.mp hl
    have hbne : ((uniq (L.map PieceBag.len)).map (bagGrp L)).isEmpty = false := by
      cases hu : uniq (L.map PieceBag.len) with
      | nil => exact absurd hu hlne
      | cons l ls => rfl
    rw [hbne]
    simp only [Bool.false_eq_true, if_false]
    have hcounts : ((uniq (L.map PieceBag.len)).map (bagGrp L)).map Bucket.count =
        (lens (L.map PieceBag.ent)).map (fun l => cntE (lenGrp (L.map PieceBag.ent) l)) := by
      rw [lens_map, List.map_map]
      apply List.map_congr_left
      intro l _
      rw [lenGrp_map, cntE_map]; rfl
    have hcpos : ∀ x ∈ ((uniq (L.map PieceBag.len)).map (bagGrp L)).map Bucket.count, 0 ≤ x := by
      intro x hx
      obtain ⟨B, hB, rfl⟩ := List.mem_map.mp hx
      obtain ⟨l, hl, rfl⟩ := List.mem_map.mp hB
      unfold Bucket.count
      have : ∀ (M : List Int), (∀ c ∈ M, 0 ≤ c) → 0 ≤ M.sum := by
        intro M
        induction M with
        | nil => simp
        | cons c M ih =>
          intro hM
          have h1 := hM c (by simp)
          have h2 := ih (fun c hc => hM c (by simp [hc]))
          simp; omega
      apply this
      intro c hc
      obtain ⟨b, hb, rfl⟩ := List.mem_map.mp hc
      have := h.pos b (mem_bagGrp.mp hb).1
      omega
    have hsum : (((uniq (L.map PieceBag.len)).map (bagGrp L)).map Bucket.count).sum = cntE (L.map PieceBag.ent) := by
      have hp := perm_partition PieceBag.len L (uniq (L.map PieceBag.len)) (nodup_uniq _)
        (fun x hx => mem_uniq.mpr (List.mem_map.mpr ⟨x, hx, rfl⟩))
      have h2 := sum_perm (hp.map (fun b : PieceBag => b.count))
      rw [cntE_map]
      unfold Bucket.count at *
      rw [← h2]
      generalize uniq (L.map PieceBag.len) = ls
      clear h2 hp hcpos hcounts hbne hmem hlne hbk hlb
      induction ls with
      | nil => rfl
      | cons l ls ih =>
        simp only [List.map_cons, List.sum_cons, List.flatMap_cons, List.map_append, List.sum_append] at ih ⊢
        rw [ih]; rfl
    have hmaxc := maxCount_eq (l := ((uniq (L.map PieceBag.len)).map (bagGrp L)).map Bucket.count) (by
      intro e; rw [List.map_eq_nil_iff, List.map_eq_nil_iff] at e; exact hlne e) hcpos
    have hllen : ((uniq (L.map PieceBag.len)).map (bagGrp L)).length = (lens (L.map PieceBag.ent)).length := by
      rw [List.length_map, lens_map]
    have hgo : ∀ (X Y : Py LevelSt), (if ((((uniq (L.map PieceBag.len)).map (bagGrp L)).length : Nat) : Int) < cfg.mcn then
        (if (!confused (((uniq (L.map PieceBag.len)).map (bagGrp L)).map Bucket.count).sum
            (mx (((uniq (L.map PieceBag.len)).map (bagGrp L)).map Bucket.count)) cfg.mcn) = true
            then X else Y)
        else Y) = if lenStop cfg.mcn (L.map PieceBag.ent) = true then X else Y := by
      intro X Y
      rw [hsum, hllen, hcounts]
      unfold lenStop
      by_cases hlt : (((lens (L.map PieceBag.ent)).length : Nat) : Int) < cfg.mcn
      · rw [if_pos hlt]; simp [hlt]
      · rw [if_neg hlt]; simp [hlt]
    rw [hmaxc]
    simp only
    rw [hgo]
    clear hgo
    by_cases hs : lenStop cfg.mcn (L.map PieceBag.ent) = true
    · rw [if_pos hs]
      obtain ⟨a', pats', e, h1, h2, h3, h4⟩ := lengthStopLoop_eq (mcn := cfg.mcn) h (uniq (L.map PieceBag.len)) st.assign []
        (nodup_uniq _) hmem (fun b hb _ => ha b hb) List.nodup_nil
      rw [e]
      have hpat : ∀ b, lenPat cfg.mcn (L.map PieceBag.ent) b.pp = stopPat cfg.mcn L b := by
        intro b
        unfold lenPat stopPat
        rw [if_pos hs, lenGrp_map]; rfl
      have hml : ∀ b ∈ L, b.len ∈ uniq (L.map PieceBag.len) := fun b hb => mem_uniq.mpr (List.mem_map.mpr ⟨b, hb, rfl⟩)
      have hnum : pats'.length = (uniq (L.map (fun b => lenPat cfg.mcn (L.map PieceBag.ent) b.pp))).length := by
        apply length_uniq h3
        intro q
        rw [h4, List.mem_map]
        constructor
        · rintro (hq | ⟨b, hb, -, rfl⟩)
          · simp at hq
          · exact ⟨b, hb, hpat b⟩
        · rintro ⟨b, hb, rfl⟩
          exact .inr ⟨b, hb, hml b hb, hpat b⟩
      simp only [fuzzyCluster, hbnil, Bool.false_eq_true, if_false, List.sum_nil, List.map_nil,
        show (0 : Int) < cfg.mcn from by omega, if_true, fuzzyUpdate, List.flatMap_nil, patternSet, Option.toList_none,
        List.nil_append, List.length_nil, Nat.add_zero, List.foldl_nil, bind, Except.bind, pure, Except.pure, hnum]
      refine ⟨a', rfl, ?_, ?_⟩
      · intro b hb
        rw [hpat]; exact h1 b hb (hml b hb)
      · intro x hx
        exact h2 x (fun b hb _ => hx b hb)
    · rw [if_neg hs]
      obtain ⟨a1, e1, ha1⟩ := lengthFwdLoop_eq hlev h (uniq (L.map PieceBag.len)) st.assign [] [] hmem
      rw [e1]
      simp only [List.nil_append]
      have hBs : ∀ B ∈ (uniq (L.map PieceBag.len)).map (bagGrp L), B ≠ [] ∧ ∀ b ∈ B, b.pp.fuzzyRule = r := by
        intro B hB
        obtain ⟨l, hl, rfl⟩ := List.mem_map.mp hB
        exact ⟨grp_ne (hmem l hl), fun b hb => h.rule b (mem_bagGrp.mp hb).1⟩
      have hflat : ∀ x, x ∈ ((uniq (L.map PieceBag.len)).map (bagGrp L)).flatten.map PieceBag.piece ↔ ∃ b ∈ L, b.piece = x := by
        intro x
        rw [List.mem_map]
        constructor
        · rintro ⟨b, hb, rfl⟩
          obtain ⟨B, hB, hb⟩ := List.mem_flatten.mp hb
          obtain ⟨l, hl, rfl⟩ := List.mem_map.mp hB
          exact ⟨b, (mem_bagGrp.mp hb).1, rfl⟩
        · rintro ⟨b, hb, rfl⟩
          exact ⟨b, List.mem_flatten.mpr ⟨_, List.mem_map.mpr ⟨b.len, mem_uniq.mpr (List.mem_map.mpr ⟨b, hb, rfl⟩), rfl⟩,
            mem_bagGrp.mpr ⟨hb, rfl⟩⟩, rfl⟩
      obtain ⟨st', c, w, e2, hcw, hcache, hfp, hforce, hnf, hset, hout⟩ := fuzzyAdds_eq (r := r) (mcn := cfg.mcn)
        ((uniq (L.map PieceBag.len)).map (bagGrp L)) ⟨a1, [], false, none⟩ hBs (.inl rfl) (by
          simp only [List.length_nil]
          exact (decide_eq_false (by omega)).symm)
      rw [e2]
      simp only [List.nil_append] at hcache ⊢
      have hwild : ∀ b ∈ L, lenPat cfg.mcn (L.map PieceBag.ent) b.pp = specStr r (-1) := by
        intro b hb
        unfold lenPat
        rw [if_neg hs, h.rule b hb]
      have hnum : (uniq (L.map (fun b => lenPat cfg.mcn (L.map PieceBag.ent) b.pp))).length = 1 := by
        rw [List.map_congr_left hwild]
        have : (uniq (L.map (fun _ => specStr r (-1)))).length = [specStr r (-1)].length := by
          symm
          apply length_uniq (by simp)
          intro q
          simp only [List.mem_singleton, List.mem_map]
          constructor
          · rintro rfl
            cases L with
            | nil => exact absurd rfl hemp
            | cons b _ => exact ⟨b, by simp, rfl⟩
          · rintro ⟨_, _, e⟩; exact e.symm
        simpa using this
      have hcached : st'.cached ≠ [] := by
        rw [hcache]
        intro hc
        have hf : st'.force = false := by
          rw [hforce, hcache, hc]
          exact decide_eq_false (by simp only [List.length_nil]; omega)
        have := hnf hf
        rw [hc, this] at hcw
        simp only [List.append_nil, List.map_eq_nil_iff] at hcw
        exact hlne hcw
      have hcB : ∀ B ∈ st'.cached, B ≠ [] ∧ ∀ b ∈ B, b.pp.fuzzyRule = r := by
        intro B hB
        rw [hcache] at hB
        exact hBs B (by rw [hcw]; simp [hB])
      have hperm := rt.buckets_perm st'.cached
      have hcached' : rt.buckets st'.cached ≠ [] := by
        intro e
        rw [e] at hperm
        exact hcached (List.nil_perm.mp hperm)
      obtain ⟨a', e3, ha'⟩ := fuzzySet_eq (r := r) (st := { st' with cached := rt.buckets st'.cached }) hcached'
        (fun B hB => hcB B (hperm.mem_iff.mp hB)) hfp
      have hpm : ∀ x, x ∈ (rt.buckets st'.cached).flatten.map PieceBag.piece ↔ x ∈ st'.cached.flatten.map PieceBag.piece :=
        fun x => (hperm.flatten.map _).mem_iff
      simp only [hpm] at ha'
      have hend : ∀ b ∈ L, a'.pattern b.piece = specStr r (-1) := by
        intro b hb
        rw [ha']
        by_cases hm : b.piece ∈ st'.cached.flatten.map PieceBag.piece
        · rw [if_pos hm]
        · rw [if_neg hm]
          apply hset
          have := (hflat b.piece).mpr ⟨b, hb, rfl⟩
          rw [hcw, List.flatten_append, List.map_append, List.mem_append] at this
          rw [hcache] at hm
          exact this.resolve_left hm
      have hrest : ∀ x, (∀ b ∈ L, b.piece ≠ x) → a'.pattern x = st.assign.pattern x := by
        intro x hx
        have hnx : x ∉ ((uniq (L.map PieceBag.len)).map (bagGrp L)).flatten.map PieceBag.piece := by
          intro hm
          obtain ⟨b, hb, e⟩ := (hflat x).mp hm
          exact hx b hb e
        rw [ha', if_neg, hout x hnx]
        · exact ha1 x hx
        · intro hm
          apply hnx
          rw [hcw, List.flatten_append, List.map_append, List.mem_append]
          rw [hcache] at hm
          exact .inl hm
      unfold fuzzyCluster
      by_cases hf : st'.force = true
      · rw [if_pos hf]
        simp only [e3, bind, Except.bind, pure, Except.pure, Option.toList_some, List.length_singleton, List.length_nil,
          Nat.add_zero]
        refine ⟨a', by rw [hnum], ?_, hrest⟩
        intro b hb; rw [hwild b hb]; exact hend b hb
      · rw [if_neg hf]
        have hf' : st'.force = false := by simpa using hf
        have hw := hnf hf'
        rw [hw, List.append_nil] at hcw
        rw [← hcw] at hcache
        have hlt : (((uniq (L.map PieceBag.len)).map (bagGrp L)).length : Int) < cfg.mcn := by
          rw [hforce, hcache, decide_eq_false_iff_not] at hf'
          omega
        have hconf : confused (cntE (L.map PieceBag.ent)) (mx ((lens (L.map PieceBag.ent)).map
            (fun l => cntE (lenGrp (L.map PieceBag.ent) l)))) cfg.mcn = true := by
          unfold lenStop at hs
          rw [hllen] at hlt
          simpa [hlt] using hs
        have htot : ¬ cntE (L.map PieceBag.ent) < cfg.mcn := by
          intro hlt'
          unfold confused at hconf
          rw [if_pos hlt'] at hconf
          cases hconf
        rw [← hcounts] at hconf
        rw [hcache] at hperm
        have hpc := hperm.map Bucket.count
        have hmaxc' := maxCount_eq (l := (rt.buckets ((uniq (L.map PieceBag.len)).map (bagGrp L))).map Bucket.count) (by
          intro e; rw [List.map_eq_nil_iff] at e; rw [hcache] at hcached'; exact hcached' e)
          (fun x hx => hcpos x (hpc.mem_iff.mp hx))
        rw [mx_perm hpc] at hmaxc'
        have hsum' := (sum_perm hpc).trans hsum
        rw [hcache] at e3 ⊢
        simp only [hsum', if_neg htot, hmaxc', bind, Except.bind, hconf, if_true, pure, Except.pure]
        simp only [e3, Option.toList_some, List.length_singleton, List.length_nil, Nat.add_zero]
        refine ⟨a', by rw [hnum], ?_, hrest⟩
        intro b hb; rw [hwild b hb]; exact hend b hb

end stages

end OsUrl
