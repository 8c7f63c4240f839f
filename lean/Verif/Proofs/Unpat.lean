import Verif.Proofs.Clu2

/-! Trees without their patterns: what `make()` does to the tree of a maker. -/

namespace OsUrl

/-- A node without its pattern. -/
def NodeData.unpat (d : NodeData) : NodeData := { d with pat := none }

/-- A forest without its patterns. -/
def Forest.unpat : Forest NodeData → Forest NodeData
  | .nil => .nil
  | .cons k d kids sibs => .cons k d.unpat (Forest.unpat kids) (Forest.unpat sibs)

/-- A tree without its patterns. -/
def Tree.unpat (t : Tree NodeData) : Tree NodeData := ⟨t.root.unpat, t.kids.unpat⟩

/-- A maker without the patterns of its tree. -/
def MakerSt.unpat (st : MakerSt) : MakerSt := { st with tree := st.tree.unpat }

/-- All sub-makers without patterns. -/
def PatternMakerSt.unpat (st : PatternMakerSt) : PatternMakerSt := st.map (fun kv => (kv.1, kv.2.unpat))

theorem annotate_unpat (asg : List (List Str × Str)) : (f : Forest NodeData) → (pre : List Str) → (annotate asg pre f).unpat = f.unpat
  | .nil, _ => rfl
  | .cons k d kids sibs, pre => by
    rw [annotate, Forest.unpat, Forest.unpat, annotate_unpat asg kids, annotate_unpat asg sibs]
    rfl

/-- **`process` changes only patterns.** -/
theorem process_unpat {rt : Runtime} {nested : NestedCluster} {mcn : Int} {m : URLMeta} {kw : Bool} {t t' : Tree NodeData} {b : Bool}
    (h : process rt nested mcn m kw t = .ok (t', b)) : t'.unpat = t.unpat := by
  unfold process at h
  simp only [bind, Except.bind, pure, Except.pure] at h
  split at h
  · cases h
  · simp only [Except.ok.injEq, Prod.mk.injEq] at h
    rw [← h.1, Tree.unpat, Tree.unpat, annotate_unpat]
    rfl

theorem makerAfter_unpat {h : Runtime} {mcn : Int} {st st' : MakerSt} (e : st.after h mcn = .ok st') : st'.unpat = st.unpat := by
  unfold MakerSt.after at e
  split at e
  · injection e with e; rw [e]
  · simp only [bind, Except.bind, pure, Except.pure] at e
    split at e
    · cases e
    · rename_i r hr
      injection e with e
      rw [← e]
      unfold MakerSt.unpat
      simp only
      rw [process_unpat (b := r.2) hr]

/-! ### Loading -/

theorem upsert_unpat {k : Str} {init : NodeData} {g : NodeData → Forest NodeData → NodeData × Forest NodeData}
    (hi : init.unpat = init) (hg : ∀ d f, ((g d f).1.unpat, (g d f).2.unpat) = g d.unpat f.unpat) :
    (f : Forest NodeData) → (f.upsert k init g).unpat = f.unpat.upsert k init g
  | .nil => by
    have := hg init .nil
    rw [hi] at this
    have h1 := congrArg Prod.fst this
    have h2 := congrArg Prod.snd this
    simp only [Forest.upsert, Forest.unpat] at h1 h2 ⊢
    rw [h1, h2]
  | .cons k' d kids sibs => by
    simp only [Forest.upsert, Forest.unpat]
    split
    · rw [← hg d kids]; rfl
    · rw [Forest.unpat, upsert_unpat hi hg sibs]

theorem modify_unpat {k : Str} {g : NodeData → Forest NodeData → NodeData × Forest NodeData}
    (hg : ∀ d f, ((g d f).1.unpat, (g d f).2.unpat) = g d.unpat f.unpat) :
    (f : Forest NodeData) → (f.modify k g).unpat = f.unpat.modify k g
  | .nil => rfl
  | .cons k' d kids sibs => by
    simp only [Forest.modify, Forest.unpat]
    split
    · rw [← hg d kids]; rfl
    · rw [Forest.unpat, modify_unpat hg sibs]

theorem get?_unpat (k : Str) : (f : Forest NodeData) → f.unpat.get? k = (f.get? k).map (fun x => (x.1.unpat, x.2.unpat))
  | .nil => rfl
  | .cons k' d kids sibs => by
    simp only [Forest.get?, Forest.unpat]
    split
    · rfl
    · exact get?_unpat k sibs

theorem buildPath_unpat (count : Int) {fin : NodeData → NodeData} (hf : ∀ d, (fin d).unpat = fin d.unpat) (pps : List ParsedPiece) (d : NodeData) (f : Forest NodeData) :
    ((buildPath count fin (pps.map (fun pp => (pp, none))) d f).1.unpat, (buildPath count fin (pps.map (fun pp => (pp, none))) d f).2.unpat) =
      buildPath count fin (pps.map (fun pp => (pp, none))) d.unpat f.unpat := by
  induction pps generalizing d f with
  | nil => simp only [List.map_nil, buildPath, hf]; rfl
  | cons p ps ih =>
    simp only [List.map_cons, buildPath]
    rw [upsert_unpat rfl ih]
    rfl

theorem incrPath_unpat (count : Int) (ks : List Str) (d : NodeData) (f : Forest NodeData) :
    ((incrPath count ks d f).1.unpat, (incrPath count ks d f).2.unpat) = incrPath count ks d.unpat f.unpat := by
  induction ks generalizing d f with
  | nil => rfl
  | cons k ks ih =>
    simp only [incrPath]
    rw [modify_unpat ih]
    rfl

theorem isNewPath_unpat (ks : List Str) (f : Forest NodeData) : isNewPath ks f.unpat = isNewPath ks f := by
  induction ks generalizing f with
  | nil => rfl
  | cons k ks ih =>
    cases ks with
    | nil => simp only [isNewPath]; rw [get?_unpat]; simp
    | cons k' ks =>
      simp only [isNewPath]
      rw [get?_unpat]
      cases f.get? k with
      | none => rfl
      | some x => exact ih x.2

theorem addMeta_unpat (md : Option Str) (d : NodeData) : (d.addMeta md).unpat = d.unpat.addMeta md := by
  cases md <;> rfl

theorem buildFrom_eq (t : Tree NodeData) (p : ParsedPiece) (ps : List ParsedPiece) (md : Option Str) :
    buildFromParsedPieces t (p :: ps) 1 md true =
      .ok (⟨((if (!isNewPath ((p :: ps).map (·.piece)) t.kids) = true then
          incrPath (0 - 1) ((p :: ps).map (·.piece)) (buildPath 1 (·.addMeta md) ((p :: ps).map (fun pp => (pp, none))) t.root t.kids).1
            (buildPath 1 (·.addMeta md) ((p :: ps).map (fun pp => (pp, none))) t.root t.kids).2
        else buildPath 1 (·.addMeta md) ((p :: ps).map (fun pp => (pp, none))) t.root t.kids)).1,
        ((if (!isNewPath ((p :: ps).map (·.piece)) t.kids) = true then
          incrPath (0 - 1) ((p :: ps).map (·.piece)) (buildPath 1 (·.addMeta md) ((p :: ps).map (fun pp => (pp, none))) t.root t.kids).1
            (buildPath 1 (·.addMeta md) ((p :: ps).map (fun pp => (pp, none))) t.root t.kids).2
        else buildPath 1 (·.addMeta md) ((p :: ps).map (fun pp => (pp, none))) t.root t.kids)).2⟩,
        isNewPath ((p :: ps).map (·.piece)) t.kids) := rfl

theorem buildFrom_unpat (t : Tree NodeData) (pps : List ParsedPiece) (md : Option Str) :
    buildFromParsedPieces t.unpat pps 1 md true = (buildFromParsedPieces t pps 1 md true).map (fun r => (r.1.unpat, r.2)) := by
  cases pps with
  | nil => rfl
  | cons p ps =>
    have h1 : _ = buildPath 1 (·.addMeta md) ((p :: ps).map (fun pp => (pp, none))) t.unpat.root t.unpat.kids :=
      buildPath_unpat 1 (addMeta_unpat md) (p :: ps) t.root t.kids
    have h2 : isNewPath ((p :: ps).map (·.piece)) t.unpat.kids = _ := isNewPath_unpat ((p :: ps).map (·.piece)) t.kids
    rw [buildFrom_eq, buildFrom_eq, h2, ← h1]
    cases hb : isNewPath ((p :: ps).map (·.piece)) t.kids with
    | true => rfl
    | false =>
      have h3 := incrPath_unpat (0 - 1) ((p :: ps).map (·.piece))
        (buildPath 1 (·.addMeta md) ((p :: ps).map (fun pp => (pp, none))) t.root t.kids).1
        (buildPath 1 (·.addMeta md) ((p :: ps).map (fun pp => (pp, none))) t.root t.kids).2
      have e1 := congrArg Prod.fst h3
      have e2 := congrArg Prod.snd h3
      simp only [Bool.not_false, if_true, Except.map, Tree.unpat] at e1 e2 ⊢
      rw [← e1, ← e2]

theorem makerLoad_unpat (st : MakerSt) (pps : List ParsedPiece) (md : Option Str) :
    st.unpat.load pps md = (st.load pps md).map (fun r => (r.1.unpat, r.2)) := by
  unfold MakerSt.load MakerSt.unpat
  rw [buildFrom_unpat]
  cases buildFromParsedPieces st.tree pps 1 md true <;> rfl

theorem dict_get?_map {κ α β : Type} [DecidableEq κ] (f : α → β) (k : κ) (d : Dict κ α) :
    Dict.get? k (d.map (fun kv => (kv.1, f kv.2))) = (Dict.get? k d).map f := by
  induction d with
  | nil => rfl
  | cons x xs ih =>
    obtain ⟨k', a⟩ := x
    simp only [List.map_cons, Dict.get?]
    by_cases e : k' = k
    · rw [if_pos e, if_pos e]; rfl
    · rw [if_neg e, if_neg e]; exact ih

theorem dict_upd_map {κ α β : Type} [DecidableEq κ] (f : α → β) (k : κ) (a : α) (d : Dict κ α) :
    Dict.upd k (fun _ => f a) (d.map (fun kv => (kv.1, f kv.2))) = (Dict.upd k (fun _ => a) d).map (fun kv => (kv.1, f kv.2)) := by
  induction d with
  | nil => rfl
  | cons x xs ih =>
    obtain ⟨k', b⟩ := x
    simp only [List.map_cons, Dict.upd]
    by_cases e : k' = k
    · rw [if_pos e, if_pos e]; rfl
    · rw [if_neg e, if_neg e, ih]; rfl

/-- Loading does not see patterns. -/
theorem load_unpat (md5 : Str → Str) (st : PatternMakerSt) (u : Str) (md : Option Str) :
    st.unpat.load md5 u md = (st.load md5 u md).map (fun r => (r.1.unpat, r.2)) := by
  unfold PatternMakerSt.load
  cases hp : parse u with
  | error e => rfl
  | ok r =>
    obtain ⟨m, parsed⟩ := r
    cases parsed with
    | patterns ps => rfl
    | pieces pps =>
      simp only [bind, Except.bind, pure, Except.pure]
      have e : (Dict.get? (fuzzyDigest md5 m (.pieces pps)) st.unpat).getD (MakerSt.new m) =
          ((Dict.get? (fuzzyDigest md5 m (.pieces pps)) st).getD (MakerSt.new m)).unpat := by
        unfold PatternMakerSt.unpat
        rw [dict_get?_map]
        cases Dict.get? (fuzzyDigest md5 m (.pieces pps)) st <;> rfl
      rw [e, makerLoad_unpat]
      cases ((Dict.get? (fuzzyDigest md5 m (.pieces pps)) st).getD (MakerSt.new m)).load pps md with
      | error e => rfl
      | ok r =>
        simp only [Except.map, PatternMakerSt.unpat]
        rw [dict_upd_map]

/-! ### Putting patterns back -/

/-- Sibling keys are distinct everywhere. -/
def Forest.Distinct : Forest NodeData → Prop
  | .nil => True
  | .cons k _ kids sibs => k ∉ sibs.children.map (·.1) ∧ Forest.Distinct kids ∧ Forest.Distinct sibs

/-- The nodes with their paths. -/
def Forest.nodes : List Str → Forest NodeData → List (List Str × NodeData)
  | _, .nil => []
  | pre, .cons k d kids sibs => (pre ++ [k], d) :: (Forest.nodes (pre ++ [k]) kids ++ Forest.nodes pre sibs)

theorem unpat_keys : (f : Forest NodeData) → f.unpat.children.map (·.1) = f.children.map (·.1)
  | .nil => rfl
  | .cons k d kids sibs => by simp only [Forest.unpat, Forest.children, List.map_cons, unpat_keys sibs]

theorem distinct_unpat : (f : Forest NodeData) → f.unpat.Distinct → f.Distinct
  | .nil, _ => trivial
  | .cons k d kids sibs, h => by
    simp only [Forest.unpat, Forest.Distinct] at h ⊢
    rw [unpat_keys] at h
    exact ⟨h.1, distinct_unpat kids h.2.1, distinct_unpat sibs h.2.2⟩

theorem distinct_ofList (l : List (Str × NodeData × Forest NodeData)) (h1 : (l.map (·.1)).Nodup) (h2 : ∀ x ∈ l, x.2.2.Distinct) :
    (Forest.ofList l).Distinct := by
  induction l with
  | nil => trivial
  | cons x xs ih =>
    obtain ⟨k, d, kids⟩ := x
    simp only [List.map_cons, List.nodup_cons] at h1
    simp only [Forest.ofList, Forest.Distinct, Forest.children_ofList]
    exact ⟨h1.1, h2 (k, d, kids) (by simp), ih h1.2 (fun x hx => h2 x (by simp [hx]))⟩

theorem grow_distinct (n : Nat) (L : List Ins) : (grow n L).Distinct := by
  induction n generalizing L with
  | zero => trivial
  | succ n ih =>
    rw [grow]
    apply distinct_ofList
    · rw [groupBy_eq, List.map_map, List.map_map]
      have : (uniq (L.map Ins.key)).map id = uniq (L.map Ins.key) := List.map_id _
      have h := nodup_uniq (L.map Ins.key)
      rw [← this] at h
      exact h
    · intro x hx
      obtain ⟨kg, -, rfl⟩ := List.mem_map.mp hx
      exact ih _

theorem nodes_prefix : (f : Forest NodeData) → (pre : List Str) → ∀ e ∈ Forest.nodes pre f, ∃ k ∈ f.children.map (·.1), (pre ++ [k]) <+: e.1
  | .nil, _ => by simp [Forest.nodes]
  | .cons k d kids sibs, pre => by
    intro e he
    simp only [Forest.nodes, List.mem_cons, List.mem_append] at he
    simp only [Forest.children, List.map_cons]
    rcases he with rfl | he | he
    · exact ⟨k, by simp, List.prefix_refl _⟩
    · obtain ⟨k', -, h⟩ := nodes_prefix kids _ e he
      exact ⟨k, by simp, (List.prefix_append _ _).trans h⟩
    · obtain ⟨k', hk, h⟩ := nodes_prefix sibs _ e he
      exact ⟨k', by simp [hk], h⟩

theorem prefix_key {pre p : List Str} {k k' : Str} (h : (pre ++ [k]) <+: p) (h' : (pre ++ [k']) <+: p) : k = k' := by
  obtain ⟨a, rfl⟩ := h
  obtain ⟨b, e⟩ := h'
  rw [List.append_assoc, List.append_assoc] at e
  have := List.append_cancel_left e
  simp at this
  exact this.1.symm

theorem nodes_nodup : (f : Forest NodeData) → (pre : List Str) → f.Distinct → ((Forest.nodes pre f).map (·.1)).Nodup
  | .nil, _, _ => List.nodup_nil
  | .cons k d kids sibs, pre, h => by
    simp only [Forest.Distinct] at h
    simp only [Forest.nodes, List.map_cons, List.map_append, List.nodup_cons, List.nodup_append, List.mem_append]
    refine ⟨?_, nodes_nodup kids _ h.2.1, nodes_nodup sibs _ h.2.2, ?_⟩
    · rintro (hm | hm)
      · obtain ⟨e, he, e1⟩ := List.mem_map.mp hm
        obtain ⟨k', -, hp⟩ := nodes_prefix kids _ e he
        rw [e1] at hp
        have := hp.length_le
        simp at this
      · obtain ⟨e, he, e1⟩ := List.mem_map.mp hm
        obtain ⟨k', hk, hp⟩ := nodes_prefix sibs _ e he
        rw [e1] at hp
        have := prefix_key (List.prefix_refl _) hp
        rw [this] at h
        exact h.1 hk
    · intro a ha b hb e
      obtain ⟨x, hx, rfl⟩ := List.mem_map.mp ha
      obtain ⟨y, hy, rfl⟩ := List.mem_map.mp hb
      obtain ⟨k1, -, h1⟩ := nodes_prefix kids _ x hx
      obtain ⟨k2, hk, h2⟩ := nodes_prefix sibs _ y hy
      have := prefix_key ((List.prefix_append _ _).trans h1) (e ▸ h2)
      rw [this] at h
      exact h.1 hk

theorem annotate_back (asg : List (List Str × Str)) : (f : Forest NodeData) → (pre : List Str) →
    (∀ e ∈ Forest.nodes pre f, Dict.get? e.1 asg = e.2.pat) → annotate asg pre f.unpat = f
  | .nil, _, _ => rfl
  | .cons k d kids sibs, pre, h => by
    simp only [Forest.nodes, List.mem_cons, List.mem_append] at h
    rw [Forest.unpat, annotate, annotate_back asg kids _ (fun e he => h e (.inr (.inl he))),
      annotate_back asg sibs _ (fun e he => h e (.inr (.inr he))), h _ (.inl rfl)]
    congr 1
    obtain ⟨pp, pat, c, ms⟩ := d
    simp [NodeData.unpat]

theorem get?_pats (l : List (List Str × NodeData)) (h : (l.map (·.1)).Nodup) :
    ∀ e ∈ l, Dict.get? e.1 (l.filterMap (fun e => e.2.pat.map (fun q => (e.1, q)))) = e.2.pat := by
  have none_of : ∀ (l : List (List Str × NodeData)) (p : List Str), p ∉ l.map (·.1) →
      Dict.get? p (l.filterMap (fun e => e.2.pat.map (fun q => (e.1, q)))) = none := by
    intro l p hp
    rw [Dict.get?_none]
    intro hm
    obtain ⟨x, hx, e⟩ := List.mem_map.mp hm
    obtain ⟨y, hy, e2⟩ := List.mem_filterMap.mp hx
    cases hq : y.2.pat with
    | none => rw [hq] at e2; cases e2
    | some q =>
      rw [hq] at e2
      simp only [Option.map_some, Option.some.injEq] at e2
      rw [← e2] at e
      exact hp (List.mem_map.mpr ⟨y, hy, e⟩)
  induction l with
  | nil => intro e he; cases he
  | cons x xs ih =>
    intro e he
    simp only [List.map_cons, List.nodup_cons] at h
    simp only [List.mem_cons] at he
    rw [List.filterMap_cons]
    rcases he with rfl | he
    · cases hq : e.2.pat with
      | none => simp only [Option.map_none]; exact none_of _ _ h.1
      | some q => simp [Dict.get?]
    · have hne : x.1 ≠ e.1 := fun e' => h.1 (e' ▸ List.mem_map_of_mem he)
      cases hq : x.2.pat with
      | none => simp only [Option.map_none]; exact ih h.2 e he
      | some q =>
        simp only [Option.map_some, Dict.get?]
        rw [if_neg hne]
        exact ih h.2 e he

/-- A tree that is a grown tree up to patterns is grown from rows that have patterns. -/
theorem grow_back {n : Nat} {L : List Ins} (hL : ∀ x ∈ L, x.path.length = n) {f : Forest NodeData} (h : f.unpat = grow n L) :
    ∃ A : List Str → Option Str, f = grow n (L.map (Ins.repat A [])) := by
  have hd : f.Distinct := distinct_unpat f (h ▸ grow_distinct n L)
  have h1 := annotate_back _ f [] (get?_pats _ (nodes_nodup f [] hd))
  rw [h, annotate_grow _ n [] L hL] at h1
  exact ⟨_, h1.symm⟩

theorem list_ext_pairs {α β : Type} {l l' : List (α × β)} (h1 : l.map (·.1) = l'.map (·.1)) (h2 : l.map (·.2) = l'.map (·.2)) : l = l' := by
  rw [← List.zip_unzip l, ← List.zip_unzip l', List.unzip_eq_map, List.unzip_eq_map, h1, h2]

/-- The tree of the rows `L` with the pattern `q` at the root. -/
def rootTree (q : Option Str) (n : Nat) (L : List Ins) : Tree NodeData := ⟨{ (growTree n L).root with pat := q }, grow n L⟩

theorem procLevel_root {rt : Runtime} {nested : NestedCluster} {mcn : Int} {m : URLMeta} {kw : Bool} (rem : Nat) (a : PNode) (hp : a.data.pp.piece = [])
    (hc : 1 ≤ a.data.count) (hmcn : 2 ≤ mcn) :
    procLevel rt nested mcn m kw (rem + 1) 0 [a] =
      (procLevel rt nested mcn m kw rem 1 (childNodes a)).map (fun r => ((a.path, []) :: r.1, r.2)) := by
  have hb : rt.bucket [a] = [⟨a, []⟩] := rtBucket_one rt a
  have hbc : (⟨a, []⟩ : PieceBag).count = a.data.count := by
    simp only [PieceBag.count, PieceBag.nodes, List.map_cons, List.map_nil, List.sum_cons, List.sum_nil]
    omega
  have hbp : (⟨a, []⟩ : PieceBag).piece = [] := hp
  have hstage : processStages rt nested ⟨mcn, 0, false, m.pathDepth == 0, kw⟩ [⟨a, []⟩] =
      .ok (literalAll [⟨a, []⟩] ⟨[], 0, [], [], [], []⟩) := by
    apply stages_literal (by show 1 ≤ mcn; omega)
    unfold pieceStage
    simp only [List.isEmpty_cons, Bool.false_eq_true, if_false, false_and, List.length_cons, List.length_nil]
    rw [if_pos (by show ((0 + 1 : Nat) : Int) < mcn; omega)]
    simp only [List.map_cons, List.map_nil, maxCount, List.foldl_nil, bind, Except.bind, pure, Except.pure, Bucket.count,
      List.sum_cons, List.sum_nil, hbc, Int.add_zero]
    rw [confused_self _ _ hc hmcn]
    rfl
  have hpat : (literalAll [⟨a, []⟩] ⟨[], 0, [], [], [], []⟩).assign.pattern [] = [] := by
    unfold literalAll
    exact set_pattern_self _ _ _ rfl
  have hnum : ¬ (literalAll [⟨a, []⟩] ⟨[], 0, [], [], [], []⟩).patternNum > 1 := by
    simp [literalAll, patternSet, setAdd]
  conv => lhs; unfold procLevel
  simp only [hb, hstage, bind, Except.bind, pure, Except.pure, List.flatMap_cons, List.flatMap_nil, PieceBag.nodes,
    List.append_nil, List.map_cons, List.map_nil, groupBy, List.foldl_cons, List.foldl_nil, Dict.upd,
    Option.getD_none, List.nil_append, List.mapM_cons, List.mapM_nil, Nat.zero_add]
  cases procLevel rt nested mcn m kw rem 1 (childNodes a) with
  | error e => rfl
  | ok r =>
    simp only [List.flatMap_cons, List.flatMap_nil, List.append_nil, hnum, if_false, hp, hpat]
    rfl

theorem process_rootTree {rt : Runtime} {nested : NestedCluster} {mcn : Int} {m : URLMeta} {kw : Bool} {n : Nat} (hmcn : 2 ≤ mcn) (hd : m.depth = n + 1)
    {L : List Ins} (hc : 1 ≤ (growTree (n + 1) L).root.count) (q : Option Str) :
    process rt nested mcn m kw (rootTree q (n + 1) L) = process rt nested mcn m kw (growTree (n + 1) L) := by
  have hpp : (growTree (n + 1) L).root.pp.piece = [] := by rw [growTree_root_pp]; rfl
  have h1 := procLevel_root (rt := rt) (nested := nested) (mcn := mcn) (m := m) (kw := kw) n ⟨[], (rootTree q (n + 1) L).root, grow (n + 1) L, none⟩ hpp hc hmcn
  have h2 := procLevel_root (rt := rt) (nested := nested) (mcn := mcn) (m := m) (kw := kw) n ⟨[], (growTree (n + 1) L).root, grow (n + 1) L, none⟩ hpp hc hmcn
  have hch : childNodes ⟨[], (rootTree q (n + 1) L).root, grow (n + 1) L, none⟩ = childNodes ⟨[], (growTree (n + 1) L).root, grow (n + 1) L, none⟩ := rfl
  rw [hch] at h1
  unfold process
  rw [hd]
  have e1 : (rootTree q (n + 1) L).kids = grow (n + 1) L := rfl
  have e2 : (growTree (n + 1) L).kids = grow (n + 1) L := rfl
  rw [e1, e2, h1, h2]
  cases procLevel rt nested mcn m kw n 1 (childNodes ⟨[], (growTree (n + 1) L).root, grow (n + 1) L, none⟩) with
  | error e => rfl
  | ok r =>
    simp only [Except.map, bind, Except.bind, pure, Except.pure]
    rfl

theorem RowsOK.map {OK : Nat → List ParsedPiece → Prop} {n : Nat} {S : List Ins} {f : Ins → Ins} (h : RowsOK OK n S)
    (hf : ∀ x ∈ S, SameRow (f x) x) : RowsOK OK n (S.map f) where
  len y hy := by
    obtain ⟨x, hx, rfl⟩ := List.mem_map.mp hy
    have := congrArg List.length (hf x hx).1
    simp only [List.length_map] at this
    rw [this, h.len x hx]
  pos y hy := by
    obtain ⟨x, hx, rfl⟩ := List.mem_map.mp hy
    rw [(hf x hx).2]; exact h.pos x hx
  ok j hj := by
    have : (S.map f).map (Ins.pp j) = S.map (Ins.pp j) := by
      rw [List.map_map]; exact List.map_congr_left (fun x hx => (hf x hx).pp j)
    rw [this]; exact h.ok j hj
  inj j hj y hy z hz := by
    obtain ⟨x, hx, rfl⟩ := List.mem_map.mp hy
    obtain ⟨w, hw, rfl⟩ := List.mem_map.mp hz
    rw [(hf x hx).pp j, (hf w hw).pp j]
    exact h.inj j hj x hx w hw

/-- The patterns of the rows do not matter to `process`. -/
theorem process_rows {rt : Runtime} {nested : NestedCluster} {mcn : Int} {m : URLMeta} {kw : Bool} {n : Nat}
    {OK : Nat → List ParsedPiece → Prop} {F : LevelFn} (hL : LevelOK rt nested mcn m kw (n + 1) OK F) (hmcn : 2 ≤ mcn) (hd : m.depth = n + 1)
    {L : List Ins} (hS : RowsOK OK (n + 1) L) (hne : L ≠ []) (A : List Str → Option Str) :
    process rt nested mcn m kw (growTree (n + 1) (L.map (Ins.repat A []))) = process rt nested mcn m kw (growTree (n + 1) L) := by
  have hsame : ∀ x ∈ L, SameRow (x.repat A []) x := fun x _ => repat_same A [] x
  have hS' : RowsOK OK (n + 1) (L.map (Ins.repat A [])) := hS.map hsame
  obtain ⟨f, b, h1, h2, h3⟩ := process_spec hL hmcn hd hS hne
  obtain ⟨f', b', h1', h2', h3'⟩ := process_spec hL hmcn hd hS' (by simpa using hne)
  have hlab : ∀ x, labs F (n + 1) 0 (L.map (Ins.repat A [])) (x.repat A []) = labs F (n + 1) 0 L x := fun x => labs_map hsame (repat_same A [] x)
  rw [h1, h1']
  have hb : b' = b := by
    rw [Bool.eq_iff_iff, h3, h3']
    constructor
    · rintro ⟨x', hx', y', hy', hne'⟩
      obtain ⟨x, hx, rfl⟩ := List.mem_map.mp hx'
      obtain ⟨y, hy, rfl⟩ := List.mem_map.mp hy'
      rw [hlab, hlab] at hne'
      exact ⟨x, hx, y, hy, hne'⟩
    · rintro ⟨x, hx, y, hy, hne'⟩
      exact ⟨_, List.mem_map_of_mem hx, _, List.mem_map_of_mem hy, by rw [hlab, hlab]; exact hne'⟩
  have hf : (L.map (Ins.repat A [])).map f' = L.map f := by
    rw [List.map_map]
    apply List.map_congr_left
    intro x hx
    obtain ⟨a1, a2, a3⟩ := h2 x hx
    obtain ⟨b1, b2, b3⟩ := h2' _ (List.mem_map_of_mem hx)
    rw [hlab] at b3
    simp only [Function.comp_apply]
    have e1 : (f' (x.repat A [])).path = (f x).path := by
      have p1 := b1.1.trans ((hsame x hx).1.trans a1.1.symm)
      have p2 := b3.trans a3.symm
      exact list_ext_pairs p1 p2
    have e2 : (f' (x.repat A [])).count = (f x).count := b1.2.trans ((hsame x hx).2.trans a1.2.symm)
    have e3 : (f' (x.repat A [])).metas = (f x).metas := b2.trans a2.symm
    cases hu : f' (x.repat A []) with
    | mk p c ms =>
      cases hv : f x with
      | mk p' c' ms' =>
        rw [hu, hv] at e1 e2 e3
        simp only at e1 e2 e3
        rw [e1, e2, e3]
  rw [hb, hf]

end OsUrl
