import Verif.Proofs.Split

/-! `process` and `cluster` on rows. -/

namespace OsUrl

/-! ### The root -/

theorem confused_self (c mcn : Int) (hc : 1 ≤ c) (hm : 2 ≤ mcn) : confused c c mcn = false := by
  unfold confused
  by_cases h : c < mcn
  · rw [if_pos h]
  · rw [if_neg h]
    simp only [Int.sub_self, ge_iff_le]
    rw [if_neg (by omega)]
    rw [decide_eq_false_iff_not]
    omega

/-- When the first stage keeps all pieces, the others do nothing. -/
theorem stages_literal {rt : Runtime} {nested : NestedCluster} {cfg : LevelCfg} {bucket : Bucket} (hm : 1 ≤ cfg.mcn)
    (h : pieceStage cfg bucket ⟨[], 0, [], [], [], []⟩ = .ok (literalAll bucket ⟨[], 0, [], [], [], []⟩)) :
    processStages rt nested cfg bucket = .ok (literalAll bucket ⟨[], 0, [], [], [], []⟩) := by
  unfold processStages
  rw [h]
  simp only [bind, Except.bind, literalAll, multiStage, groupBy, List.foldl_nil, List.map_nil, multiBuckets, pure,
    Except.pure, lengthFuzzyStage, lengthBuckets, List.isEmpty_nil, if_true, fuzzyCluster, rtBuckets_nil, Bool.false_eq_true, if_false,
    List.sum_nil, show (0 : Int) < cfg.mcn from by omega, fuzzyUpdate, List.flatMap_nil, patternSet, Option.toList_none,
    List.nil_append, List.length_nil, Nat.add_zero]

theorem set_pattern_self (bucket : Bucket) (a : Assign) (x : Str) (h : a.pattern x = x) :
    Assign.pattern (bucket.foldl (fun a b => a.set b.piece b.piece) a) x = x := by
  induction bucket generalizing a with
  | nil => exact h
  | cons b bs ih =>
    apply ih
    unfold Assign.pattern Assign.set
    rw [Dict.get?_upd]
    by_cases e : b.piece = x
    · simp [e]
    · rw [if_neg e]; exact h

/-- The node of the root. -/
def rootNode (n : Nat) (L : List Ins) : PNode := ⟨[], (growTree n L).root, (growTree n L).kids, none⟩

theorem growTree_root_pp (n : Nat) (L : List Ins) : (growTree n L).root.pp = emptyParsedPiece := by
  have := foldl_act_pp L id (newNode emptyParsedPiece none)
  exact this

theorem growTree_root_pat (n : Nat) (L : List Ins) : (growTree n L).root.pat = none := by
  have := foldl_act_pat L id (newNode emptyParsedPiece none)
  exact this

theorem root_children {OK : Nat → List ParsedPiece → Prop} {n : Nat} {L : List Ins} (hS : RowsOK OK (n + 1) L) :
    NodesOf (n + 1) 0 L (childNodes (rootNode (n + 1) L)) := by
  have hlen : ∀ x ∈ L, 0 < x.path.length := fun x hx => by rw [hS.len x hx]; omega
  have hkey : ∀ x ∈ L, x.key = (x.pp 0).piece := fun x hx => by
    have := Ins.drop_key 0 x (hlen x hx)
    simpa [Ins.drop] using this
  have hrows : ∀ k, rowsAt 0 L [k] = L.filter (fun x => decide (x.key = k)) := by
    intro k
    unfold rowsAt
    apply List.filter_congr
    intro x hx
    exact decide_eq_decide.mpr (Ins.key_of_take (n := n) (hS.len x hx) k)
  have hchild : childNodes (rootNode (n + 1) L) = (uniq (L.map Ins.key)).map (fun k =>
      (⟨[k], headData (L.filter (fun x => decide (x.key = k))),
        grow n ((L.filter (fun x => decide (x.key = k))).map Ins.tail),
        some ([], (growTree (n + 1) L).root.count)⟩ : PNode)) := by
    unfold childNodes rootNode
    simp only [growTree, grow, Forest.children_ofList, List.map_map, groupBy_eq]
    rfl
  refine ⟨?_, ?_, ?_⟩
  · rw [hchild, List.map_map]
    apply List.Pairwise.map (R := (· ≠ ·))
    · intro a b hab e
      exact hab (by simpa using e)
    · exact nodup_uniq _
  · intro x hx
    rw [hchild, List.map_map]
    refine List.mem_map.mpr ⟨x.key, mem_uniq.mpr (List.mem_map.mpr ⟨x, hx, rfl⟩), ?_⟩
    exact ((Ins.key_of_take (n := n) (hS.len x hx) x.key).mpr rfl).symm
  · intro c hc
    rw [hchild, List.mem_map] at hc
    obtain ⟨k, hk, rfl⟩ := hc
    obtain ⟨x, hx, e⟩ := List.mem_map.mp (mem_uniq.mp hk)
    refine ⟨?_, ?_, ?_, ⟨L.filter (fun x => decide (x.key = k)), ?_, ?_⟩⟩
    · simp only [hrows]
      exact List.ne_nil_of_mem (List.mem_filter.mpr ⟨hx, by simp [e]⟩)
    · intro y hy
      simp only [hrows] at hy ⊢
      cases hg : L.filter (fun x => decide (x.key = k)) with
      | nil => rw [hg] at hy; simp at hy
      | cons z zs =>
        have hz : z ∈ L.filter (fun x => decide (x.key = k)) := by rw [hg]; simp
        rw [List.mem_filter, decide_eq_true_eq] at hz hy
        rw [headData_pp]
        have := Ins.drop_newHead 0 z (hlen z hz.1)
        have e2 : (z.drop 0) = z := by simp [Ins.drop]
        rw [e2] at this
        rw [this]
        apply hS.inj 0 (by omega) z hz.1 y hy.1
        rw [← hkey z hz.1, ← hkey y hy.1, hz.2, hy.2]
    · simp only [hrows]
      rw [headData_count]; rfl
    · simp only [hrows]; exact List.Perm.refl _
    · simp only [Nat.add_sub_cancel, Nat.sub_zero]
      congr 1
      apply List.map_congr_left
      intro y _
      simp [Ins.tail, Ins.drop]

/-! ### `process` -/

/-- A finished tree. -/
def doneTree (n : Nat) (C : List Ins) : Tree NodeData := ⟨{ (growTree n C).root with pat := some [] }, grow n C⟩

/-- The row without patterns. -/
def Ins.bare (x : Ins) : Ins := { x with path := x.path.map (fun a => (a.1, none)) }

theorem bare_same (x : Ins) : SameRow x.bare x := ⟨by simp [Ins.bare, Function.comp_def], rfl⟩

theorem repat_getElem (A : List Str → Option Str) (pre : List Str) (p : List (ParsedPiece × Option Str)) (j : Nat) :
    (repat A pre p)[j]? = p[j]?.map (fun a => (a.1, (A (pre ++ (p.map (·.1.piece)).take (j + 1))).or a.2)) := by
  induction p generalizing pre j with
  | nil => rfl
  | cons x xs ih =>
    cases j with
    | zero => simp [repat]
    | succ j => simp [repat, ih, List.append_assoc]

theorem foldl_act_same (L : List Ins) (f : Ins → Ins) (hf : ∀ x ∈ L, (f x).count = x.count ∧ (f x).metas = x.metas ∧
    ((f x).path = [] ↔ x.path = [])) (d : NodeData) :
    (L.map f).foldl (fun d i => i.act d) d = L.foldl (fun d i => i.act d) d := by
  induction L generalizing d with
  | nil => rfl
  | cons x xs ih =>
    simp only [List.map_cons, List.foldl_cons]
    rw [ih (fun y hy => hf y (by simp [hy]))]
    congr 1
    obtain ⟨h1, h2, h3⟩ := hf x (by simp)
    unfold Ins.act
    by_cases e : x.path = []
    · rw [if_pos e, if_pos (h3.mpr e), h1, h2]
    · rw [if_neg e, if_neg (fun h => e (h3.mp h)), h1]

theorem same_path_nil {x y : Ins} (h : SameRow x y) : x.path = [] ↔ y.path = [] := by
  have := congrArg List.length h.1
  simp only [List.length_map] at this
  rw [← List.length_eq_zero_iff, ← List.length_eq_zero_iff, this]

variable {rt : Runtime} {nested : NestedCluster} {mcn : Int} {m : URLMeta} {kw : Bool} {n : Nat}
  {OK : Nat → List ParsedPiece → Prop} {F : LevelFn}

theorem total_pos {S : List Ins} (h : ∀ x ∈ S, 1 ≤ x.count) (hne : S ≠ []) : 1 ≤ total S := by
  have nn : ∀ T : List Ins, (∀ y ∈ T, 1 ≤ y.count) → 0 ≤ total T := by
    intro T
    induction T with
    | nil => simp [total]
    | cons y T ih =>
      intro h
      rw [total_cons]
      have := ih (fun z hz => h z (by simp [hz]))
      have := h y (by simp)
      omega
  cases S with
  | nil => exact absurd rfl hne
  | cons x xs =>
    rw [total_cons]
    have := nn xs (fun z hz => h z (by simp [hz]))
    have := h x (by simp)
    omega

/-- **`process`** rewrites the patterns of the rows. -/
theorem process_spec (hL : LevelOK rt nested mcn m kw (n + 1) OK F) (hmcn : 2 ≤ mcn) (hd : m.depth = n + 1)
    {L : List Ins} (hS : RowsOK OK (n + 1) L) (hne : L ≠ []) :
    ∃ (f : Ins → Ins) (split : Bool), process rt nested mcn m kw (growTree (n + 1) L) = .ok (doneTree (n + 1) (L.map f), split) ∧
      (∀ x ∈ L, SameRow (f x) x ∧ (f x).metas = x.metas ∧
        (f x).path.map (·.2) = (labs F (n + 1) 0 L x).map some) ∧
      (split = true ↔ ∃ x ∈ L, ∃ y ∈ L, labs F (n + 1) 0 L x ≠ labs F (n + 1) 0 L y) := by
  have hcount : (growTree (n + 1) L).root.count = total L := growTree_count _ _
  have hpos := total_pos hS.pos hne
  have hb : rt.bucket [rootNode (n + 1) L] = [⟨rootNode (n + 1) L, []⟩] := rtBucket_one rt _
  have hpc : (rootNode (n + 1) L).data.pp.piece = [] := by
    show (growTree (n + 1) L).root.pp.piece = []
    rw [growTree_root_pp]; rfl
  have hbc : (⟨rootNode (n + 1) L, []⟩ : PieceBag).count = total L := by
    simp only [PieceBag.count, PieceBag.nodes, List.map_cons, List.map_nil, List.sum_cons, List.sum_nil]
    show (growTree (n + 1) L).root.count + 0 = total L
    rw [hcount]; omega
  have hbp : (⟨rootNode (n + 1) L, []⟩ : PieceBag).piece = [] := hpc
  have hstage : processStages rt nested ⟨mcn, 0, false, m.pathDepth == 0, kw⟩ [⟨rootNode (n + 1) L, []⟩] =
      .ok (literalAll [⟨rootNode (n + 1) L, []⟩] ⟨[], 0, [], [], [], []⟩) := by
    apply stages_literal (by show 1 ≤ mcn; omega)
    unfold pieceStage
    simp only [List.isEmpty_cons, Bool.false_eq_true, if_false, false_and, List.length_cons, List.length_nil]
    rw [if_pos (by show ((0 + 1 : Nat) : Int) < mcn; omega)]
    simp only [List.map_cons, List.map_nil, maxCount, List.foldl_nil, bind, Except.bind, pure, Except.pure, Bucket.count,
      List.sum_cons, List.sum_nil, hbc, Int.add_zero]
    rw [confused_self _ _ hpos hmcn]
    rfl
  obtain ⟨asg, split, hp1, hp2, hp3, hp4⟩ := proc_spec hL n 0 L (childNodes (rootNode (n + 1) L)) (by omega) hS
    (root_children hS) hne
  have hpat : (literalAll [⟨rootNode (n + 1) L, []⟩] ⟨[], 0, [], [], [], []⟩).assign.pattern [] = [] := by
    unfold literalAll
    exact set_pattern_self _ _ _ rfl
  have hnum : ¬ (literalAll [⟨rootNode (n + 1) L, []⟩] ⟨[], 0, [], [], [], []⟩).patternNum > 1 := by
    simp [literalAll, patternSet, setAdd]
  have hproc : procLevel rt nested mcn m kw (n + 1) 0 [rootNode (n + 1) L] = .ok (([], []) :: asg, split) := by
    unfold procLevel
    simp only [hb, hstage, bind, Except.bind, pure, Except.pure, List.flatMap_cons, List.flatMap_nil, PieceBag.nodes,
      List.append_nil, List.map_cons, List.map_nil, groupBy, List.foldl_cons, List.foldl_nil, Dict.upd,
      Option.getD_none, List.nil_append, List.mapM_cons, List.mapM_nil, Nat.zero_add] at hp1 ⊢
    rw [hp1]
    simp only [List.flatMap_cons, List.flatMap_nil, List.append_nil, hnum, if_false, hpc, hpat]
    rfl
  -- looking up the patterns
  have hget : ∀ x ∈ L, ∀ k, k ≤ n → Dict.get? (x.keys.take (k + 1)) (([], []) :: asg) = (labs F (n + 1) 0 L x)[k]? := by
    intro x hx k hk
    have hxl : x.keys.length = n + 1 := by simp [Ins.keys, hS.len x hx]
    have hne' : x.keys.take (k + 1) ≠ [] := by
      intro e
      have := congrArg List.length e
      rw [List.length_take, hxl, List.length_nil] at this
      omega
    rw [show Dict.get? (x.keys.take (k + 1)) (([], []) :: asg) = Dict.get? (x.keys.take (k + 1)) asg by
      simp only [Dict.get?]; rw [if_neg (fun e => hne' e.symm)]]
    cases hg : Dict.get? (x.keys.take (k + 1)) asg with
    | none =>
      rw [Dict.get?_none] at hg
      obtain ⟨q, hq⟩ := hp3 x hx k hk
      rw [show 0 + 1 + k = k + 1 by omega] at hq
      exact absurd (List.mem_map.mpr ⟨_, hq, rfl⟩) hg
    | some q =>
      obtain ⟨y, hy, k', hk', e1, e2⟩ := hp2 _ (Dict.get?_mem hg)
      simp only at e1 e2
      have hyl : y.keys.length = n + 1 := by simp [Ins.keys, hS.len y hy]
      have : k = k' := by
        have := congrArg List.length e1
        rw [List.length_take, List.length_take] at this
        omega
      subst this
      rw [← e2]
      apply labs_prefix
      intro l hl
      rw [Nat.zero_add]
      rw [show 0 + 1 + k = k + 1 by omega] at e1
      exact (((take_pp hS hx hy (by omega)).mp e1) l (by omega)).symm
  refine ⟨Ins.repat (fun p => Dict.get? p (([], []) :: asg)) [], split, ?_, ?_, ?_⟩
  · unfold process
    rw [hd]
    have := hproc
    unfold rootNode at this
    rw [this]
    simp only [bind, Except.bind, pure, Except.pure]
    congr 2
    unfold doneTree
    congr 1
    · simp only [growTree]
      rw [foldl_act_same L (Ins.repat (fun p => Dict.get? p (([], []) :: asg)) []) (fun x _ => ⟨rfl, rfl, same_path_nil (repat_same _ _ x)⟩)]
      rfl
    · exact annotate_grow _ _ _ _ hS.len
  · intro x hx
    refine ⟨repat_same _ _ x, rfl, ?_⟩
    apply List.ext_getElem?
    intro j
    rw [List.getElem?_map, List.getElem?_map]
    show ((repat _ [] x.path)[j]?).map _ = _
    rw [repat_getElem]
    have hxl := hS.len x hx
    by_cases hj : j < n + 1
    · have hk : (x.path.map (·.1.piece)).take (j + 1) = x.keys.take (j + 1) := rfl
      rw [List.getElem?_eq_getElem (by omega), hk, List.nil_append, hget x hx j (by omega)]
      have := labs_length F (n + 1) 0 L x
      rw [List.getElem?_eq_getElem (by omega)]
      simp
    · have := labs_length F (n + 1) 0 L x
      rw [List.getElem?_eq_none (by omega), List.getElem?_eq_none (by omega)]; rfl
  · exact hp4

end OsUrl
