import Verif.Proofs.Proc3
import Verif.Proofs.Load2

/-! Writing the patterns into the tree, and dividing the tree by patterns. -/

namespace OsUrl

/-- Rewrite the patterns along a path: `A` gives the pattern of a node by its keys. -/
def repat (A : List Str → Option Str) : List Str → List (ParsedPiece × Option Str) → List (ParsedPiece × Option Str)
  | _, [] => []
  | pre, x :: rest => (x.1, (A (pre ++ [x.1.piece])).or x.2) :: repat A (pre ++ [x.1.piece]) rest

/-- The same for a row. -/
def Ins.repat (A : List Str → Option Str) (pre : List Str) (x : Ins) : Ins := { x with path := OsUrl.repat A pre x.path }

theorem repat_fst (A : List Str → Option Str) (pre : List Str) (p : List (ParsedPiece × Option Str)) :
    (repat A pre p).map (·.1) = p.map (·.1) := by
  induction p generalizing pre with
  | nil => rfl
  | cons x xs ih => simp [repat, ih]

theorem repat_same (A : List Str → Option Str) (pre : List Str) (x : Ins) : SameRow (x.repat A pre) x :=
  ⟨repat_fst A pre x.path, rfl⟩

theorem SameRow.keys {x y : Ins} (h : SameRow x y) : x.keys = y.keys := by
  have := congrArg (List.map (fun p : ParsedPiece => p.piece)) h.1
  rw [List.map_map, List.map_map] at this; exact this

theorem SameRow.symm {x y : Ins} (h : SameRow x y) : SameRow y x := ⟨h.1.symm, h.2.symm⟩
theorem SameRow.trans {x y z : Ins} (h : SameRow x y) (h' : SameRow y z) : SameRow x z := ⟨h.1.trans h'.1, h.2.trans h'.2⟩

theorem repat_key (A : List Str → Option Str) (pre : List Str) (x : Ins) : (x.repat A pre).key = x.key := by
  obtain ⟨path, c, ms⟩ := x
  cases path <;> rfl

theorem repat_tail (A : List Str → Option Str) (pre : List Str) (x : Ins) (h : x.path ≠ []) :
    (x.repat A pre).tail = x.tail.repat A (pre ++ [x.key]) := by
  obtain ⟨path, c, ms⟩ := x
  cases path with
  | nil => exact absurd rfl h
  | cons a rest => rfl

theorem foldl_act_setPat (g : List Ins) (f f' : Ins → Ins) (hf : ∀ i ∈ g, (f' i).count = (f i).count ∧ (f' i).metas = (f i).metas ∧
    ((f' i).path = [] ↔ (f i).path = [])) (d : NodeData) (q : Option Str) :
    g.foldl (fun d i => (f' i).act d) { d with pat := q } = { g.foldl (fun d i => (f i).act d) d with pat := q } := by
  induction g generalizing d with
  | nil => rfl
  | cons i g ih =>
    rw [List.foldl_cons, List.foldl_cons, ← ih (fun j hj => hf j (by simp [hj]))]
    congr 1
    obtain ⟨h1, h2, h3⟩ := hf i (by simp)
    unfold Ins.act
    by_cases hp : (f i).path = []
    · rw [if_pos hp, if_pos (h3.mpr hp), h1, h2]
      unfold NodeData.updateMeta NodeData.incr
      cases (f i).metas <;> rfl
    · rw [if_neg hp, if_neg (fun e => hp (h3.mp e)), h1]; rfl

theorem headData_repat (A : List Str → Option Str) (pre : List Str) {k : Str} {g : List Ins} (hg : g ≠ [])
    (hk : ∀ x ∈ g, x.key = k ∧ x.path ≠ []) :
    headData (g.map (Ins.repat A pre)) = { headData g with pat := (A (pre ++ [k])).or (headData g).pat } := by
  cases g with
  | nil => exact absurd rfl hg
  | cons i g =>
    rw [headData_pat]
    have e : headData ((i :: g).map (Ins.repat A pre)) =
        (i :: g).foldl (fun d j => (j.repat A pre).tail.act d) (i.repat A pre).newHead := by
      simp only [headData, List.map_cons, List.foldl_cons, List.foldl_map]
    rw [e]
    have hn : (i.repat A pre).newHead = { i.newHead with pat := (A (pre ++ [k])).or i.newHead.pat } := by
      obtain ⟨h1, h2⟩ := hk i (by simp)
      obtain ⟨path, c, ms⟩ := i
      cases path with
      | nil => exact absurd rfl h2
      | cons a rest => rw [← h1]; rfl
    rw [hn]
    have := foldl_act_setPat (i :: g) Ins.tail (fun j => (j.repat A pre).tail) (fun j hj => ⟨rfl, rfl, by
      obtain ⟨path, c, ms⟩ := j
      match path with
      | [] => simp [Ins.tail, Ins.repat, repat]
      | [a] => simp [Ins.tail, Ins.repat, repat]
      | a :: b :: r => simp [Ins.tail, Ins.repat, repat]⟩) i.newHead ((A (pre ++ [k])).or i.newHead.pat)
    exact this

theorem annotate_ofList (asg : List (List Str × Str)) (pre : List Str) (l : List (Str × NodeData × Forest NodeData)) :
    annotate asg pre (.ofList l) = .ofList (l.map (fun x =>
      (x.1, { x.2.1 with pat := (Dict.get? (pre ++ [x.1]) asg).or x.2.1.pat }, annotate asg (pre ++ [x.1]) x.2.2))) := by
  induction l with
  | nil => rfl
  | cons x xs ih => obtain ⟨k, d, kids⟩ := x; simp [Forest.ofList, annotate, ih]

/-- Writing patterns into a grown tree is growing the tree from rows with these patterns. -/
theorem annotate_grow (asg : List (List Str × Str)) (n : Nat) (pre : List Str) (L : List Ins)
    (hL : ∀ x ∈ L, x.path.length = n) :
    annotate asg pre (grow n L) = grow n (L.map (Ins.repat (fun p => Dict.get? p asg) pre)) := by
  induction n generalizing pre L with
  | zero => rfl
  | succ n ih =>
    rw [grow, annotate_ofList, grow]
    congr 1
    rw [List.map_map, groupBy_eq, groupBy_eq, List.map_map, List.map_map]
    have hk : (L.map (Ins.repat (fun p => Dict.get? p asg) pre)).map Ins.key = L.map Ins.key := by
      rw [List.map_map]; apply List.map_congr_left; intro x _; exact repat_key _ _ x
    rw [hk]
    apply List.map_congr_left
    intro k hk
    have hf : (L.map (Ins.repat (fun p => Dict.get? p asg) pre)).filter (fun x => decide (x.key = k)) =
        (L.filter (fun x => decide (x.key = k))).map (Ins.repat (fun p => Dict.get? p asg) pre) :=
      filter_map_same (fun x _ => by rw [repat_key])
    simp only [Function.comp, hf]
    have hg : ∀ x ∈ L.filter (fun x => decide (x.key = k)), x.key = k ∧ x.path ≠ [] := by
      intro x hx
      rw [List.mem_filter] at hx
      refine ⟨of_decide_eq_true hx.2, ?_⟩
      intro e; have := hL x hx.1; rw [e] at this; simp at this
    rw [headData_repat (fun p => Dict.get? p asg) pre (k := k) (by
      obtain ⟨x, hx, e⟩ := List.mem_map.mp (mem_uniq.mp hk)
      exact List.ne_nil_of_mem (List.mem_filter.mpr ⟨hx, by simp [e]⟩)) hg]
    congr 2
    rw [ih]
    · congr 1
      rw [List.map_map, List.map_map]
      apply List.map_congr_left
      intro x hx
      simp only [Function.comp]
      rw [repat_tail _ _ _ (hg x hx).2, (hg x hx).1]
    · intro x hx
      obtain ⟨y, hy, rfl⟩ := List.mem_map.mp hx
      have := hL y (List.mem_filter.mp hy).1
      simp [Ins.tail, this]

/-! ### The rows of the paths -/

/-- The row of a path. -/
def rowOf (p : List (Str × NodeData)) : Ins :=
  ⟨p.map (fun kn => (kn.2.pp, some kn.2.pattern)),
    match p.getLast? with | some kn => kn.2.count | none => 0,
    match p.getLast? with | some kn => kn.2.metas.getD [] | none => []⟩

/-- Rows that share nodes agree on them. -/
def PathCoh (M : List Ins) : Prop :=
  ∀ x ∈ M, ∀ y ∈ M, ∀ j, x.keys.take (j + 1) = y.keys.take (j + 1) → x.path[j]? = y.path[j]?

/-- Rows of a tree: distinct, with at most one copy of each meta. -/
structure Normal (n : Nat) (M : List Ins) : Prop where
  len : ∀ x ∈ M, x.path.length = n
  nodup : (M.map Ins.keys).Nodup
  metas : ∀ x ∈ M, x.metas.Nodup

/-- All patterns are set. -/
def Ins.Full (x : Ins) : Prop := ∀ a ∈ x.path, a.2.isSome

theorem nodup_key_unique {M : List Ins} (h : (M.map Ins.keys).Nodup) {x y : Ins} (hx : x ∈ M) (hy : y ∈ M)
    (e : x.keys = y.keys) : x = y := by
  induction M with
  | nil => simp at hx
  | cons z zs ih =>
    rw [List.map_cons, List.nodup_cons] at h
    rw [List.mem_cons] at hx hy
    rcases hx with rfl | hx <;> rcases hy with rfl | hy
    · rfl
    · exact absurd (List.mem_map.mpr ⟨y, hy, e.symm⟩) h.1
    · exact absurd (List.mem_map.mpr ⟨x, hx, e⟩) h.1
    · exact ih h.2 hx hy

theorem Ins.drop_head (x : Ins) (j : Nat) (h : j < x.path.length) : (x.drop j).newHead = newNode (x.path[j]).1 (x.path[j]).2 := by
  unfold Ins.newHead Ins.drop
  rw [List.drop_eq_getElem_cons h]

theorem rowOf_path {n : Nat} {M : List Ins} (hM : Normal (n + 1) M) (hc : PathCoh M) (hf : ∀ x ∈ M, x.Full)
    {p : List (Str × NodeData)} (hp : p ∈ growPaths (n + 1) M) : ∃ x ∈ M, p.map (·.1) = x.keys ∧ rowOf p = x := by
  have hne : M ≠ [] := by
    rintro rfl
    simp [growPaths, groupBy] at hp
  obtain ⟨x, hx, hxk⟩ := List.mem_map.mp ((growPaths_keys hM.len hne (p.map (·.1))).mp (List.mem_map.mpr ⟨p, hp, rfl⟩))
  refine ⟨x, hx, hxk.symm, ?_⟩
  have hpl := growPaths_length p hp
  have hxl := hM.len x hx
  have hdata : ∀ j (hj : j < n + 1), ∃ g, (∀ y ∈ g, y ∈ M ∧ y.keys.take (j + 1) = x.keys.take (j + 1)) ∧ x ∈ g ∧
      (p[j]'(by omega)).2 = headData (g.map (Ins.drop j)) ∧
      g = M.filter (fun i => decide (i.keys.take (j + 1) = x.keys.take (j + 1))) := by
    intro j hj
    have := growPaths_data hM.len hp (j := j) (k := (p[j]'(by omega)).1) (d := (p[j]'(by omega)).2) (by
      rw [List.getElem?_eq_getElem (by omega)])
    rw [← hxk] at this
    refine ⟨_, ?_, ?_, this, rfl⟩
    · intro y hy; rw [List.mem_filter, decide_eq_true_eq] at hy; exact hy
    · rw [List.mem_filter]; exact ⟨hx, by simp⟩
  have hpath : p.map (fun kn => (kn.2.pp, some kn.2.pattern)) = x.path := by
    apply List.ext_getElem
    · simp [hpl, hxl]
    · intro j h1 h2
      rw [List.getElem_map]
      obtain ⟨g, hg1, hg2, hg3, _⟩ := hdata j (by omega)
      cases hgc : g with
      | nil => rw [hgc] at hg2; simp at hg2
      | cons y ys =>
        have hy := hg1 y (by rw [hgc]; simp)
        have hyj := hc x hx y hy.1 j hy.2.symm
        have hyl := hM.len y hy.1
        rw [List.getElem?_eq_getElem h2, List.getElem?_eq_getElem (by omega)] at hyj
        injection hyj with hyj
        rw [hgc, List.map_cons] at hg3
        have hsome := hf x hx x.path[j] (List.getElem_mem h2)
        rw [hg3]
        unfold NodeData.pattern
        rw [headData_pp, headData_pat, Ins.drop_head y j (by omega), ← hyj]
        obtain ⟨q, hq⟩ := Option.isSome_iff_exists.mp hsome
        simp only [newNode, hq, Option.getD_some]
        exact Prod.ext rfl hq.symm
  have hlast : p.getLast? = some (p[n]'(by omega)) := by
    rw [List.getLast?_eq_getElem?, show p.length - 1 = n by omega, List.getElem?_eq_getElem (by omega)]
  obtain ⟨g, hg1, hg2, hg3, hg4⟩ := hdata n (by omega)
  have htk : ∀ y ∈ M, y.keys.take (n + 1) = y.keys := by
    intro y hy
    apply List.take_of_length_le
    have := hM.len y hy
    simp [Ins.keys, this]
  have hgx : g = [x] := by
    have hall : ∀ y ∈ g, y = x := by
      intro y hy
      obtain ⟨hy1, hy2⟩ := hg1 y hy
      rw [htk y hy1, htk x hx] at hy2
      exact nodup_key_unique hM.nodup hy1 hx hy2
    have hnd : g.Nodup := by
      rw [hg4]
      exact (nodup_of_map hM.nodup).sublist List.filter_sublist
    cases g with
    | nil => simp at hg2
    | cons y ys =>
      have := hall y (by simp)
      subst this
      cases ys with
      | nil => rfl
      | cons z zs =>
        have := hall z (by simp)
        subst this
        simp at hnd
  rw [hgx] at hg3
  have hhd : (p[n]'(by omega)).2.count = x.count ∧ (p[n]'(by omega)).2.metas.getD [] = x.metas := by
    rw [hg3]
    have he : (x.drop n).tail.path = [] := by
      rw [Ins.drop_tail]
      simp [Ins.drop, hxl]
    have hnh := newHead_metas (x.drop n)
    have hnc := newHead_count (x.drop n)
    simp only [headData, List.map_cons, List.map_nil, List.foldl_cons, List.foldl_nil, Ins.act, he, if_true]
    have hm : (x.drop n).tail.metas = x.metas := rfl
    have hcn : (x.drop n).tail.count = x.count := rfl
    rw [hm, hcn]
    constructor
    · unfold NodeData.updateMeta NodeData.incr
      split <;> simp [hnc]
    · have hnd := hM.metas x hx
      cases hmm : x.metas with
      | nil => simp [NodeData.updateMeta, NodeData.incr, hnh]
      | cons a as =>
        rw [hmm] at hnd
        have := uniq_of_nodup hnd
        simp only [NodeData.updateMeta, NodeData.incr, hnh, Option.getD_none, Option.getD_some]
        exact this
  unfold rowOf
  rw [hpath, hlast]
  obtain ⟨path, c, ms⟩ := x
  simp only at hhd ⊢
  rw [hhd.1, hhd.2]

/-- **The rows of the tree are the rows of its paths.** -/
theorem rows_of_paths {n : Nat} {M : List Ins} (hM : Normal (n + 1) M) (hc : PathCoh M) (hf : ∀ x ∈ M, x.Full) :
    ((growPaths (n + 1) M).map rowOf).Perm M := by
  by_cases hne : M = []
  · subst hne; simp [growPaths, groupBy]
  rw [List.perm_ext_iff_of_nodup]
  · intro x
    constructor
    · intro hx
      obtain ⟨p, hp, rfl⟩ := List.mem_map.mp hx
      obtain ⟨y, hy, _, e⟩ := rowOf_path hM hc hf hp
      rw [e]; exact hy
    · intro hx
      have := (growPaths_keys hM.len hne x.keys).mpr (List.mem_map.mpr ⟨x, hx, rfl⟩)
      obtain ⟨p, hp, hk⟩ := List.mem_map.mp this
      obtain ⟨y, hy, hk', e⟩ := rowOf_path hM hc hf hp
      refine List.mem_map.mpr ⟨p, hp, ?_⟩
      rw [e]
      exact nodup_key_unique hM.nodup hy hx (by rw [← hk', hk])
  · have hk : ((growPaths (n + 1) M).map rowOf).map Ins.keys = (growPaths (n + 1) M).map (fun p => p.map (·.1)) := by
      rw [List.map_map]
      apply List.map_congr_left
      intro p hp
      obtain ⟨y, hy, hk', e⟩ := rowOf_path hM hc hf hp
      simp only [Function.comp, e, hk']
    have := growPaths_nodup (n := n + 1) (L := M)
    rw [← hk] at this
    exact nodup_of_map this
  · exact nodup_of_map hM.nodup

/-! ### Dividing -/

theorem buildFromNodes_grow {n : Nat} {L : List Ins} (hL : ∀ i ∈ L, i.path.length = n + 1)
    {p : List (Str × NodeData)} (hp : p.length = n + 1) :
    buildFromNodes (growTree (n + 1) L) (p.map (·.2)) = .ok (growTree (n + 1) (L ++ [rowOf p])) := by
  have hlast : p.getLast? = some (p[n]'(by omega)) := by
    rw [List.getLast?_eq_getElem?, show p.length - 1 = n by omega, List.getElem?_eq_getElem (by omega)]
  have hl : (p.map (·.2)).getLast? = some (p[n]'(by omega)).2 := by
    rw [List.getLast?_map, hlast]; rfl
  unfold buildFromNodes
  rw [hl]
  have hr : (rowOf p).path.length = n + 1 := by simp [rowOf, hp]
  rw [← growTree_concat hL hr]
  have e1 : (p.map (·.2)).map (fun d : NodeData => (d.pp, some d.pattern)) = (rowOf p).path := by
    simp [rowOf]
  have e2 : (rowOf p).count = (p[n]'(by omega)).2.count := by simp only [rowOf, hlast]
  have e3 : (rowOf p).metas = (p[n]'(by omega)).2.metas.getD [] := by simp only [rowOf, hlast]
  have e4 : (fun d : NodeData => d.updateMeta (some (rowOf p).metas)) =
      (fun d : NodeData => d.updateMeta (p[n]'(by omega)).2.metas) := by
    funext d
    rw [e3]
    cases (p[n]'(by omega)).2.metas with
    | none => rfl
    | some ms => rfl
  simp only
  rw [e1, e4, e2]

/-- The tree is divided by hash. -/
theorem splitLoop_grow {n : Nat} (h : Runtime) (rp : Str) (ps : List (List (Str × NodeData)))
    (hp : ∀ p ∈ ps, p.length = n + 1) (qs : List (List (Str × NodeData))) (hq : ∀ p ∈ qs, p.length = n + 1) :
    splitLoop h rp ps ((groupBy (fun p : List (Str × NodeData) =>
        h (join ['/'] (rp :: p.map (fun kn => kn.2.pattern)))) qs).map
        (fun kg => (kg.1, growTree (n + 1) (kg.2.map rowOf)))) =
      .ok ((groupBy (fun p : List (Str × NodeData) => h (join ['/'] (rp :: p.map (fun kn => kn.2.pattern))))
        (qs ++ ps)).map (fun kg => (kg.1, growTree (n + 1) (kg.2.map rowOf)))) := by
  induction ps generalizing qs with
  | nil => simp [splitLoop]
  | cons p ps ih =>
    unfold splitLoop
    simp only [bind, Except.bind]
    rw [Dict.get?_map (fun g : List (List (Str × NodeData)) => growTree (n + 1) (g.map rowOf))]
    have hin : ∀ g : Option (List (List (Str × NodeData))),
        (g = Dict.get? (h (join ['/'] (rp :: p.map (fun kn => kn.2.pattern)))) (groupBy (fun p : List (Str × NodeData) =>
          h (join ['/'] (rp :: p.map (fun kn => kn.2.pattern)))) qs)) →
        buildFromNodes ((g.map (fun g => growTree (n + 1) (g.map rowOf))).getD emptyTree) (p.map (·.2)) =
          .ok (growTree (n + 1) ((g.getD []  ++ [p]).map rowOf)) := by
      intro g hg
      have hlen : ∀ i ∈ (g.getD []).map rowOf, i.path.length = n + 1 := by
        intro i hi
        obtain ⟨p', hp', rfl⟩ := List.mem_map.mp hi
        cases hgg : g with
        | none => rw [hgg] at hp'; simp at hp'
        | some g' =>
          rw [hgg] at hp' hg
          have := (mem_groupBy (Dict.get?_mem hg.symm)).2
          simp only [Option.getD_some] at hp'
          rw [this, List.mem_filter] at hp'
          simp [rowOf, hq p' hp'.1]
      have := buildFromNodes_grow hlen (hp p (by simp))
      rw [List.map_append, List.map_singleton]
      rw [← this]
      congr 1
      cases g with
      | none => rfl
      | some g => rfl
    rw [hin _ rfl]
    simp only
    have hsnoc := ih (fun p' hp' => hp p' (by simp [hp'])) (qs ++ [p]) (by
      intro p' hp'
      rw [List.mem_append, List.mem_singleton] at hp'
      rcases hp' with hp' | rfl
      · exact hq p' hp'
      · exact hp p' (by simp))
    rw [List.append_assoc] at hsnoc
    rw [show qs ++ p :: ps = qs ++ ([p] ++ ps) from rfl, ← hsnoc]
    congr 1
    rw [groupBy_concat, ← Dict.upd_map (fun g : List (List (Str × NodeData)) => growTree (n + 1) (g.map rowOf))]
    rfl

end OsUrl
