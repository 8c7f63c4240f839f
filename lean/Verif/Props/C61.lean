import Verif.Proofs.Bags

/-!
# C61: the counters of the bags

A `PieceBag` and a `PieceBagBucket` count while nodes are added.  The counters are the sums over the members, the
set of parents is the set of the parents of the members, and the bucket has one bag for every piece — as long as no
node is added twice and the parents are asked for after the last node was added.
-/

namespace OsUrl
open Spec

/-- **C61**, one bag: after distinct nodes are added it holds these, its counters are the sums of their
counts and of the counts of their parents (of its own count for a node without parent), and its parents are
theirs, each once. -/
theorem C61_bag (ns : List PNode) (hn : ns.Nodup) :
    let b := ns.foldl BagSt.add {}
    b.objs = ns ∧ b.count = (ns.map (fun n => n.data.count)).sum ∧
      b.pNodesCount = (ns.map (fun n => match n.parent with | some q => q.2 | none => n.data.count)).sum ∧
      (∀ p, p ∈ b.parents ↔ ∃ n ∈ ns, n.parent = p) ∧ b.parents.Nodup := by
  intro b
  have hb : b = ⟨uniq ns, (ns.map (fun n => n.data.count)).sum, (ns.map PNode.above).sum, uniq (ns.map (·.parent))⟩ :=
    bagSt_fold ns
  rw [hb]
  refine ⟨uniq_of_nodup hn, rfl, ?_, ?_, nodup_uniq _⟩
  · show (ns.map PNode.above).sum = _
    congr 1
    apply List.map_congr_left
    intro n _
    unfold PNode.above
    cases n.parent <;> rfl
  · intro p
    rw [mem_uniq, List.mem_map]

/-- **C61**, a bucket of nodes: one bag for every piece, in the order in which the pieces came first; the bag of a
piece is the bag of the nodes with this piece; the bucket's count is the sum over all nodes; asked for the first time,
the parents are those of all nodes, each once. -/
theorem C61_bucket (ns : List PNode) :
    let s := ns.foldl BucketSt.addNode {}
    s.objs = (firsts (ns.map (fun n => n.data.pp.piece))).map
        (fun k => (k, (ns.filter (fun n => decide (n.data.pp.piece = k))).foldl BagSt.add {})) ∧
      s.count = (ns.map (fun n => n.data.count)).sum ∧
      (∀ p, p ∈ s.pNodes.1 ↔ ∃ n ∈ ns, n.parent = p) ∧ s.pNodes.1.Nodup := by
  intro s
  obtain ⟨h1, h2, h3⟩ := bucketSt_objs ns
  have e : s.pNodes.1 =
      (s.objs.flatMap (fun kb => kb.2.parents)).foldl (fun acc p => setAdd p acc) [] := by
    show (BucketSt.pNodes s).1 = _
    unfold BucketSt.pNodes
    rw [if_pos h3]
    exact foldl_setAdd_flat (fun kb : Str × BagSt => kb.2.parents) s.objs []
  have ho : s.objs = (firsts (ns.map (fun n => n.data.pp.piece))).map
        (fun k => (k, (ns.filter (fun n => decide (n.data.pp.piece = k))).foldl BagSt.add {})) := by
    show (ns.foldl BucketSt.addNode {}).objs = _
    rw [h1, groupBy_eq, firsts_eq_uniq, List.map_map]
    rfl
  refine ⟨ho, h2, ?_, ?_⟩
  · intro p
    rw [e, foldl_setAdd_mem, ho, List.mem_flatMap]
    constructor
    · rintro (h | ⟨kb, hkb, hp⟩)
      · exact absurd h List.not_mem_nil
      · obtain ⟨k, hk, rfl⟩ := List.mem_map.mp hkb
        simp only [bagSt_fold, mem_uniq, List.mem_map, List.mem_filter] at hp
        obtain ⟨n, hn, hp⟩ := hp
        exact ⟨n, hn.1, hp⟩
    · rintro ⟨n, hn, hp⟩
      refine .inr ⟨_, List.mem_map.mpr ⟨n.data.pp.piece, ?_, rfl⟩, ?_⟩
      · rw [firsts_eq_uniq, mem_uniq]; exact List.mem_map.mpr ⟨n, hn, rfl⟩
      · simp only [bagSt_fold, mem_uniq, List.mem_map, List.mem_filter]
        exact ⟨n, ⟨hn, by simp⟩, hp⟩
  · rw [e]; exact foldl_setAdd_nodup List.nodup_nil

/-- **C61**, a bucket of bags (the buckets of one length, pattern_cluster.py:311-315): with pieces that differ, the bags are kept
as they are and the count is the sum of theirs; a second bag with a piece that is there raises `ValueError`. -/
theorem C61_bags (s : BucketSt) (b : BagSt) (n : PNode) (h : b.objs.head? = some n) :
    s.addBag b =
      if (∃ kb ∈ s.objs, kb.1 = n.data.pp.piece) then .error .valueError
      else .ok ⟨s.objs ++ [(n.data.pp.piece, b)], s.count + b.count, s.cache⟩ := by
  cases hb : b.objs with
  | nil => rw [hb] at h; exact absurd h (by simp)
  | cons m ms =>
    rw [hb] at h
    obtain rfl : m = n := by simpa using h
    unfold BucketSt.addBag
    rw [hb]
    by_cases hk : ∃ kb ∈ s.objs, kb.1 = m.data.pp.piece
    · rw [if_pos hk]
      show (if _ then _ else _) = _
      rw [if_pos]
      cases hg : Dict.get? m.data.pp.piece s.objs with
      | some v => rfl
      | none =>
        obtain ⟨kb, h1, h2⟩ := hk
        exact absurd (List.mem_map.mpr ⟨kb, h1, h2⟩) (Dict.get?_none.mp hg)
    · rw [if_neg hk]
      show (if _ then _ else _) = _
      rw [if_neg]
      cases hg : Dict.get? m.data.pp.piece s.objs with
      | none => simp
      | some v => exact absurd ⟨_, Dict.get?_mem hg, rfl⟩ hk

/-- **C61**: the bags of the clustering model (which have no counters) are these bags: same pieces, same
members, same counts, same parents. -/
theorem C61_model (ns : List PNode) (hn : ns.Nodup) :
    (ns.foldl BucketSt.addNode {}).objs.map (fun kb => (kb.1, kb.2.objs, kb.2.count, kb.2.pNodesCount, kb.2.parents)) =
      (bucketOf ns).map (fun b => (b.piece, b.nodes, b.count, b.pNodesCount, b.pNodes)) ∧
    (ns.foldl BucketSt.addNode {}).count = (bucketOf ns).count ∧
    (ns.foldl BucketSt.addNode {}).pNodes.1 = (bucketOf ns).pNodes := by
  obtain ⟨h1, h2, h3⟩ := bucketSt_objs ns
  obtain ⟨g1, g2⟩ := bucketOf_spec ns
  have hfn : ∀ k : Str, (ns.filter (fun n => decide (n.pc = k))).Nodup := fun k => hn.filter _
  have e1 : (ns.foldl BucketSt.addNode {}).objs.map
        (fun kb => (kb.1, kb.2.objs, kb.2.count, kb.2.pNodesCount, kb.2.parents)) =
      (bucketOf ns).map (fun b => (b.piece, b.nodes, b.count, b.pNodesCount, b.pNodes)) := by
    rw [h1, groupBy_eq, ← g1, List.map_map, List.map_map, List.map_map]
    apply List.map_congr_left
    intro b hb
    have hnb := g2 b hb
    simp only [Function.comp_apply, bagSt_fold]
    rw [← hnb]
    have hnd : b.nodes.Nodup := by rw [hnb]; exact hfn _
    rw [uniq_of_nodup hnd]
    refine Prod.ext rfl (Prod.ext rfl (Prod.ext rfl (Prod.ext rfl ?_)))
    show uniq _ = b.nodes.foldl (fun acc n => setAdd n.parent acc) []
    unfold uniq
    rw [List.foldl_map]
  refine ⟨e1, ?_, ?_⟩
  · have hs : ∀ (ns : List PNode), (bucketOf ns).count = (ns.map (fun n => n.data.count)).sum := by
      intro ns
      refine snoc_ind (P := fun ns => (bucketOf ns).count = (ns.map (fun n => n.data.count)).sum) rfl ?_ ns
      intro ns n ih
      rw [bucketOf_concat, List.map_append, List.sum_append, ← ih]
      have : ∀ bs : Bucket, (Bucket.addNode n bs).count = bs.count + n.data.count := by
        intro bs
        induction bs with
        | nil => simp [Bucket.addNode, Bucket.count, PieceBag.count, PieceBag.nodes]
        | cons b bs ih =>
          rw [Bucket.addNode]
          split
          · simp only [Bucket.count, List.map_cons, List.sum_cons, PieceBag.count, PieceBag.nodes, List.map_append,
              List.sum_append, List.map_nil, List.sum_nil]
            omega
          · simp only [Bucket.count, List.map_cons, List.sum_cons] at ih ⊢
            omega
      rw [this]; simp
    rw [h2, hs]
  · unfold BucketSt.pNodes
    rw [if_pos h3]
    show (ns.foldl BucketSt.addNode {}).objs.foldl _ [] = _
    rw [foldl_setAdd_flat (fun kb : Str × BagSt => kb.2.parents)]
    unfold Bucket.pNodes
    rw [foldl_setAdd_flat (fun b : PieceBag => b.pNodes)]
    congr 1
    have := congrArg (List.map (fun x : Str × List PNode × Int × Int × List (Option (List Str × Int)) => x.2.2.2.2)) e1
    rw [List.map_map, List.map_map] at this
    rw [List.flatMap_def, List.flatMap_def]
    exact congrArg List.flatten this

/-- **C61**: the nodes that a level processor gets are distinct: the children of distinct nodes of one level, when the
keys of the children of a node are distinct (they are the keys of a dict, utils.py:116-118). -/
theorem C61_children (g : List PNode) (d : Nat) (hd : ∀ n ∈ g, n.path.length = d) (hg : (g.map (·.path)).Nodup)
    (hk : ∀ n ∈ g, (n.kids.children.map (·.1)).Nodup) :
    ((g.flatMap childNodes).map (·.path)).Nodup ∧ (g.flatMap childNodes).Nodup ∧
      ∀ c ∈ g.flatMap childNodes, c.path.length = d + 1 := by
  have hp : ((g.flatMap childNodes).map (·.path)).Nodup := by
    induction g with
    | nil => exact List.nodup_nil
    | cons n g ih =>
      rw [List.map_cons, List.nodup_cons] at hg
      rw [List.flatMap_cons, List.map_append, List.nodup_append]
      have e : ∀ m : PNode, (childNodes m).map (·.path) = (m.kids.children.map (·.1)).map (fun k => m.path ++ [k]) := by
        intro m; unfold childNodes; rw [List.map_map, List.map_map]; rfl
      refine ⟨?_, ih (fun m hm => hd m (List.mem_cons_of_mem _ hm)) hg.2 (fun m hm => hk m (List.mem_cons_of_mem _ hm)), ?_⟩
      · rw [e]
        apply List.Pairwise.map (R := (· ≠ ·))
        · intro a b hab e
          exact hab (by simpa using e)
        · exact hk n List.mem_cons_self
      · intro a ha b hb
        rw [e] at ha
        rw [List.map_flatMap, List.mem_flatMap] at hb
        obtain ⟨m, hm, hb⟩ := hb
        rw [e] at hb
        obtain ⟨k, -, rfl⟩ := List.mem_map.mp ha
        obtain ⟨k', -, rfl⟩ := List.mem_map.mp hb
        intro he
        have hl : n.path.length = m.path.length := by
          rw [hd n List.mem_cons_self, hd m (List.mem_cons_of_mem _ hm)]
        have := (List.append_inj he hl).1
        exact hg.1 (List.mem_map.mpr ⟨m, hm, this.symm⟩)
  refine ⟨hp, nodup_of_map hp, ?_⟩
  intro c hc
  obtain ⟨n, hn, hc⟩ := List.mem_flatMap.mp hc
  unfold childNodes at hc
  obtain ⟨k, -, rfl⟩ := List.mem_map.mp hc
  simp [hd n hn]

/-- Is in the bag or in a bag inside it, at any depth. -/
inductive Inside {α : Type} (x : α) : NestedBag α → Prop
  | here (rest) : Inside x (.obj x rest)
  | skip (y rest) : Inside x rest → Inside x (.obj y rest)
  | inner (b rest) : Inside x b → Inside x (.bag b rest)
  | outer (b rest) : Inside x rest → Inside x (.bag b rest)

/-- No inner bag is empty. -/
inductive Filled {α : Type} : NestedBag α → Prop
  | nil : Filled .nil
  | obj (x rest) : Filled rest → Filled (.obj x rest)
  | bag (b rest) : b ≠ .nil → Filled b → Filled rest → Filled (.bag b rest)

/-- **C61**: `iter_all` yields what is inside, at any depth, and nothing else. -/
theorem C61_iter_all {α : Type} (b : NestedBag α) (x : α) : x ∈ b.iterAll ↔ Inside x b := by
  constructor
  · intro h
    induction b with
    | nil => exact absurd h List.not_mem_nil
    | obj y rest ih =>
      rcases List.mem_cons.mp h with rfl | h
      · exact .here _
      · exact .skip _ _ (ih h)
    | bag i rest ih1 ih2 =>
      rcases List.mem_append.mp h with h | h
      · exact .inner _ _ (ih1 h)
      · exact .outer _ _ (ih2 h)
  · intro h
    induction h with
    | here => exact List.mem_cons_self
    | skip _ _ _ ih => exact List.mem_cons_of_mem _ ih
    | inner _ _ _ ih => exact List.mem_append_left _ ih
    | outer _ _ _ ih => exact List.mem_append_right _ ih

/-- **C61**: without empty inner bags `pick` returns the first object of `iter_all`, and `None` for the empty bag only. -/
theorem C61_pick {α : Type} (b : NestedBag α) (h : Filled b) :
    b.pick = b.iterAll.head? ∧ (b.pick = none ↔ b = .nil) := by
  induction h with
  | nil => simp [NestedBag.pick, NestedBag.iterAll]
  | obj => simp [NestedBag.pick, NestedBag.iterAll]
  | bag i rest hne _ _ ih1 _ =>
    have hp : i.pick ≠ none := fun e => hne (ih1.2.mp e)
    refine ⟨?_, by simp [NestedBag.pick, hp]⟩
    show i.pick = (i.iterAll ++ rest.iterAll).head?
    rw [ih1.1, List.head?_append]
    cases hh : i.iterAll.head? with
    | none => exact absurd (ih1.1.trans hh) hp
    | some a => rfl

/-- **C61**, failure of `pick` in general: after an empty inner bag it returns `None` though there is an object
(utils.py:36-37 promises "a most inside object"). -/
theorem C61_pick_false : ∃ b : NestedBag Nat, b.pick = none ∧ b.iterAll = [1] :=
  ⟨.bag .nil (.obj 1 .nil), by decide, by decide⟩

/-- Two nodes of one level with the same piece under different parents, a third with another piece. -/
def c61a : PNode := ⟨[c!"x", c!"p"], ⟨single c!"p" c!"a-z", none, 2, none⟩, .nil, some ([c!"x"], 5)⟩
/-- See `c61a`. -/
def c61b : PNode := ⟨[c!"y", c!"p"], ⟨single c!"p" c!"a-z", none, 1, none⟩, .nil, some ([c!"y"], 1)⟩
/-- See `c61a`. -/
def c61c : PNode := ⟨[c!"x", c!"q"], ⟨single c!"q" c!"a-z", none, 3, none⟩, .nil, some ([c!"x"], 5)⟩

/-- **C61**, failure when a node is added twice: the bag holds it once and counts it twice. -/
theorem C61_twice_false : ([c61a, c61a].foldl BagSt.add {}).objs = [c61a] ∧
    ([c61a, c61a].foldl BagSt.add {}).count = 4 ∧ c61a.data.count = 2 := by decide

/-- **C61**, failure when the parents are asked for too early: they stay as they were at that time. -/
theorem C61_stale_false :
    let s := (([c61a].foldl BucketSt.addNode {}).pNodes.2).addNode c61b
    s.pNodes.1 = [some ([c!"x"], 5)] ∧ (s.objs.map (fun kb => kb.2.parents)) = [[some ([c!"x"], 5), some ([c!"y"], 1)]] := by
  decide

example : ([c61a, c61b, c61c].foldl BucketSt.addNode {}).objs.map (fun kb => (kb.1, kb.2.objs, kb.2.count, kb.2.pNodesCount)) =
    [(c!"p", [c61a, c61b], 3, 6), (c!"q", [c61c], 3, 5)] ∧
    ([c61a, c61b, c61c].foldl BucketSt.addNode {}).pNodes.1 = [some ([c!"x"], 5), some ([c!"y"], 1)] := by decide

example : (NestedBag.bag (.bag (.obj 3 .nil) .nil) (.obj 1 (.bag (.obj 2 .nil) .nil))).iterAll = [3, 1, 2] ∧
    (NestedBag.bag (.bag (.obj 3 .nil) .nil) (.obj 1 (.bag (.obj 2 .nil) .nil))).pick = some 3 := by decide

end OsUrl
