import Verif.Proofs.Rows
import Verif.Proofs.Shape

/-! One run of the level processors over a piece tree, on rows. -/

namespace OsUrl

theorem nodup_of_map {α β : Type} {f : α → β} {l : List α} (h : (l.map f).Nodup) : l.Nodup := by
  rw [List.nodup_iff_pairwise_ne, List.pairwise_map] at h
  rw [List.nodup_iff_pairwise_ne]
  exact h.imp (fun hab e => hab (by rw [e]))

/-- The piece of a node. -/
def PNode.pc (n : PNode) : Str := n.data.pp.piece

theorem addNode_piece (n : PNode) (bs : Bucket) :
    (Bucket.addNode n bs).map PieceBag.piece = setAdd n.pc (bs.map PieceBag.piece) := by
  induction bs with
  | nil => simp [Bucket.addNode, setAdd, PieceBag.piece, PieceBag.pp, PNode.pc]
  | cons b bs ih =>
    by_cases h : b.piece = n.data.pp.piece
    · have e1 : setAdd n.pc ((b :: bs).map PieceBag.piece) = (b :: bs).map PieceBag.piece := by
        unfold setAdd; rw [if_pos]; simp [PNode.pc, h]
      rw [e1, Bucket.addNode, if_pos h]
      simp [PieceBag.piece, PieceBag.pp]
    · rw [Bucket.addNode, if_neg h, List.map_cons, ih]
      unfold setAdd
      by_cases h2 : n.pc ∈ bs.map PieceBag.piece
      · rw [if_pos h2, if_pos (by simp only [List.map_cons, List.mem_cons]; exact .inr h2)]; rfl
      · rw [if_neg h2, if_neg (by
          simp only [List.map_cons, List.mem_cons, not_or]
          exact ⟨fun e => h e.symm, h2⟩)]; rfl

theorem mem_addNode {n : PNode} {bs : Bucket} (hn : (bs.map PieceBag.piece).Nodup) {b : PieceBag}
    (hb : b ∈ Bucket.addNode n bs) :
    (b.piece = n.pc ∧ ((b.nodes = [n] ∧ n.pc ∉ bs.map PieceBag.piece) ∨
      ∃ b0 ∈ bs, b0.piece = n.pc ∧ b.nodes = b0.nodes ++ [n])) ∨ (b ∈ bs ∧ b.piece ≠ n.pc) := by
  induction bs with
  | nil =>
    simp only [Bucket.addNode, List.mem_singleton] at hb
    subst hb
    exact .inl ⟨rfl, .inl ⟨rfl, by simp⟩⟩
  | cons b0 bs ih =>
    rw [List.map_cons, List.nodup_cons] at hn
    by_cases h : b0.piece = n.data.pp.piece
    · rw [Bucket.addNode, if_pos h, List.mem_cons] at hb
      rcases hb with rfl | hb
      · exact .inl ⟨h, .inr ⟨b0, by simp, h, by simp [PieceBag.nodes]⟩⟩
      · refine .inr ⟨by simp [hb], ?_⟩
        intro e
        exact hn.1 (List.mem_map.mpr ⟨b, hb, e.trans h.symm⟩)
    · rw [Bucket.addNode, if_neg h, List.mem_cons] at hb
      rcases hb with rfl | hb
      · exact .inr ⟨by simp, h⟩
      · rcases ih hn.2 hb with ⟨h1, h2 | ⟨b1, h3, h4⟩⟩ | ⟨h1, h2⟩
        · refine .inl ⟨h1, .inl ⟨h2.1, ?_⟩⟩
          rw [List.map_cons, List.mem_cons, not_or]
          exact ⟨fun e => h e.symm, h2.2⟩
        · exact .inl ⟨h1, .inr ⟨b1, by simp [h3], h4⟩⟩
        · exact .inr ⟨by simp [h1], h2⟩

theorem bucketOf_concat (nodes : List PNode) (n : PNode) :
    bucketOf (nodes ++ [n]) = Bucket.addNode n (bucketOf nodes) := by
  simp [bucketOf, List.foldl_append]

/-- The bags of a processor: the nodes by piece. -/
theorem bucketOf_spec (nodes : List PNode) :
    (bucketOf nodes).map PieceBag.piece = uniq (nodes.map PNode.pc) ∧
      ∀ b ∈ bucketOf nodes, b.nodes = nodes.filter (fun n => decide (n.pc = b.piece)) := by
  refine snoc_ind (P := fun nodes => (bucketOf nodes).map PieceBag.piece = uniq (nodes.map PNode.pc) ∧
      ∀ b ∈ bucketOf nodes, b.nodes = nodes.filter (fun n => decide (n.pc = b.piece))) ?_ ?_ nodes
  · simp [bucketOf, uniq]
  · intro nodes n ⟨ih1, ih2⟩
    have hnd : ((bucketOf nodes).map PieceBag.piece).Nodup := by rw [ih1]; exact nodup_uniq _
    rw [bucketOf_concat]
    refine ⟨?_, ?_⟩
    · rw [addNode_piece, ih1, List.map_append, List.map_singleton, uniq_concat]
    · intro b hb
      rw [List.filter_append]
      rcases mem_addNode hnd hb with ⟨h1, ⟨h2, h3⟩ | ⟨b0, h2, h3, h4⟩⟩ | ⟨h1, h2⟩
      · rw [h2]
        have : nodes.filter (fun n => decide (n.pc = b.piece)) = [] := by
          rw [List.filter_eq_nil_iff]
          intro a ha
          rw [decide_eq_true_eq]
          intro e
          apply h3
          rw [ih1, mem_uniq, ← h1, ← e]
          exact List.mem_map.mpr ⟨a, ha, rfl⟩
        rw [this]; simp [h1]
      · rw [h4, ih2 b0 h2, h3, h1]; simp
      · rw [ih2 b h1]; simp [Ne.symm h2]

theorem rtBuckets_nil (rt : Runtime) : rt.buckets [] = [] := List.perm_nil.mp (rt.buckets_perm [])

theorem rtBucket_one (rt : Runtime) (a : PNode) : rt.bucket [a] = [⟨a, []⟩] := by
  have h : rt.nodes [a] = [a] := List.perm_singleton.mp (rt.nodes_perm [a])
  show [rt.bag ⟨a, []⟩] = _
  unfold Runtime.bag
  rw [show (⟨a, []⟩ : PieceBag).nodes = [a] from rfl, h]

theorem rtBag_nodes (rt : Runtime) (b : PieceBag) : (rt.bag b).nodes = rt.nodes b.nodes := by
  unfold Runtime.bag
  cases e : rt.nodes b.nodes with
  | nil =>
    have := (rt.nodes_perm b.nodes).length_eq
    rw [e] at this
    simp [PieceBag.nodes] at this
  | cons n ns => rfl

/-- The bags of a processor, each in the order of its set. -/
theorem rtBucket_spec (rt : Runtime) (nodes : List PNode) :
    (rt.bucket nodes).map PieceBag.piece = uniq (nodes.map PNode.pc) ∧
      ∀ b ∈ rt.bucket nodes, b.nodes.Perm (nodes.filter (fun n => decide (n.pc = b.piece))) := by
  obtain ⟨h1, h2⟩ := bucketOf_spec nodes
  have hp : ∀ b ∈ bucketOf nodes, (rt.bag b).piece = b.piece := by
    intro b hb
    have hm : (rt.bag b).first ∈ (rt.bag b).nodes := by simp [PieceBag.nodes]
    rw [rtBag_nodes, (rt.nodes_perm _).mem_iff, h2 b hb, List.mem_filter, decide_eq_true_eq] at hm
    exact hm.2
  refine ⟨?_, ?_⟩
  · rw [← h1]
    unfold Runtime.bucket
    rw [List.map_map]
    exact List.map_congr_left hp
  · intro b hb
    obtain ⟨b0, hb0, rfl⟩ := List.mem_map.mp hb
    rw [hp b0 hb0, rtBag_nodes, ← h2 b0 hb0]
    exact rt.nodes_perm _

theorem rtBucket_nodup (rt : Runtime) (nodes : List PNode) : ((rt.bucket nodes).map PieceBag.piece).Nodup := by
  rw [(rtBucket_spec rt nodes).1]; exact nodup_uniq _

theorem bag_mem_nodes {rt : Runtime} {nodes : List PNode} {b : PieceBag} (hb : b ∈ rt.bucket nodes) : b.first ∈ nodes := by
  have : b.first ∈ b.nodes := by simp [PieceBag.nodes]
  rw [((rtBucket_spec rt nodes).2 b hb).mem_iff, List.mem_filter] at this
  exact this.1

theorem node_bag (rt : Runtime) {nodes : List PNode} {n : PNode} (hn : n ∈ nodes) : ∃ b ∈ rt.bucket nodes, b.piece = n.pc := by
  have : n.pc ∈ (rt.bucket nodes).map PieceBag.piece := by
    rw [(rtBucket_spec rt nodes).1, mem_uniq]; exact List.mem_map.mpr ⟨n, hn, rfl⟩
  exact List.mem_map.mp this

theorem mem_bucket_nodes {rt : Runtime} {nodes : List PNode} {n : PNode} : n ∈ (rt.bucket nodes).flatMap (·.nodes) ↔ n ∈ nodes := by
  rw [List.mem_flatMap]
  constructor
  · rintro ⟨b, hb, hn⟩
    rw [((rtBucket_spec rt nodes).2 b hb).mem_iff, List.mem_filter] at hn
    exact hn.1
  · intro hn
    obtain ⟨b, hb, e⟩ := node_bag rt hn
    refine ⟨b, hb, ?_⟩
    rw [((rtBucket_spec rt nodes).2 b hb).mem_iff, List.mem_filter]
    exact ⟨hn, by simp [e]⟩

/-- Regrouping by key is a permutation. -/
theorem perm_partition {α κ : Type} [DecidableEq κ] (key : α → κ) (xs : List α) (ks : List κ) (hn : ks.Nodup)
    (hks : ∀ x ∈ xs, key x ∈ ks) : (ks.flatMap (fun k => xs.filter (fun x => decide (key x = k)))).Perm xs := by
  induction ks generalizing xs with
  | nil =>
    cases xs with
    | nil => exact .nil
    | cons x xs => simpa using hks x (by simp)
  | cons k ks ih =>
    rw [List.nodup_cons] at hn
    rw [List.flatMap_cons]
    have e : ks.flatMap (fun k => xs.filter (fun x => decide (key x = k))) =
        ks.flatMap (fun k' => (xs.filter (fun x => !decide (key x = k))).filter (fun x => decide (key x = k'))) := by
      apply flatMap_congr
      intro k' hk'
      rw [List.filter_filter]
      apply List.filter_congr
      intro x _
      by_cases h : key x = k'
      · have : key x ≠ k := by rintro rfl; exact hn.1 (h ▸ hk')
        have h' : k' ≠ k := fun e => this (h.trans e)
        simp [h, h']
      · simp [h]
    rw [e]
    refine ((ih _ hn.2 ?_).append_left _).trans (List.filter_append_perm _ _)
    intro x hx
    rw [List.mem_filter] at hx
    have := hks x hx.1
    simp only [Bool.not_eq_true', decide_eq_false_iff_not] at hx
    rw [List.mem_cons] at this
    exact this.resolve_left hx.2

theorem bucket_nodes_perm (rt : Runtime) (nodes : List PNode) : ((rt.bucket nodes).flatMap (·.nodes)).Perm nodes := by
  have h := rtBucket_spec rt nodes
  have e : ((rt.bucket nodes).flatMap (·.nodes)).Perm
      (((rt.bucket nodes).map PieceBag.piece).flatMap (fun k => nodes.filter (fun n => decide (n.pc = k)))) := by
    rw [List.flatMap_map]
    have key : ∀ bs : List PieceBag, (∀ b ∈ bs, b.nodes.Perm (nodes.filter (fun n => decide (n.pc = b.piece)))) →
        (bs.flatMap (·.nodes)).Perm (bs.flatMap (fun b => nodes.filter (fun n => decide (n.pc = b.piece)))) := by
      intro bs
      induction bs with
      | nil => intro _; exact .refl _
      | cons b bs ih =>
        intro hb
        rw [List.flatMap_cons, List.flatMap_cons]
        exact (hb b (by simp)).append (ih (fun b' hb' => hb b' (by simp [hb'])))
    exact key _ h.2
  refine e.trans ?_
  refine perm_partition PNode.pc nodes _ (rtBucket_nodup rt nodes) ?_
  intro n hn
  rw [h.1, mem_uniq]
  exact List.mem_map.mpr ⟨n, hn, rfl⟩

/-- What a bag means for its level: its piece and count. -/
def PieceBag.ent (b : PieceBag) : Ent := (b.pp, b.count)

/-- The rows `S` are fit for clustering over `n` levels: `OK j` is what level `j` asks of its pieces. -/
structure RowsOK (OK : Nat → List ParsedPiece → Prop) (n : Nat) (S : List Ins) : Prop where
  len : ∀ x ∈ S, x.path.length = n
  pos : ∀ x ∈ S, 1 ≤ x.count
  ok : ∀ j, j < n → OK j (S.map (Ins.pp j))
  inj : ∀ j, j < n → ∀ x ∈ S, ∀ y ∈ S, (x.pp j).piece = (y.pp j).piece → x.pp j = y.pp j

/-- `OK` carries over to fewer pieces. -/
def Mono (OK : Nat → List ParsedPiece → Prop) : Prop :=
  ∀ j (A B : List ParsedPiece), (∀ a ∈ A, a ∈ B) → OK j B → OK j A

theorem RowsOK.sub {OK : Nat → List ParsedPiece → Prop} {n : Nat} {S S' : List Ins} (hm : Mono OK)
    (h : RowsOK OK n S) (hs : ∀ x ∈ S', x ∈ S) : RowsOK OK n S' where
  len x hx := h.len x (hs x hx)
  pos x hx := h.pos x (hs x hx)
  ok j hj := hm j _ _ (fun a ha => by
    obtain ⟨x, hx, rfl⟩ := List.mem_map.mp ha
    exact List.mem_map.mpr ⟨x, hs x hx, rfl⟩) (h.ok j hj)
  inj j hj x hx y hy := h.inj j hj x (hs x hx) y (hs y hy)

/-- The configuration of the processor of level `j` (from 0; the root is not counted). -/
def cfgAt (mcn : Int) (m : URLMeta) (kw : Bool) (n j : Nat) : LevelCfg :=
  ⟨mcn, j + 1, decide (j + 1 = n), m.pathDepth == j + 1, kw⟩

/-- The stages of every level compute the level function `F`. -/
structure LevelOK (rt : Runtime) (nested : NestedCluster) (mcn : Int) (m : URLMeta) (kw : Bool) (n : Nat)
    (OK : Nat → List ParsedPiece → Prop) (F : LevelFn) : Prop where
  mono : Mono OK
  perm : PermInv F
  run : ∀ j (bucket : Bucket), j < n → bucket ≠ [] → (bucket.map PieceBag.piece).Nodup →
    (∀ b ∈ bucket, 1 ≤ b.count) → OK j (bucket.map PieceBag.pp) →
    ∃ st, processStages rt nested (cfgAt mcn m kw n j) bucket = .ok st ∧
      (∀ b ∈ bucket, st.assign.pattern b.piece = F j (bucket.map PieceBag.ent) b.pp) ∧
      (st.patternNum > 1 ↔ ∃ b ∈ bucket, ∃ b' ∈ bucket,
        F j (bucket.map PieceBag.ent) b.pp ≠ F j (bucket.map PieceBag.ent) b'.pp)

/-- The rows below a node of level `j`. -/
def rowsAt (j : Nat) (S : List Ins) (p : List Str) : List Ins :=
  S.filter (fun x => decide (x.keys.take (j + 1) = p))

/-- The node stands for the rows of `S` that go through it. -/
structure IsNode (n j : Nat) (S : List Ins) (nd : PNode) : Prop where
  ne : rowsAt j S nd.path ≠ []
  pp : ∀ x ∈ rowsAt j S nd.path, nd.data.pp = x.pp j
  count : nd.data.count = total (rowsAt j S nd.path)
  kids : ∃ g : List Ins, g.Perm (rowsAt j S nd.path) ∧ nd.kids = grow (n - 1 - j) (g.map (Ins.drop (j + 1)))

/-- The nodes of a processor of level `j` stand for the rows `S`. -/
structure NodesOf (n j : Nat) (S : List Ins) (nodes : List PNode) : Prop where
  nodup : (nodes.map (·.path)).Nodup
  cover : ∀ x ∈ S, x.keys.take (j + 1) ∈ nodes.map (·.path)
  node : ∀ nd ∈ nodes, IsNode n j S nd

theorem keys_getElem (x : Ins) (j : Nat) (h : j < x.path.length) : x.keys[j]? = some (x.pp j).piece := by
  unfold Ins.keys Ins.pp
  rw [List.getElem?_map]
  simp [h]

theorem take_pp {OK : Nat → List ParsedPiece → Prop} {n : Nat} {S : List Ins} (h : RowsOK OK n S) {x y : Ins}
    (hx : x ∈ S) (hy : y ∈ S) {j : Nat} (hj : j ≤ n) :
    x.keys.take j = y.keys.take j ↔ ∀ l, l < j → x.pp l = y.pp l := by
  constructor
  · intro e l hl
    apply h.inj l (by omega) x hx y hy
    have : (x.keys.take j)[l]? = (y.keys.take j)[l]? := by rw [e]
    rw [List.getElem?_take, List.getElem?_take, if_pos hl, if_pos hl, keys_getElem _ _ (by rw [h.len x hx]; omega),
      keys_getElem _ _ (by rw [h.len y hy]; omega)] at this
    injection this
  · intro e
    apply List.ext_getElem?
    intro l
    rw [List.getElem?_take, List.getElem?_take]
    by_cases hl : l < j
    · rw [if_pos hl, if_pos hl, keys_getElem _ _ (by rw [h.len x hx]; omega),
        keys_getElem _ _ (by rw [h.len y hy]; omega), e l hl]
    · rw [if_neg hl, if_neg hl]

theorem mem_rowsAt {j : Nat} {S : List Ins} {p : List Str} {x : Ins} :
    x ∈ rowsAt j S p ↔ x ∈ S ∧ x.keys.take (j + 1) = p := by simp [rowsAt]

/-- Sum over the rows by node. -/
theorem bag_count {n j : Nat} {S : List Ins} {nodes : List PNode} (h : NodesOf n j S nodes) (q : PNode → Bool)
    (p : Ins → Bool) (hq : ∀ nd ∈ nodes, ∀ x ∈ rowsAt j S nd.path, q nd = p x) :
    ((nodes.filter q).map (·.data.count)).sum = total (S.filter p) := by
  have e : (nodes.filter q).map (·.data.count) =
      ((nodes.filter q).map (·.path)).map (fun k => total ((S.filter p).filter (fun x => decide (x.keys.take (j + 1) = k)))) := by
    rw [List.map_map]
    apply List.map_congr_left
    intro nd hnd
    rw [List.mem_filter] at hnd
    rw [(h.node nd hnd.1).count]
    simp only [Function.comp]
    congr 1
    rw [List.filter_filter]
    unfold rowsAt
    apply List.filter_congr
    intro x hx
    by_cases hk : x.keys.take (j + 1) = nd.path
    · simp [hk, ← hq nd hnd.1 x (mem_rowsAt.mpr ⟨hx, hk⟩), hnd.2]
    · simp [hk]
  rw [e]
  apply total_partition (fun x : Ins => x.keys.take (j + 1))
  · exact h.nodup.sublist (List.filter_sublist.map _)
  · intro x hx
    rw [List.mem_filter] at hx
    obtain ⟨nd, hnd, hp⟩ := List.mem_map.mp (h.cover x hx.1)
    refine List.mem_map.mpr ⟨nd, ?_, hp⟩
    rw [List.mem_filter]
    exact ⟨hnd, by rw [hq nd hnd x (mem_rowsAt.mpr ⟨hx.1, hp.symm⟩)]; exact hx.2⟩

theorem bag_piece_eq {rt : Runtime} {OK : Nat → List ParsedPiece → Prop} {n j : Nat} {S : List Ins} {nodes : List PNode}
    (hS : RowsOK OK n S) (hj : j < n) (h : NodesOf n j S nodes) {b : PieceBag} (hb : b ∈ rt.bucket nodes) :
    (∃ x ∈ S, b.pp = x.pp j) ∧ ∀ x ∈ S, ((x.pp j).piece = b.piece ↔ x.pp j = b.pp) := by
  have hf := bag_mem_nodes hb
  have hn := h.node _ hf
  obtain ⟨x, hx⟩ := List.exists_mem_of_ne_nil _ hn.ne
  have e := hn.pp x hx
  have hxS := (mem_rowsAt.mp hx).1
  refine ⟨⟨x, hxS, e⟩, ?_⟩
  intro y hy
  constructor
  · intro e2
    have : b.pp = x.pp j := e
    rw [this]
    apply hS.inj j hj y hy x hxS
    rw [e2]; unfold PieceBag.piece; rw [this]
  · intro e2; rw [e2]; rfl

theorem bucket_ent (rt : Runtime) {OK : Nat → List ParsedPiece → Prop} {n j : Nat} {S : List Ins} {nodes : List PNode}
    (hS : RowsOK OK n S) (hj : j < n) (h : NodesOf n j S nodes) :
    ((rt.bucket nodes).map PieceBag.ent).Perm (ent j S) := by
  rw [List.perm_ext_iff_of_nodup]
  · rintro ⟨p, c⟩
    rw [mem_ent, List.mem_map]
    have hcount : ∀ b ∈ rt.bucket nodes, b.count = total (S.filter (fun x => decide (x.pp j = b.pp))) := by
      intro b hb
      unfold PieceBag.count
      rw [sum_perm (((rtBucket_spec rt nodes).2 b hb).map _)]
      apply bag_count h
      intro nd hnd x hx
      have e1 := (h.node nd hnd).pp x hx
      have e2 := (bag_piece_eq hS hj h hb).2 x (mem_rowsAt.mp hx).1
      unfold PNode.pc
      rw [e1]
      exact decide_eq_decide.mpr e2
    constructor
    · rintro ⟨b, hb, e⟩
      injection e with e1 e2
      subst e1
      obtain ⟨x, hx, e⟩ := (bag_piece_eq hS hj h hb).1
      exact ⟨List.mem_map.mpr ⟨x, hx, e.symm⟩, by rw [← e2, hcount b hb]⟩
    · rintro ⟨h1, h2⟩
      obtain ⟨x, hx, rfl⟩ := List.mem_map.mp h1
      obtain ⟨nd, hnd, hp⟩ := List.mem_map.mp (h.cover x hx)
      obtain ⟨b, hb, e⟩ := node_bag rt hnd
      have e1 := (h.node nd hnd).pp x (mem_rowsAt.mpr ⟨hx, hp.symm⟩)
      have e2 := ((bag_piece_eq hS hj h hb).2 x hx).mp (by rw [e]; unfold PNode.pc; rw [e1])
      refine ⟨b, hb, ?_⟩
      unfold PieceBag.ent
      rw [h2, hcount b hb, e2]
  · have := rtBucket_nodup rt nodes
    have e : (rt.bucket nodes).map PieceBag.piece = ((rt.bucket nodes).map PieceBag.ent).map (fun e => e.1.piece) := by
      rw [List.map_map]; rfl
    rw [e] at this
    exact nodup_of_map this
  · have := nodup_uniq (S.map (Ins.pp j))
    rw [← ent_fst] at this
    exact nodup_of_map this

end OsUrl
