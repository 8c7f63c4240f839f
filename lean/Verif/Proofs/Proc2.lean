import Verif.Proofs.Proc

/-! The recursion over the levels. -/

namespace OsUrl

theorem Ins.drop_key (j : Nat) (x : Ins) (h : j < x.path.length) : (x.drop j).key = (x.pp j).piece := by
  unfold Ins.key Ins.drop Ins.pp
  rw [List.drop_eq_getElem_cons h]
  simp [h]

theorem Ins.drop_tail (j : Nat) (x : Ins) : (x.drop j).tail = x.drop (j + 1) := by
  unfold Ins.tail Ins.drop; simp

theorem Ins.drop_count (j : Nat) (x : Ins) : (x.drop j).count = x.count := rfl

theorem Ins.drop_newHead (j : Nat) (x : Ins) (h : j < x.path.length) : (x.drop j).newHead.pp = x.pp j := by
  unfold Ins.newHead Ins.drop Ins.pp
  rw [List.drop_eq_getElem_cons h]
  simp [newNode, h]

/-- The rows of a node, level by level. -/
theorem take_succ_iff (x : Ins) (j : Nat) (hx : j < x.path.length) (p : List Str) (k : Str) (hp : p.length = j) :
    x.keys.take (j + 1) = p ++ [k] ↔ x.keys.take j = p ∧ (x.pp j).piece = k := by
  rw [List.take_add_one, keys_getElem x j hx]
  constructor
  · intro e
    have hl : (x.keys.take j).length = p.length := by
      rw [List.length_take, hp]
      have : x.keys.length = x.path.length := by simp [Ins.keys]
      omega
    have := List.append_inj e hl
    exact ⟨this.1, by simpa using this.2⟩
  · rintro ⟨rfl, rfl⟩; rfl

theorem isNode_child {OK : Nat → List ParsedPiece → Prop} {n j : Nat} {S : List Ins} (hS : RowsOK OK n S)
    (hj : j + 1 < n) {nd : PNode} (h : IsNode n j S nd) :
    ((childNodes nd).map (·.path)).Nodup ∧
    (∀ x ∈ rowsAt j S nd.path, x.keys.take (j + 2) ∈ (childNodes nd).map (·.path)) ∧
    ∀ c ∈ childNodes nd, IsNode n (j + 1) S c ∧ c.path.take (j + 1) = nd.path := by
  obtain ⟨g, hg, hk⟩ := h.kids
  have hgm : ∀ x, x ∈ g ↔ x ∈ S ∧ x.keys.take (j + 1) = nd.path := fun x => hg.mem_iff.trans mem_rowsAt
  have hpl : nd.path.length = j + 1 := by
    obtain ⟨x, hx⟩ := List.exists_mem_of_ne_nil _ h.ne
    have := mem_rowsAt.mp hx
    rw [← this.2, List.length_take]
    have : x.keys.length = x.path.length := by simp [Ins.keys]
    have := hS.len x ‹_ ∧ _›.1
    omega
  have hlen : ∀ x ∈ g, j + 1 < x.path.length := fun x hx => by rw [hS.len x ((hgm x).mp hx).1]; exact hj
  have hkey : ∀ x ∈ g, (x.drop (j + 1)).key = (x.pp (j + 1)).piece := fun x hx => Ins.drop_key _ _ (hlen x hx)
  have hkids : nd.kids.children = (groupBy Ins.key (g.map (Ins.drop (j + 1)))).map
      (fun kg => (kg.1, headData kg.2, grow (n - 1 - (j + 1)) (kg.2.map Ins.tail))) := by
    rw [hk, show n - 1 - j = (n - 1 - (j + 1)) + 1 by omega, grow, Forest.children_ofList]
  have hkeys : (g.map (Ins.drop (j + 1))).map Ins.key = g.map (fun x => (x.pp (j + 1)).piece) := by
    rw [List.map_map]; exact List.map_congr_left hkey
  have hchild : childNodes nd = (uniq (g.map (fun x => (x.pp (j + 1)).piece))).map (fun k =>
      (⟨nd.path ++ [k], headData ((g.filter (fun x => decide ((x.pp (j + 1)).piece = k))).map (Ins.drop (j + 1))),
        grow (n - 1 - (j + 1)) ((g.filter (fun x => decide ((x.pp (j + 1)).piece = k))).map (Ins.drop (j + 2))),
        some (nd.path, nd.data.count)⟩ : PNode)) := by
    unfold childNodes
    rw [hkids, List.map_map, groupBy_eq, List.map_map, hkeys]
    apply List.map_congr_left
    intro k _
    have : (g.map (Ins.drop (j + 1))).filter (fun x => decide (x.key = k)) =
        (g.filter (fun x => decide ((x.pp (j + 1)).piece = k))).map (Ins.drop (j + 1)) :=
      filter_map_same (fun x hx => by rw [hkey x hx])
    simp only [Function.comp, this, List.map_map]
    have : (Ins.tail ∘ Ins.drop (j + 1)) = Ins.drop (j + 2) := by funext x; exact Ins.drop_tail _ _
    rw [this]
  have htake : ∀ x ∈ S, ∀ k, x.keys.take (j + 2) = nd.path ++ [k] ↔ x ∈ g ∧ (x.pp (j + 1)).piece = k := by
    intro x hx k
    rw [take_succ_iff x (j + 1) (by rw [hS.len x hx]; exact hj) _ _ hpl, hgm]
    constructor
    · rintro ⟨a, b⟩; exact ⟨⟨hx, a⟩, b⟩
    · rintro ⟨⟨_, a⟩, b⟩; exact ⟨a, b⟩
  refine ⟨?_, ?_, ?_⟩
  · rw [hchild, List.map_map]
    have e : ((fun x : PNode => x.path) ∘ fun k => (⟨nd.path ++ [k],
        headData ((g.filter (fun x => decide ((x.pp (j + 1)).piece = k))).map (Ins.drop (j + 1))),
        grow (n - 1 - (j + 1)) ((g.filter (fun x => decide ((x.pp (j + 1)).piece = k))).map (Ins.drop (j + 2))),
        some (nd.path, nd.data.count)⟩ : PNode)) = fun k => nd.path ++ [k] := rfl
    rw [e]
    apply List.Pairwise.map (R := (· ≠ ·))
    · intro a b hab e
      exact hab (by simpa using e)
    · exact nodup_uniq _
  · intro x hx
    rw [hchild, List.map_map]
    have hxg := hg.mem_iff.mpr hx
    refine List.mem_map.mpr ⟨(x.pp (j + 1)).piece, mem_uniq.mpr (List.mem_map.mpr ⟨x, hxg, rfl⟩), ?_⟩
    exact ((htake x (mem_rowsAt.mp hx).1 _).mpr ⟨hxg, rfl⟩).symm
  · intro c hc
    rw [hchild, List.mem_map] at hc
    obtain ⟨k, hk, rfl⟩ := hc
    have hrows : (g.filter (fun x => decide ((x.pp (j + 1)).piece = k))).Perm (rowsAt (j + 1) S (nd.path ++ [k])) := by
      have : rowsAt (j + 1) S (nd.path ++ [k]) =
          (rowsAt j S nd.path).filter (fun x => decide ((x.pp (j + 1)).piece = k)) := by
        unfold rowsAt
        rw [List.filter_filter]
        apply List.filter_congr
        intro x hx
        rw [Bool.eq_iff_iff, Bool.and_eq_true, decide_eq_true_eq, decide_eq_true_eq, decide_eq_true_eq,
          take_succ_iff x (j + 1) (by rw [hS.len x hx]; exact hj) _ _ hpl]
        exact And.comm
      rw [this]
      exact hg.filter _
    refine ⟨⟨?_, ?_, ?_, ⟨_, hrows, rfl⟩⟩, ?_⟩
    · obtain ⟨x, hx, e⟩ := List.mem_map.mp (mem_uniq.mp hk)
      apply List.ne_nil_of_mem (a := x)
      exact hrows.mem_iff.mp (List.mem_filter.mpr ⟨hx, by simp [e]⟩)
    · intro x hx
      have hx' := hrows.mem_iff.mpr hx
      cases hgf : g.filter (fun x => decide ((x.pp (j + 1)).piece = k)) with
      | nil => rw [hgf] at hx'; simp at hx'
      | cons y ys =>
        simp only [List.map_cons]
        rw [headData_pp]
        have hy : y ∈ g.filter (fun x => decide ((x.pp (j + 1)).piece = k)) := by rw [hgf]; simp
        rw [List.mem_filter] at hy hx'
        rw [Ins.drop_newHead _ _ (hlen y hy.1)]
        refine hS.inj (j + 1) hj y ((hgm y).mp hy.1).1 x ((hgm x).mp hx'.1).1 ?_
        rw [of_decide_eq_true hy.2, of_decide_eq_true hx'.2]
    · rw [headData_count, List.map_map]
      have : ((fun x : Ins => x.count) ∘ Ins.drop (j + 1)) = fun x : Ins => x.count := rfl
      rw [this]
      exact total_perm hrows
    · rw [List.take_append_of_le_length (by omega), List.take_of_length_le (by omega)]

end OsUrl
