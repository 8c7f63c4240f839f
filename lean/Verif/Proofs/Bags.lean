import Verif.Model.Bags
import Verif.Proofs.Proc
import Verif.Proofs.Grow2

/-! The counters of bags and buckets. -/

namespace OsUrl

/-- What a node adds to `stats['p_nodes_count']`. -/
def PNode.above (n : PNode) : Int := match n.parent with | some (_, c) => c | none => n.data.count

theorem bagSt_fold (ns : List PNode) :
    ns.foldl BagSt.add {} =
      ⟨uniq ns, (ns.map (fun n => n.data.count)).sum, (ns.map PNode.above).sum, uniq (ns.map (·.parent))⟩ := by
  refine snoc_ind (P := fun ns => ns.foldl BagSt.add {} =
      ⟨uniq ns, (ns.map (fun n => n.data.count)).sum, (ns.map PNode.above).sum, uniq (ns.map (·.parent))⟩) rfl ?_ ns
  intro ns n ih
  rw [List.foldl_append, ih]
  simp [BagSt.add, uniq_concat, List.sum_append, PNode.above]
  cases n.parent <;> rfl

theorem bucketSt_objs (ns : List PNode) :
    (ns.foldl BucketSt.addNode {}).objs =
      (groupBy PNode.pc ns).map (fun kv => (kv.1, kv.2.foldl BagSt.add {})) ∧
    (ns.foldl BucketSt.addNode {}).count = (ns.map (fun n => n.data.count)).sum ∧
    (ns.foldl BucketSt.addNode {}).cache = [] := by
  refine snoc_ind (P := fun ns => (ns.foldl BucketSt.addNode {}).objs =
      (groupBy PNode.pc ns).map (fun kv => (kv.1, kv.2.foldl BagSt.add {})) ∧
    (ns.foldl BucketSt.addNode {}).count = (ns.map (fun n => n.data.count)).sum ∧
    (ns.foldl BucketSt.addNode {}).cache = []) ⟨rfl, rfl, rfl⟩ ?_ ns
  intro ns n ⟨ih1, ih2, ih3⟩
  rw [List.foldl_append, List.foldl_cons, List.foldl_nil]
  refine ⟨?_, ?_, ?_⟩
  · show Dict.upd n.data.pp.piece (fun o : Option BagSt => (o.getD {}).add n) _ = _
    rw [ih1, groupBy_concat]
    symm
    apply Dict.upd_map (fun xs : List PNode => xs.foldl BagSt.add {})
    cases Dict.get? n.pc (groupBy PNode.pc ns) <;> simp [List.foldl_append]
  · show _ + _ = _
    rw [ih2]; simp [List.sum_append]
  · exact ih3

theorem foldl_setAdd_flat {α β : Type} [DecidableEq α] (f : β → List α) (xs : List β) (acc : List α) :
    xs.foldl (fun acc b => (f b).foldl (fun acc p => setAdd p acc) acc) acc =
      (xs.flatMap f).foldl (fun acc p => setAdd p acc) acc := by
  induction xs generalizing acc with
  | nil => rfl
  | cons x xs ih => rw [List.foldl_cons, ih, List.flatMap_cons, List.foldl_append]

end OsUrl
