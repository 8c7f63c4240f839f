import Verif.Model.Cluster

/-!
# The bags with the fields Python keeps

utils.py:26-67 and pattern_cluster.py:17-108.  Model/Cluster.lean has bags and buckets without counters: the
counts are computed from the members.  Here the counters, the set of parents and the cached set of parents are
fields that `add` updates, as in the program.
-/

namespace OsUrl

/-- A `Bag` (utils.py:33-67) whose members may be bags, in the order in which its set is iterated:
`obj x rest` is a member that is no bag, `bag inner rest` a member that is one. -/
inductive NestedBag (α : Type) where
  | nil
  | obj (x : α) (rest : NestedBag α)
  | bag (inner rest : NestedBag α)
  deriving DecidableEq, Repr

/-- `Bag.pick`, utils.py:52-56, with `pick` of an iterable, utils.py:26-30; `none` is Python's `None`. -/
def NestedBag.pick {α : Type} : NestedBag α → Option α
  | .nil => none
  | .obj x _ => some x
  | .bag inner _ => inner.pick

/-- `Bag.iter_all`, utils.py:61-67 -/
def NestedBag.iterAll {α : Type} : NestedBag α → List α
  | .nil => []
  | .obj x rest => x :: rest.iterAll
  | .bag inner rest => inner.iterAll ++ rest.iterAll

/-- The fields of a `PieceBag`: `_objs` (utils.py:44), `stats['count']` (pattern_cluster.py:22),
`stats['p_nodes_count']` (pattern_cluster.py:71) and `_p_nodes` (pattern_cluster.py:66). -/
structure BagSt where
  objs : List PNode := []
  count : Int := 0
  pNodesCount : Int := 0
  parents : List (Option (List Str × Int)) := []
  deriving DecidableEq, Repr

/-- `PieceBag.add`, pattern_cluster.py:68-73, with `TBag.add`, pattern_cluster.py:28-30, and `Bag.add`,
utils.py:46-47.  The counters grow whether or not the node is already in the set. -/
def BagSt.add (b : BagSt) (n : PNode) : BagSt :=
  { objs := setAdd n b.objs
    count := b.count + n.data.count
    pNodesCount := b.pNodesCount + (match n.parent with | some (_, c) => c | none => n.data.count)
    parents := setAdd n.parent b.parents }

/-- The fields of a `PieceBagBucket`: `_objs` (pattern_cluster.py:41), `stats['count']` and the cached
`_p_nodes` (pattern_cluster.py:85). -/
structure BucketSt where
  objs : Dict Str BagSt := []
  count : Int := 0
  cache : List (Option (List Str × Int)) := []
  deriving DecidableEq, Repr

/-- `PieceBagBucket.add` of a node, pattern_cluster.py:87-92, :101 -/
def BucketSt.addNode (s : BucketSt) (n : PNode) : BucketSt :=
  { s with
    objs := Dict.upd n.data.pp.piece (fun o => (o.getD {}).add n) s.objs
    count := s.count + n.data.count }

/-- `PieceBagBucket.add` of a bag, pattern_cluster.py:93-97, :101.  The member that `pick` returns is the first
here; `None.piece` of an empty bag raises `AttributeError`. -/
def BucketSt.addBag (s : BucketSt) (b : BagSt) : Py BucketSt :=
  match b.objs with
  | [] => .error .attributeError
  | n :: _ =>
    if (Dict.get? n.data.pp.piece s.objs).isSome then .error .valueError
    else .ok { s with objs := s.objs ++ [(n.data.pp.piece, b)], count := s.count + b.count }

/-- `PieceBagBucket.p_nodes`, pattern_cluster.py:103-108: the set, and the bucket with the set cached. -/
def BucketSt.pNodes (s : BucketSt) : List (Option (List Str × Int)) × BucketSt :=
  if s.cache = [] then
    let ps := s.objs.foldl (fun acc kb => kb.2.parents.foldl (fun acc p => setAdd p acc) acc) []
    (ps, { s with cache := ps })
  else (s.cache, s)

end OsUrl
