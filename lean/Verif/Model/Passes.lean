import Verif.Model.Maker

/-!
# The calls of `process` made by `cluster`

`cluster` (pattern_cluster.py:712-732) calls `process` on the tree it is given, and, when the tree can be
split, itself on every part.  Here the same function returns the list of these calls instead of the clusters;
`Props/C78` proves that the clusters are the trees of the calls after which nothing was split.
-/

namespace OsUrl

/-- One call `process(config, url_meta, root, **kwargs)`, pattern_cluster.py:725: the nesting of the generators
`cluster` at the call, the tree before and after it, and what it returned. -/
structure Pass where
  depth : Nat
  before : Tree NodeData
  after : Tree NodeData
  split : Bool
  deriving DecidableEq, Repr

/-- The calls of `process` made by `cluster(config, url_meta, root, **kwargs)` when it is exhausted,
pattern_cluster.py:712-732; `d` generators are already running, `fuel` more are possible. -/
def passesWith (nested : NestedCluster) (h : Runtime) (mcn : Int) (m : URLMeta) (kw : Bool) :
    Nat → Nat → Tree NodeData → Py (List Pass)
  | 0, _, t => if t.root.count ≤ 0 then .ok [] else .error .recursionError
  | fuel + 1, d, t =>
    if t.root.count ≤ 0 then .ok []
    else do
      let (t', split) ← process h nested mcn m kw t
      if split then do
        let subs ← splitByPattern h t'
        let rs ← subs.mapM (passesWith nested h mcn m kw fuel (d + 1))
        pure (⟨d, t, t', split⟩ :: rs.flatten)
      else pure [⟨d, t, t', split⟩]

/-- The calls of `process` made for one structure by `Maker._cluster`, pattern_maker.py:97-101.  The calls made by
the multi stages inside `process` (pattern_cluster.py:138-139, :382-384) are not listed. -/
def MakerSt.passes (h : Runtime) (mcn : Int) (st : MakerSt) : Py (List Pass) :=
  passesWith (clusterNest h 1) h mcn st.urlMeta false (st.tree.paths.length + 1) 0 st.tree

/-- The same for all structures, `PatternMaker.make`, pattern_maker.py:49-62. -/
def PatternMakerSt.passes (h : Runtime) (mcn : Int) (st : PatternMakerSt) : Py (List (URLMeta × List Pass)) :=
  st.mapM (fun kv => do return (kv.2.urlMeta, ← kv.2.passes h mcn))

end OsUrl
