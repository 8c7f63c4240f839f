import Verif.Model.Maker

/-!
# All calls of `process`

`process` (pattern_cluster.py:694-709) is called by `cluster` (:725), and `cluster` is called by `Maker._cluster`
(pattern_maker.py:97-101) and by the three multi stages inside `process` (pattern_cluster.py:138-139).  Here are the same
functions as in `Model/Cluster`, which also return the list of the calls of `process` in the order in which they begin.
-/

namespace OsUrl

/-- One call `process(config, url_meta, root, **kwargs)`, pattern_cluster.py:725: whether it is made by a multi stage
(pattern_cluster.py:138-139), and the tree it is given. -/
structure ProcCall where
  inner : Bool
  tree : Tree NodeData
  deriving DecidableEq, Repr

/-- `cluster` as the multi stages call it, with the calls of `process`. -/
abbrev NestedCalls := Int → URLMeta → Bool → Tree NodeData → Py (List (Tree NodeData) × List ProcCall)

/-- `multiBuckets`, pattern_cluster.py:372-380, with the calls. -/
def multiBucketsC (nested : NestedCalls) (cfg : LevelCfg) (kw : Bool) (fwd : View → PieceBag → Route) :
    List (List ViewBag) → MultiSt → Py (MultiSt × List ProcCall)
  | [], st => .ok (st, [])
  | items :: rest, (st, pats) =>
    if vbCount items < cfg.mcn then
      multiBucketsC nested cfg kw fwd rest (forwardAll fwd items st, pats)
    else do
      let tree ← vbTree items emptyTree
      let r ← nested cfg.mcn ⟨vbDepth items, [], false⟩ kw tree
      let st' ← multiClusters cfg.mcn fwd (vbBags items) r.1 (st, pats)
      let s ← multiBucketsC nested cfg kw fwd rest st'
      return (s.1, r.2 ++ s.2)

/-- `multiStage`, pattern_cluster.py:366-407, with the calls. -/
def multiStageC (nested : NestedCalls) (cfg : LevelCfg) (kw : Bool)
    (fwd : View → PieceBag → Route) (items : List ViewBag) (st : LevelSt) : Py (LevelSt × List ProcCall) := do
  let buckets := (groupBy (fun vb : ViewBag => vb.1.view) items).map (·.2)
  let r ← multiBucketsC nested cfg kw fwd buckets (st, [])
  return ({ r.1.1 with patternNum := r.1.1.patternNum + r.1.2.length }, r.2)

/-- `processStages`, pattern_cluster.py:609-611, with the calls. -/
def processStagesC (rt : Runtime) (nested : NestedCalls) (cfg : LevelCfg) (bucket : Bucket) : Py (LevelSt × List ProcCall) := do
  let st ← pieceStage cfg bucket ⟨[], 0, [], [], [], []⟩
  let a ← multiStageC nested cfg false (fun v b => routeBase cfg v b.pp) st.toBase st
  let b ← multiStageC nested cfg false (fun _ b => routeMixed cfg b.pp) a.1.toMixed a.1
  let c ← multiStageC nested cfg true (fun _ _ => .length) b.1.toLastDot b.1
  let st ← lengthFuzzyStage rt cfg c.1
  return (st, a.2 ++ b.2 ++ c.2)

/-- `procLevel`, pattern_cluster.py:625-648 and :671-691, with the calls. -/
def procLevelC (rt : Runtime) (nested : NestedCalls) (mcn : Int) (m : URLMeta) (kw : Bool) :
    Nat → Nat → List PNode → Py ((List (List Str × Str) × Bool) × List ProcCall)
  | 0, level, nodes => do
    let bucket := rt.bucket nodes
    let st ← processStagesC rt nested ⟨mcn, level, true, m.pathDepth == level, kw⟩ bucket
    let own := (bucket.flatMap (·.nodes)).map (fun n => (n.path, st.1.assign.pattern n.data.pp.piece))
    return ((own, decide (st.1.patternNum > 1)), st.2)
  | rem + 1, level, nodes => do
    let bucket := rt.bucket nodes
    let st ← processStagesC rt nested ⟨mcn, level, false, m.pathDepth == level, kw⟩ bucket
    let all := bucket.flatMap (·.nodes)
    let own := all.map (fun n => (n.path, st.1.assign.pattern n.data.pp.piece))
    let groups := (groupBy (fun n : PNode => st.1.assign.pattern n.data.pp.piece) all).map (·.2)
    let rs ← groups.mapM (fun g => procLevelC rt nested mcn m kw rem (level + 1) (g.flatMap childNodes))
    let subs := rs.map (·.1)
    let split :=
      if st.1.patternNum > 1 then true
      else match subs with
        | [] => false
        | [s] => s.2
        | _ => true
    return ((own ++ subs.flatMap (·.1), split), st.2 ++ rs.flatMap (·.2))

/-- `process`, pattern_cluster.py:694-709, with the calls made inside it. -/
def processC (rt : Runtime) (nested : NestedCalls) (mcn : Int) (m : URLMeta) (kw : Bool) (t : Tree NodeData) :
    Py ((Tree NodeData × Bool) × List ProcCall) := do
  let r ← procLevelC rt nested mcn m kw m.depth 0 [⟨[], t.root, t.kids, none⟩]
  return ((⟨{ t.root with pat := (Dict.get? [] r.1.1).or t.root.pat }, annotate r.1.1 [] t.kids⟩, r.1.2), r.2)

/-- `cluster`, pattern_cluster.py:712-732, with the calls; `inner` tells whether a multi stage called it. -/
def clusterWithC (nested : NestedCalls) (h : Runtime) (inner : Bool) (mcn : Int) (m : URLMeta) (kw : Bool) :
    Nat → Tree NodeData → Py (List (Tree NodeData) × List ProcCall)
  | 0, t => if t.root.count ≤ 0 then .ok ([], []) else .error .recursionError
  | fuel + 1, t =>
    if t.root.count ≤ 0 then .ok ([], [])
    else do
      let r ← processC h nested mcn m kw t
      if r.1.2 then do
        let subs ← splitByPattern h r.1.1
        let rs ← subs.mapM (clusterWithC nested h inner mcn m kw fuel)
        return (rs.flatMap (·.1), ⟨inner, t⟩ :: r.2 ++ rs.flatMap (·.2))
      else return ([r.1.1], ⟨inner, t⟩ :: r.2)

/-- `clusterNest`, with the calls. -/
def clusterNestC (h : Runtime) : Nat → Bool → NestedCalls
  | 0, _ => fun _ _ _ _ => .error .recursionError
  | n + 1, inner => fun mcn m kw t => clusterWithC (clusterNestC h n true) h inner mcn m kw (t.paths.length + 1) t

/-- `Maker.make`, pattern_maker.py:97-101, :112-126, with the calls of `process`. -/
def MakerSt.makeC (h : Runtime) (mcn : Int) (st : MakerSt) : Py (List (Tree NodeData) × List ProcCall) :=
  clusterNestC h 2 false mcn st.urlMeta false st.tree

/-- `PatternMaker.make`, pattern_maker.py:49-62: the same for all structures. -/
def PatternMakerSt.makeC (h : Runtime) (mcn : Int) (st : PatternMakerSt) :
    Py (List ((URLMeta × List (Tree NodeData)) × List ProcCall)) :=
  st.mapM (fun kv => do
    let r ← kv.2.makeC h mcn
    return ((kv.2.urlMeta, r.1), r.2))

end OsUrl
