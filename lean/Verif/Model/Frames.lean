import Verif.Model.Limit

/-!
# Clustering with a limited call stack, all frames

As `Verif.Model.Limit`, but every function that is on the stack while another one of this list runs takes its frame:

* `PatternMaker.make` (pattern_maker.py:49-62), `Maker._cluster` (pattern_maker.py:97-101), `cluster` (pattern_cluster.py:712-732),
  `process` (pattern_cluster.py:694-709), `ClusterProcessor.process` (pattern_cluster.py:625-633);
* for a clustering inside a stage: `ClusterProcessor._process` (pattern_cluster.py:609-611), `MultiPatternCluster.cluster`
  (pattern_cluster.py:371-380), `_cluster` (pattern_cluster.py:382-384 and 479-482), `ViewPieceBagBucket.cluster` (pattern_cluster.py:138-140);
* for reading a tree: `split_by_pattern` (pattern_cluster.py:651-669) or `_transfer` (pattern_cluster.py:142-152), `dump_tree` and its `_dump`
  (utils.py:151-173), which takes one frame for every level of the tree and one for the root.

All other calls do not lead back into these functions; they are helpers of bounded nesting (constructors, properties, `getint`, `build_tree`, ...).
The number `H` stands for the frames that they need.  Simplifications: a function gives up when fewer than `H` frames are left to it, even
if the helpers it calls would need less; the frames for reading a tree are those for `url_meta.depth` levels (all trees that are clustered have
that many), and a stage asks for them before its clustering starts.  So Python gives up at the same point as this model or later, if `H` is large enough.
-/

namespace OsUrl

/-- `ClusterProcessor.process`, pattern_cluster.py:625-648, as `procLevelL`, with `H` frames for the helpers. -/
def procLevelF (rt : Runtime) (H : Nat) (nested : Nat → NestedCluster) (mcn : Int) (m : URLMeta) (kw : Bool) :
    Nat → Nat → Nat → List PNode → Py (List (List Str × Str) × Bool)
  | 0, _, _, _ => .error .recursionError
  | lim + 1, 0, level, nodes =>
    if lim < H then .error .recursionError
    else procLevel rt (nested lim) mcn m kw 0 level nodes
  | lim + 1, rem + 1, level, nodes =>
    if lim < H then .error .recursionError
    else do
      let bucket := rt.bucket nodes
      let st ← processStages rt (nested lim) ⟨mcn, level, false, m.pathDepth == level, kw⟩ bucket
      let all := bucket.flatMap (·.nodes)
      let own := all.map (fun n => (n.path, st.assign.pattern n.data.pp.piece))
      let groups := (groupBy (fun n : PNode => st.assign.pattern n.data.pp.piece) all).map (·.2)
      let subs ← groups.mapM (fun g => procLevelF rt H nested mcn m kw lim rem (level + 1) (g.flatMap childNodes))
      let split :=
        if st.patternNum > 1 then true
        else match subs with
          | [] => false
          | [s] => s.2
          | _ => true
      pure (own ++ subs.flatMap (·.1), split)

/-- `process`, pattern_cluster.py:694-709; it takes one frame itself. -/
def processF (rt : Runtime) (H : Nat) (nested : Nat → NestedCluster) (mcn : Int) (m : URLMeta) (kw : Bool) : Nat → Tree NodeData →
    Py (Tree NodeData × Bool)
  | 0, _ => .error .recursionError
  | lim + 1, t => do
    let (asg, split) ← procLevelF rt H nested mcn m kw lim m.depth 0 [⟨[], t.root, t.kids, none⟩]
    pure (⟨{ t.root with pat := (Dict.get? [] asg).or t.root.pat }, annotate asg [] t.kids⟩, split)

/-- The frames for reading a tree of `d` levels: the reader itself, `dump_tree`, `_dump` for the root and for every level, the helpers
(pattern_cluster.py:142-152 and 651-669, utils.py:151-173). -/
def readFrames (H d : Nat) : Nat := d + 3 + H

/-- `cluster`, pattern_cluster.py:712-732, as a generator. -/
def clusterGenF (rt : Runtime) (H : Nat) (nested : Nat → NestedCluster) (mcn : Int) (m : URLMeta) (kw : Bool) :
    Nat → Tree NodeData → Gen (Tree NodeData)
  | 0, _ => ([], some .recursionError)
  | lim + 1, t =>
    if lim < H then ([], some .recursionError)
    else if t.root.count ≤ 0 then ([], none)
    else
      match processF rt H nested mcn m kw lim t with
      | .error e => ([], some e)
      | .ok (t', split) =>
        if split then
          if lim < readFrames H m.depth then ([], some .recursionError)
          else
            match splitByPattern rt t' with
            | .error e => ([], some e)
            | .ok subs => Gen.chain (clusterGenF rt H nested mcn m kw lim) subs
        else ([t'], none)

/-- A clustering inside a stage: `_process`, `MultiPatternCluster.cluster`, `_cluster` and `ViewPieceBagBucket.cluster` are on the stack when `cluster`
runs, and when `_transfer` reads its results (pattern_cluster.py:609-611, 371-384, 138-152). -/
def stageNestF (H : Nat) (inner : Nat → Int → URLMeta → Bool → Tree NodeData → Gen (Tree NodeData)) : Nat → NestedCluster :=
  fun lim mcn m kw t =>
    if lim < 4 + readFrames H m.depth then .error .recursionError
    else (inner (lim - 4) mcn m kw t).toPy

/-- `cluster` at nesting depth `n`, as `clusterNestL`. -/
def clusterNestF (rt : Runtime) (H : Nat) : Nat → Nat → Int → URLMeta → Bool → Tree NodeData → Gen (Tree NodeData)
  | 0 => fun _ _ _ _ _ => ([], some .recursionError)
  | n + 1 => fun lim mcn m kw t => clusterGenF rt H (stageNestF H (clusterNestF rt H n)) mcn m kw lim t

/-- `PatternMaker.make()`, pattern_maker.py:49-62, as a generator with `lim` frames left, among them its own and that of `Maker._cluster`
(pattern_maker.py:97-101). -/
def PatternMakerSt.makeF (rt : Runtime) (H lim : Nat) (mcn : Int) (st : PatternMakerSt) : Gen (URLMeta × Tree NodeData) :=
  if lim < 2 then ([], some .recursionError)
  else
    Gen.chain (fun kv : Str × MakerSt =>
      let g := clusterNestF rt H 2 (lim - 2) mcn kv.2.urlMeta false kv.2.tree
      (g.1.map (fun t => (kv.2.urlMeta, t)), g.2)) st

end OsUrl
