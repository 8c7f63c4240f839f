import Verif.Model.Tree

/-!
# pattern_cluster.py

Python mutates the pattern of tree nodes while the stages of a level run.  All nodes of one level
processor that have the same piece sit in one `PieceBag` and always get the same pattern, so the
mutable state of a level is modelled by a dict `piece ↦ pattern` (`Assign`); the caller writes it
back into the tree.
-/

namespace OsUrl

/-- `confused(total, max_part, threshold)`, pattern_cluster.py:155-175 -/
def confused (total maxPart threshold : Int) : Bool :=
  if total < threshold then false
  else
    let o := total - maxPart
    if maxPart ≥ threshold ∧ o ≥ threshold then true
    else decide (((maxPart - o).natAbs : Int) < threshold - 1)

/-- A node of the piece tree as a processor sees it: its identity (path of pieces from the root),
its data and children, and identity and count of its parent (`None` for the root). -/
structure PNode where
  path : List Str
  data : NodeData
  kids : Forest NodeData
  parent : Option (List Str × Int)
  deriving DecidableEq, Repr

/-- `PieceBag`, pattern_cluster.py:56-77: the nodes with one piece.  Modelled as a non-empty list
in the iteration order of Python's set, which `Runtime` supplies; `pick()` is `first`. -/
structure PieceBag where
  first : PNode
  rest : List PNode
  deriving DecidableEq, Repr

namespace PieceBag

/-- Iteration over the bag. -/
def nodes (b : PieceBag) : List PNode := b.first :: b.rest

/-- `PieceBag.count`, pattern_cluster.py:24-30 -/
def count (b : PieceBag) : Int := (b.nodes.map (·.data.count)).sum

/-- `stats['p_nodes_count']`, pattern_cluster.py:71-73 -/
def pNodesCount (b : PieceBag) : Int :=
  (b.nodes.map (fun n => match n.parent with | some (_, c) => c | none => n.data.count)).sum

/-- `PieceBag.p_nodes`, pattern_cluster.py:66-77: the set of parents. -/
def pNodes (b : PieceBag) : List (Option (List Str × Int)) :=
  b.nodes.foldl (fun acc n => setAdd n.parent acc) []

/-- `pick().parsed_piece` -/
def pp (b : PieceBag) : ParsedPiece := b.first.data.pp

/-- `pick().piece` -/
def piece (b : PieceBag) : Str := b.pp.piece

end PieceBag

/-- `PieceBagBucket._objs`, pattern_cluster.py:80-108: the bags, in dict order. -/
abbrev Bucket := List PieceBag

/-- What Python's runtime decides, not the code: `hash` of a string (pattern_cluster.py:662) and the order in
which a set is iterated: the nodes of a `PieceBag` and the buckets of `FuzzyPatternCluster._cached`
(`Bag._objs`, utils.py:44), the metas of a node (piece_pattern_node.py:57, :64).  The order may be any
rearrangement of the elements; it is a function of the elements in the order they were added. -/
structure Runtime where
  hash : Str → Nat
  nodes : List PNode → List PNode
  buckets : List Bucket → List Bucket
  metas : List Str → List Str
  nodes_perm : ∀ l, (nodes l).Perm l
  buckets_perm : ∀ l, (buckets l).Perm l
  metas_perm : ∀ l, (metas l).Perm l

instance : CoeFun Runtime (fun _ => Str → Nat) := ⟨Runtime.hash⟩
instance : Coe Runtime (Str → Nat) := ⟨Runtime.hash⟩

/-- The runtime with this hash whose sets are iterated in the order of insertion. -/
def inserted (h : Str → Nat) : Runtime := ⟨h, id, id, id, fun _ => .refl _, fun _ => .refl _, fun _ => .refl _⟩

/-- A bag in the order its set is iterated, utils.py:47-55. -/
def Runtime.bag (rt : Runtime) (b : PieceBag) : PieceBag :=
  match rt.nodes b.nodes with
  | [] => b
  | n :: ns => ⟨n, ns⟩

/-- `PieceBagBucket.add` of a node, pattern_cluster.py:87-92 -/
def Bucket.addNode (n : PNode) : Bucket → Bucket
  | [] => [⟨n, []⟩]
  | b :: bs =>
    if b.piece = n.data.pp.piece then { b with rest := b.rest ++ [n] } :: bs
    else b :: Bucket.addNode n bs

/-- `PieceBagBucket.add` of a bag, pattern_cluster.py:93-97: a bag whose piece is already there
raises `ValueError('duplicated')`. -/
def Bucket.addBag (b : PieceBag) (bs : Bucket) : Py Bucket :=
  if bs.any (fun b' => decide (b'.piece = b.piece)) then .error .valueError else .ok (bs ++ [b])

/-- `PieceBagBucket.count`, pattern_cluster.py:101 -/
def Bucket.count (bs : Bucket) : Int := (bs.map (·.count)).sum

/-- `PieceBagBucket.p_nodes`, pattern_cluster.py:103-108 -/
def Bucket.pNodes (bs : Bucket) : List (Option (List Str × Int)) :=
  bs.foldl (fun acc b => b.pNodes.foldl (fun acc p => setAdd p acc) acc) []

/-- `max(xs, key=..).count`: the largest count; `ValueError` on an empty sequence. -/
def maxCount : List Int → Py Int
  | [] => .error .valueError
  | x :: xs => .ok (xs.foldl max x)

/-- `SeekResult`, pattern_cluster.py:178-182 -/
inductive SeekResult where
  | found | impossible | unknow | backward
  deriving DecidableEq, Repr

/-- The six cluster classes, in the order of `CLUSTER_CLASSES`, pattern_cluster.py:530-535. -/
inductive ClusterCls where
  | piece | base | mixed | lastDot | length | fuzzy
  deriving DecidableEq, Repr

/-- `CLUSTER_CLASSES`, pattern_cluster.py:530-535 -/
def clusterClasses : List ClusterCls := [.piece, .base, .mixed, .lastDot, .length, .fuzzy]

/-- What `seek_cluster` reads of a package: its `count` and `p_nodes`. -/
structure Package where
  count : Int
  pNodes : List (Option (List Str × Int))

/-- `PatternCluster.seek_cluster` (pattern_cluster.py:208-209) and its override in
`PiecePatternCluster` (pattern_cluster.py:218-223).  The parent `None` of the root never occurs in
a package that is sought; it counts 0 here. -/
def seekIn (mcn : Int) (cls : ClusterCls) (p : Package) : SeekResult :=
  match cls with
  | .piece =>
    if (p.pNodes.map (fun q => match q with | some (_, c) => c | none => 0)).sum - p.count ≥ mcn then
      .impossible
    else .unknow
  | _ => .unknow

/-- The loop of `ClusterProcessor.seek_cluster`, pattern_cluster.py:582-596; `back` is the value of
`self._pre_level_processor.seek_cluster(pack)`. -/
def seekLoop (mcn : Int) (back : Bool) (p : Package) : List ClusterCls → Bool
  | [] => false
  | c :: cs =>
    match seekIn mcn c p with
    | .found => true
    | .impossible => false
    | .backward => back
    | .unknow => seekLoop mcn back p cs

/-- `ClusterProcessor.seek_cluster` of the processor at `level`, pattern_cluster.py:579-596.
Simplification: `_backward_package` is only reached for `BACKWARD`, which no class returns; the same
package is passed on. -/
def seekCluster (mcn : Int) : Nat → Package → Bool
  | 0, _ => false
  | level + 1, p => seekLoop mcn (seekCluster mcn level p) p clusterClasses

/-- `self.pre_level_processor.seek_cluster(package)` from the processor at `level`: at level 0 there
is no previous processor and the attribute access on `None` raises. -/
def preSeek (mcn : Int) (level : Nat) (p : Package) : Py Bool :=
  match level with
  | 0 => .error .attributeError
  | l + 1 => .ok (seekCluster mcn l p)

/-- A `ParsedPieceView` with its `parsed_pieces` and `view` string, parsed_piece_view.py:11-46.
Views compare equal when the `view` strings are equal (parsed_piece_view.py:25-28). -/
structure View where
  pps : List ParsedPiece
  view : Str
  deriving DecidableEq, Repr

/-- `MultiView(pp)` -/
def multiView (p : ParsedPiece) : View := ⟨multiPieces p, viewStr (multiPieces p)⟩
/-- `MixedView(pp)` -/
def mixedView (p : ParsedPiece) : View := ⟨mixedPieces p, viewStr (mixedPieces p)⟩
/-- `LastDotSplitFuzzyView(pp)` -/
def lastDotView (p : ParsedPiece) : View := ⟨lastDotPieces p, viewStr (lastDotPieces p)⟩

/-- What a level processor knows (`ClusterProcessor`, pattern_cluster.py:538-561): the configured
`min_cluster_num`, its level, `is_last_level()`, `is_last_path()` and the
`last_path_as_pattern` keyword. -/
structure LevelCfg where
  mcn : Int
  level : Nat
  lastLevel : Bool
  lastPath : Bool
  lastAsPattern : Bool
  deriving DecidableEq, Repr

/-- Current pattern of the nodes of each piece at this level. -/
abbrev Assign := Dict Str Str

/-- `set_pattern` on a bag. -/
def Assign.set (piece pat : Str) (a : Assign) : Assign := Dict.upd piece (fun _ => pat) a

/-- `pick().pattern` of the bag with this piece: the pattern set at this level (every bag has one
after the piece stage), otherwise the piece (piece_pattern_node.py:25-29). -/
def Assign.pattern (a : Assign) (piece : Str) : Str := (Dict.get? piece a).getD piece

/-- Where a bag is forwarded to. -/
inductive Route where
  | base (v : View) | mixed (v : View) | lastDot (v : View) | length
  deriving DecidableEq, Repr

/-- `PiecePatternCluster._add_to_forward_cluster`, pattern_cluster.py:267-303 -/
def routePiece (cfg : LevelCfg) (pp : ParsedPiece) : Route :=
  if pp.pieces.length = 1 then .length
  else
    let view := multiView pp
    let vl := view.pps.length
    if vl = 3 ∧ cfg.lastPath then
      let ldsf := lastDotView pp
      if view.view = ldsf.view then .lastDot ldsf else .base view
    else if vl > 3 then
      let mixed := mixedView pp
      let mvl := mixed.pps.length
      if mvl = 1 then .length
      else if (vl : Int) - mvl ≥ cfg.mcn then
        if mvl = 3 ∧ cfg.lastPath then
          let ldsf := lastDotView pp
          if mixed.view = ldsf.view then .lastDot ldsf else .mixed mixed
        else .mixed mixed
      else .base view
    else .base view

/-- `BasePatternCluster._add_to_forward_cluster`, pattern_cluster.py:412-449 -/
def routeBase (cfg : LevelCfg) (view : View) (pp : ParsedPiece) : Route :=
  let mixed := mixedView pp
  let mvl := mixed.pps.length
  if view.view = mixed.view then
    if cfg.lastPath then
      let ldsf := lastDotView pp
      if ldsf.pps.length = 1 then .length else .lastDot ldsf
    else .length
  else
    if mvl = 1 then .length
    else if mvl = 3 ∧ cfg.lastPath then
      let ldsf := lastDotView pp
      if mixed.view = ldsf.view then .lastDot ldsf else .mixed mixed
    else .mixed mixed

/-- `MixedPatternCluster._add_to_forward_cluster`, pattern_cluster.py:454-474 -/
def routeMixed (cfg : LevelCfg) (pp : ParsedPiece) : Route :=
  if cfg.lastPath then
    let ldsf := lastDotView pp
    if ldsf.pps.length = 1 then .length else .lastDot ldsf
  else .length

/-- The mutable state of the stages of one level: the node patterns, the total number of distinct
patterns recorded by the finished stages (`pattern_num`, pattern_cluster.py:621-623), and the inputs
of the stages still to run. -/
structure LevelSt where
  assign : Assign
  patternNum : Nat
  toBase : List (View × PieceBag)
  toMixed : List (View × PieceBag)
  toLastDot : List (View × PieceBag)
  toLength : List PieceBag
  deriving DecidableEq, Repr

/-- `get_cluster(cls).add(..)` for the forwarding targets. -/
def LevelSt.forward (st : LevelSt) (r : Route) (b : PieceBag) : LevelSt :=
  match r with
  | .base v => { st with toBase := st.toBase ++ [(v, b)] }
  | .mixed v => { st with toMixed := st.toMixed ++ [(v, b)] }
  | .lastDot v => { st with toLastDot := st.toLastDot ++ [(v, b)] }
  | .length => { st with toLength := st.toLength ++ [b] }

/-- The set of patterns in `xs` (`_patterns`, a set of `Pattern`s compared by string). -/
def patternSet (xs : List Str) : List Str := xs.foldl (fun acc x => setAdd x acc) []

/-- Body of the last loop of `PiecePatternCluster.cluster`, pattern_cluster.py:256-265.  The state
carries the patterns recorded so far in its second component. -/
def pieceLoop (cfg : LevelCfg) : List PieceBag → LevelSt × List Str → Py (LevelSt × List Str)
  | [], st => .ok st
  | b :: bs, (st, pats) => do
    let fwd ←
      if b.count < cfg.mcn ∨ b.pNodesCount - b.count ≥ cfg.mcn then (pure true : Py Bool)
      else do
        let found ← preSeek cfg.mcn cfg.level ⟨b.count, b.pNodes⟩
        pure (!found)
    let st := { st with assign := st.assign.set b.piece b.piece }
    if fwd then pieceLoop cfg bs (st.forward (routePiece cfg b.pp) b, pats)
    else pieceLoop cfg bs (st, setAdd b.piece pats)

/-- Every bag keeps its literal piece as pattern, pattern_cluster.py:244-246, :252-254. -/
def literalAll (bucket : Bucket) (st : LevelSt) : LevelSt :=
  { st with
    assign := bucket.foldl (fun a b => a.set b.piece b.piece) st.assign
    patternNum := st.patternNum + (patternSet (bucket.map (·.piece))).length }

/-- `PiecePatternCluster.cluster`, pattern_cluster.py:237-265 -/
def pieceStage (cfg : LevelCfg) (bucket : Bucket) (st : LevelSt) : Py LevelSt :=
  -- an empty bucket has length 0 and is falsy
  if bucket.isEmpty then .ok st
  else if cfg.lastLevel ∧ cfg.lastAsPattern then .ok (literalAll bucket st)
  else do
    let stop ←
      if (bucket.length : Int) < cfg.mcn then do
        let m ← maxCount (bucket.map (·.count))
        pure (!confused bucket.count m cfg.mcn)
      else (pure false : Py Bool)
    if stop then pure (literalAll bucket st)
    else do
      let (st, pats) ← pieceLoop cfg bucket (st, [])
      pure { st with patternNum := st.patternNum + pats.length }

/-- `LengthPatternCluster.add` for all forwarded bags, pattern_cluster.py:311-315: the buckets by
piece length, in order of first appearance. -/
def lengthBuckets : List PieceBag → Dict Int Bucket → Py (Dict Int Bucket)
  | [], d => .ok d
  | b :: bs, d => do
    let l ← b.pp.pieceLength
    let bucket ← Bucket.addBag b ((Dict.get? l d).getD [])
    lengthBuckets bs (Dict.upd l (fun _ => bucket) d)

/-- `LengthPatternCluster._length_as_cluster`, pattern_cluster.py:317-325 -/
def lengthAsCluster (mcn : Int) (bucket : Bucket) : Py Bool :=
  if (bucket.length : Int) < mcn then
    if bucket.count < mcn then .ok false
    else do
      let m ← maxCount (bucket.map (·.count))
      pure (confused bucket.count m mcn)
  else .ok true

/-- `LengthPatternCluster._set_pattern`, pattern_cluster.py:357-363: the pattern.  `pick()` on an
empty bucket yields `None`, whose attribute access raises. -/
def lengthPattern (bucket : Bucket) : Py Str :=
  match bucket with
  | [] => .error .attributeError
  | b :: _ => do
    let l ← b.pp.pieceLength
    specifyRule b.pp.fuzzyRule l

/-- `bucket.set_pattern(pattern)`, pattern_cluster.py:32-34 -/
def Assign.setBucket (bucket : Bucket) (pat : Str) (a : Assign) : Assign :=
  bucket.foldl (fun a b => a.set b.piece pat) a

/-- First loop of `LengthPatternCluster.cluster`, pattern_cluster.py:340-344. -/
def lengthStopLoop (mcn : Int) : List Bucket → Assign × List Str → Py (Assign × List Str)
  | [], st => .ok st
  | bucket :: rest, (a, pats) => do
    let as ← lengthAsCluster mcn bucket
    if as then do
      let pat ← lengthPattern bucket
      lengthStopLoop mcn rest (a.setBucket bucket pat, setAdd pat pats)
    else
      lengthStopLoop mcn rest (a, bucket.foldl (fun ps b => setAdd (a.pattern b.piece) ps) pats)

/-- Second loop of `LengthPatternCluster.cluster`, pattern_cluster.py:348-355: the assignment, the
recorded patterns and the buckets forwarded to the fuzzy stage. -/
def lengthFwdLoop (cfg : LevelCfg) :
    List Bucket → Assign × List Str × List Bucket → Py (Assign × List Str × List Bucket)
  | [], st => .ok st
  | bucket :: rest, (a, pats, fwd) => do
    let as ← lengthAsCluster cfg.mcn bucket
    if as then do
      let found ← preSeek cfg.mcn cfg.level ⟨bucket.count, bucket.pNodes⟩
      let pat ← lengthPattern bucket
      if found then
        lengthFwdLoop cfg rest (a.setBucket bucket pat, setAdd pat pats, fwd)
      else
        lengthFwdLoop cfg rest (a.setBucket bucket pat, pats, fwd ++ [bucket])
    else lengthFwdLoop cfg rest (a, pats, fwd ++ [bucket])

/-- State of `FuzzyPatternCluster`, pattern_cluster.py:489-494. -/
structure FuzzySt where
  assign : Assign
  cached : List Bucket
  force : Bool
  fuzzyPat : Option Str
  deriving DecidableEq, Repr

/-- `FuzzyPatternCluster._set_pattern`, pattern_cluster.py:522-527.  `package` is the list of its
buckets. -/
def fuzzySet (package : List Bucket) (st : FuzzySt) : Py FuzzySt := do
  let pat ←
    match st.fuzzyPat with
    | some p => (pure p : Py Str)
    | none =>
      match package with
      | (b :: _) :: _ => wildcardRule b.pp.fuzzyRule
      | _ => .error .attributeError
  pure { st with fuzzyPat := some pat, assign := package.foldl (fun a b => a.setBucket b pat) st.assign }

/-- `FuzzyPatternCluster.add` for all forwarded buckets, pattern_cluster.py:496-502. -/
def fuzzyAdds (mcn : Int) : List Bucket → FuzzySt → Py FuzzySt
  | [], st => .ok st
  | b :: bs, st =>
    if st.force then do
      let st ← fuzzySet [b] st
      fuzzyAdds mcn bs st
    else
      let cached := st.cached ++ [b]
      fuzzyAdds mcn bs { st with cached := cached, force := decide ((cached.length : Int) ≥ mcn) }

/-- Patterns of all cached pieces, `FuzzyPatternCluster._update_patterns`,
pattern_cluster.py:504-507. -/
def fuzzyUpdate (st : FuzzySt) : List Str :=
  patternSet (st.cached.flatMap (fun bucket => bucket.map (fun b => st.assign.pattern b.piece)))

/-- `FuzzyPatternCluster.cluster`, pattern_cluster.py:509-520: assignment and number of recorded
patterns.  `_cached` is a set; all its buckets are there by now. -/
def fuzzyCluster (rt : Runtime) (mcn : Int) (st : FuzzySt) : Py (Assign × Nat) := do
  let st := { st with cached := rt.buckets st.cached }
  if st.force then
    let st ← fuzzySet st.cached st
    pure (st.assign, st.fuzzyPat.toList.length)
  else
    let total := (st.cached.map Bucket.count).sum
    let recorded := st.fuzzyPat.toList
    if total < mcn then pure (st.assign, (patternSet (recorded ++ fuzzyUpdate st)).length)
    else
      let m ← maxCount (st.cached.map Bucket.count)
      if confused total m mcn then
        let st ← fuzzySet st.cached st
        pure (st.assign, st.fuzzyPat.toList.length)
      else pure (st.assign, (patternSet (recorded ++ fuzzyUpdate st)).length)

/-- `LengthPatternCluster.cluster` (pattern_cluster.py:331-355) followed by
`FuzzyPatternCluster.cluster`. -/
def lengthFuzzyStage (rt : Runtime) (cfg : LevelCfg) (st : LevelSt) : Py LevelSt := do
  let d ← lengthBuckets st.toLength []
  let buckets := d.map (·.2)
  if buckets.isEmpty then
    let (a, n) ← fuzzyCluster rt cfg.mcn ⟨st.assign, [], false, none⟩
    pure { st with assign := a, patternNum := st.patternNum + n }
  else
    let stop ←
      if (buckets.length : Int) < cfg.mcn then do
        let m ← maxCount (buckets.map Bucket.count)
        pure (!confused (buckets.map Bucket.count).sum m cfg.mcn)
      else (pure false : Py Bool)
    if stop then
      let (a, pats) ← lengthStopLoop cfg.mcn buckets (st.assign, [])
      let (a, n) ← fuzzyCluster rt cfg.mcn ⟨a, [], false, none⟩
      pure { st with assign := a, patternNum := st.patternNum + pats.length + n }
    else
      let (a, pats, fwd) ← lengthFwdLoop cfg buckets (st.assign, [], [])
      let fst ← fuzzyAdds cfg.mcn fwd ⟨a, [], false, none⟩
      let (a, n) ← fuzzyCluster rt cfg.mcn fst
      pure { st with assign := a, patternNum := st.patternNum + pats.length + n }

/-- `ViewPieceBag`, pattern_cluster.py:111-115: a view and the bag it was made from. -/
abbrev ViewBag := View × PieceBag

/-- `ViewPieceBagBucket._objs` keyed by piece, pattern_cluster.py:118-128: the last bag added under
a piece wins. -/
def vbBags (items : List ViewBag) : Dict Str ViewBag :=
  items.foldl (fun d vb => Dict.upd vb.2.piece (fun _ => vb) d) []

/-- The piece tree of a `ViewPieceBagBucket`, pattern_cluster.py:124, :135-136. -/
def vbTree : List ViewBag → Tree NodeData → Py (Tree NodeData)
  | [], t => .ok t
  | (v, b) :: rest, t => do
    let (t', _) ← buildFromParsedPieces t v.pps b.count none false
    vbTree rest t'

/-- `ViewPieceBagBucket.count`, pattern_cluster.py:129 -/
def vbCount (items : List ViewBag) : Int := (items.map (·.2.count)).sum

/-- Lookup `self[piece]` of pattern_cluster.py:146-147 for every path, `KeyError` if missing. -/
def transferBags (bags : Dict Str ViewBag) : List (List (Str × NodeData)) → Py (List ViewBag)
  | [] => .ok []
  | path :: rest =>
    match Dict.get? (path.map (fun kn => kn.2.pp.piece)).flatten bags with
    | none => .error .keyError
    | some b => do
      let bs ← transferBags bags rest
      pure (b :: bs)

/-- `ViewPieceBagBucket._transfer`, pattern_cluster.py:142-152: the new bucket and the pattern of its
first path.  The new bucket's `_objs` is again keyed by piece, its `count` sums every `add`
(pattern_cluster.py:127-129). -/
def transfer (bags : Dict Str ViewBag) (root : Tree NodeData) : Py (List ViewBag × Str) :=
  match root.paths with
  | [] => .error .attributeError
  | path :: rest => do
    let bs ← transferBags bags (path :: rest)
    pure (bs, (path.map (fun kn => kn.2.pattern)).flatten)

/-- The recursive entry `cluster(config, url_meta, root, last_path_as_pattern=..)` as used by the
multi stages: arguments `min_cluster_num`, `url_meta`, the keyword, the tree. -/
abbrev NestedCluster := Int → URLMeta → Bool → Tree NodeData → Py (List (Tree NodeData))

/-- State of one `MultiPatternCluster`: the level state, and the recorded patterns. -/
abbrev MultiSt := LevelSt × List Str

/-- `_to_forward_cluster(bucket)`, pattern_cluster.py:386-388: for every bag of the bucket's dict. -/
def forwardAll (fwd : View → PieceBag → Route) (items : List ViewBag) (st : LevelSt) : LevelSt :=
  (vbBags items).foldl (fun st kvb => st.forward (fwd kvb.2.1 kvb.2.2) kvb.2.2) st

/-- Body of `for b, pattern in self._cluster(bucket)`, pattern_cluster.py:376-380, with
`_as_cluster` (pattern_cluster.py:393-396) and `_set_pattern` (pattern_cluster.py:398-400). -/
def multiClusters (mcn : Int) (fwd : View → PieceBag → Route) (bags : Dict Str ViewBag) :
    List (Tree NodeData) → MultiSt → Py MultiSt
  | [], st => .ok st
  | root :: rest, (st, pats) => do
    let (bs, pat) ← transfer bags root
    if vbCount bs < mcn then
      multiClusters mcn fwd bags rest (forwardAll fwd bs st, pats)
    else
      multiClusters mcn fwd bags rest
        ({ st with assign := st.assign.setBucket (bs.map (·.2)) pat }, setAdd pat pats)

/-- `len(view.parsed_pieces)` of the view that created the bucket, pattern_cluster.py:404-406. -/
def vbDepth (items : List ViewBag) : Nat :=
  match items with
  | [] => 0
  | vb :: _ => vb.1.pps.length

/-- Body of `for bucket in itervalues(self._buckets)`, pattern_cluster.py:372-380. -/
def multiBuckets (nested : NestedCluster) (cfg : LevelCfg) (kw : Bool)
    (fwd : View → PieceBag → Route) :
    List (List ViewBag) → MultiSt → Py MultiSt
  | [], st => .ok st
  | items :: rest, (st, pats) =>
    if vbCount items < cfg.mcn then
      multiBuckets nested cfg kw fwd rest (forwardAll fwd items st, pats)
    else do
      let tree ← vbTree items emptyTree
      let roots ← nested cfg.mcn ⟨vbDepth items, [], false⟩ kw tree
      let st' ← multiClusters cfg.mcn fwd (vbBags items) roots (st, pats)
      multiBuckets nested cfg kw fwd rest st'

/-- `MultiPatternCluster.cluster`, pattern_cluster.py:366-407: the forwarded bags grouped by view
(`add`), then every bucket clustered. -/
def multiStage (nested : NestedCluster) (cfg : LevelCfg) (kw : Bool)
    (fwd : View → PieceBag → Route) (items : List ViewBag) (st : LevelSt) : Py LevelSt := do
  let buckets := (groupBy (fun vb : ViewBag => vb.1.view) items).map (·.2)
  let (st, pats) ← multiBuckets nested cfg kw fwd buckets (st, [])
  pure { st with patternNum := st.patternNum + pats.length }

/-- `ClusterProcessor._process`, pattern_cluster.py:609-611: the six stages in order. -/
def processStages (rt : Runtime) (nested : NestedCluster) (cfg : LevelCfg) (bucket : Bucket) : Py LevelSt := do
  let st ← pieceStage cfg bucket ⟨[], 0, [], [], [], []⟩
  let st ← multiStage nested cfg false (fun v b => routeBase cfg v b.pp) st.toBase st
  let st ← multiStage nested cfg false (fun _ b => routeMixed cfg b.pp) st.toMixed st
  let st ← multiStage nested cfg true (fun _ _ => .length) st.toLastDot st
  lengthFuzzyStage rt cfg st

/-- `ClusterProcessor.add(node, add_children=True)`, pattern_cluster.py:613-617: the children of a
node as the next processor sees them. -/
def childNodes (n : PNode) : List PNode :=
  n.kids.children.map (fun (k, d, kids) => ⟨n.path ++ [k], d, kids, some (n.path, n.data.count)⟩)

/-- `Bucket` of a list of added nodes, the bags in order of insertion. -/
def bucketOf (nodes : List PNode) : Bucket := nodes.foldl (fun bs n => Bucket.addNode n bs) []

/-- The same bucket as it is seen once all nodes are added: every bag in the order of its set. -/
def Runtime.bucket (rt : Runtime) (nodes : List PNode) : Bucket := (bucketOf nodes).map rt.bag

/-- `ClusterProcessor.process`, pattern_cluster.py:625-648, together with `_can_be_splited`
(pattern_cluster.py:671-691): the pattern of every node below (as a list of path ↦ pattern) and
whether the processor tree can be split.  The first number is `url_meta.depth - level`, so
`is_last_level()` is `0`; the second is `level`. -/
def procLevel (rt : Runtime) (nested : NestedCluster) (mcn : Int) (m : URLMeta) (kw : Bool) :
    Nat → Nat → List PNode → Py (List (List Str × Str) × Bool)
  | 0, level, nodes => do
    let bucket := rt.bucket nodes
    let st ← processStages rt nested ⟨mcn, level, true, m.pathDepth == level, kw⟩ bucket
    let own := (bucket.flatMap (·.nodes)).map
      (fun n => (n.path, st.assign.pattern n.data.pp.piece))
    pure (own, decide (st.patternNum > 1))
  | rem + 1, level, nodes => do
    let bucket := rt.bucket nodes
    let st ← processStages rt nested ⟨mcn, level, false, m.pathDepth == level, kw⟩ bucket
    let all := bucket.flatMap (·.nodes)
    let own := all.map (fun n => (n.path, st.assign.pattern n.data.pp.piece))
    -- `_create_next_level_processors`, pattern_cluster.py:635-648
    let groups := (groupBy (fun n : PNode => st.assign.pattern n.data.pp.piece) all).map (·.2)
    let subs ← groups.mapM (fun g => procLevel rt nested mcn m kw rem (level + 1) (g.flatMap childNodes))
    -- `_can_be_splited`: one iteration of the loop at this processor
    let split :=
      if st.patternNum > 1 then true
      else match subs with
        | [] => false
        | [s] => s.2
        | _ => true
    pure (own ++ subs.flatMap (·.1), split)

/-- Write the assigned patterns into the nodes (`set_pattern`, piece_pattern_node.py:22-23). -/
def annotate (asg : List (List Str × Str)) : List Str → Forest NodeData → Forest NodeData
  | _, .nil => .nil
  | pre, .cons k d kids sibs =>
    .cons k { d with pat := (Dict.get? (pre ++ [k]) asg).or d.pat }
      (annotate asg (pre ++ [k]) kids) (annotate asg pre sibs)

/-- `process(config, url_meta, root, **kwargs)`, pattern_cluster.py:694-709: the annotated tree and
whether it can be split. -/
def process (rt : Runtime) (nested : NestedCluster) (mcn : Int) (m : URLMeta) (kw : Bool) (t : Tree NodeData) :
    Py (Tree NodeData × Bool) := do
  let (asg, split) ← procLevel rt nested mcn m kw m.depth 0 [⟨[], t.root, t.kids, none⟩]
  pure (⟨{ t.root with pat := (Dict.get? [] asg).or t.root.pat }, annotate asg [] t.kids⟩, split)

/-- Loop of `split_by_pattern`, pattern_cluster.py:661-666, `h` models Python's `hash` of a string. -/
def splitLoop (h : Runtime) (rootPat : Str) :
    List (List (Str × NodeData)) → Dict Nat (Tree NodeData) → Py (Dict Nat (Tree NodeData))
  | [], d => .ok d
  | path :: rest, d => do
    let pid := h (join ['/'] (rootPat :: path.map (fun kn => kn.2.pattern)))
    let sub ← buildFromNodes ((Dict.get? pid d).getD emptyTree) (path.map (·.2))
    splitLoop h rootPat rest (Dict.upd pid (fun _ => sub) d)

/-- `split_by_pattern(root)`, pattern_cluster.py:651-668 -/
def splitByPattern (h : Runtime) (t : Tree NodeData) : Py (List (Tree NodeData)) := do
  let d ← splitLoop h t.root.pattern t.paths []
  pure (d.map (·.2))

/-- `cluster(config, url_meta, root, **kwargs)`, pattern_cluster.py:712-732.  The recursion depth is
bounded by `fuel`; running out of it is Python's `RecursionError`. -/
def clusterWith (nested : NestedCluster) (h : Runtime) (mcn : Int) (m : URLMeta) (kw : Bool) :
    Nat → Tree NodeData → Py (List (Tree NodeData))
  | 0, t => if t.root.count ≤ 0 then .ok [] else .error .recursionError
  | fuel + 1, t =>
    if t.root.count ≤ 0 then .ok []
    else do
      let (t', split) ← process h nested mcn m kw t
      if split then do
        let subs ← splitByPattern h t'
        let rs ← subs.mapM (clusterWith nested h mcn m kw fuel)
        pure rs.flatten
      else pure [t']

/-- `cluster` at nesting depth `n`: the multi stages call it again on trees of sub-pieces.  Running
out of depth is Python's `RecursionError`.  The number of leaves bounds the recursion of
`clusterWith`. -/
def clusterNest (h : Runtime) : Nat → NestedCluster
  | 0 => fun _ _ _ _ => .error .recursionError
  | n + 1 => fun mcn m kw t => clusterWith (clusterNest h n) h mcn m kw (t.paths.length + 1) t

/-- `cluster(config, url_meta, root)` as called by `Maker._cluster`, pattern_maker.py:97-101. -/
def cluster (h : Runtime) (mcn : Int) (m : URLMeta) (t : Tree NodeData) : Py (List (Tree NodeData)) :=
  clusterNest h 2 mcn m false t

end OsUrl
