import Verif.Model.Cluster
import Verif.Model.Matcher

/-!
# pattern_maker.py
-/

namespace OsUrl

/-- `Maker`, pattern_maker.py:65-74 -/
structure MakerSt where
  urlMeta : URLMeta
  tree : Tree NodeData
  deriving DecidableEq, Repr

/-- `Maker.__init__`, pattern_maker.py:71-74 -/
def MakerSt.new (m : URLMeta) : MakerSt := ⟨m, emptyTree⟩

/-- `Maker.load`, pattern_maker.py:81-95 -/
def MakerSt.load (st : MakerSt) (pps : List ParsedPiece) (md : Option Str) : Py (MakerSt × Bool) := do
  let (t, isNew) ← buildFromParsedPieces st.tree pps 1 md true
  return ({ st with tree := t }, isNew)

/-- `Maker.make(combine=False)`, pattern_maker.py:97-101, :112-126.  `h` is the runtime: string hash and order of sets. -/
def MakerSt.make (h : Runtime) (mcn : Int) (st : MakerSt) : Py (List (Tree NodeData)) :=
  cluster h mcn st.urlMeta st.tree

/-- `PatternMaker._makers`, pattern_maker.py:20-22 -/
abbrev PatternMakerSt := Dict Str MakerSt

/-- `PatternMaker.load`, pattern_maker.py:29-47 -/
def PatternMakerSt.load (md5 : Str → Str) (st : PatternMakerSt) (url : Str) (md : Option Str) :
    Py (PatternMakerSt × Bool) := do
  let (m, parsed) ← parse url
  match parsed with
  | .patterns _ => .error .valueError
  | .pieces pps =>
    let sid := fuzzyDigest md5 m (.pieces pps)
    let (mk, isNew) ← ((Dict.get? sid st).getD (MakerSt.new m)).load pps md
    return (Dict.upd sid (fun _ => mk) st, isNew)

/-- `PatternMaker.make()`, pattern_maker.py:49-62 -/
def PatternMakerSt.make (h : Runtime) (mcn : Int) (st : PatternMakerSt) :
    Py (List (URLMeta × Tree NodeData)) := do
  let rs ← st.mapM (fun kv => do
    let ts ← kv.2.make h mcn
    return ts.map (fun t => (kv.2.urlMeta, t)))
  return rs.flatten

/-- The maker once `make()` is exhausted: `process` has written patterns into its own tree
(pattern_cluster.py:725-727); `split_by_pattern` builds new trees and copies the metas
(pattern_cluster.py:660-666, piece_pattern_node.py:89-103). -/
def MakerSt.after (h : Runtime) (mcn : Int) (st : MakerSt) : Py MakerSt :=
  if st.tree.root.count ≤ 0 then .ok st
  else do
    let (t, _) ← process h (clusterNest h 1) mcn st.urlMeta false st.tree
    return { st with tree := t }

/-- All sub-makers once `PatternMaker.make()` is exhausted, pattern_maker.py:60-62. -/
def PatternMakerSt.after (h : Runtime) (mcn : Int) (st : PatternMakerSt) : Py PatternMakerSt :=
  st.mapM (fun kv => do return (kv.1, ← kv.2.after h mcn))

/-- A node of the combined pattern tree (`TreeNode`, utils.py:70-82): its pattern and count. -/
structure CNode where
  pat : Str
  count : Int
  deriving DecidableEq, Repr

/-- `build_tree(root, [(n.pattern, n.pattern)..], count)`, pattern_maker.py:107-108,
utils.py:140-144. -/
def cbuild (count : Int) : List Str → CNode → Forest CNode → CNode × Forest CNode
  | [], d, kids => ({ d with count := d.count + count }, kids)
  | p :: ps, d, kids =>
    ({ d with count := d.count + count }, kids.upsert p ⟨p, 0⟩ (cbuild count ps))

/-- Loop of `Maker._combine_clusters`, pattern_maker.py:105-108: the first path of every cluster, with
the cluster's count.  A cluster tree always has a path; `pick` of no path would be `None`. -/
def combineLoop : List (Tree NodeData) → Tree CNode → Py (Tree CNode)
  | [], t => .ok t
  | c :: cs, t =>
    match c.paths with
    | [] => .error .attributeError
    | path :: _ =>
      let (d, kids) := cbuild c.root.count (path.map (fun kn => kn.2.pattern)) t.root t.kids
      combineLoop cs ⟨d, kids⟩

/-- `Maker.make(combine=True)`, pattern_maker.py:103-110 -/
def MakerSt.makeCombined (h : Runtime) (mcn : Int) (st : MakerSt) : Py (Tree CNode) := do
  let cs ← st.make h mcn
  combineLoop cs ⟨⟨[], 0⟩, .nil⟩

/-- `PatternMaker.make(combine=True)`, pattern_maker.py:49-62: one tree for every sub-maker. -/
def PatternMakerSt.makeCombined (h : Runtime) (mcn : Int) (st : PatternMakerSt) : Py (List (URLMeta × Tree CNode)) :=
  st.mapM (fun kv => do return (kv.2.urlMeta, ← kv.2.makeCombined h mcn))

end OsUrl
