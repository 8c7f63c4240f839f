import Verif.Model.Pattern

/-!
# utils.py trees and piece_pattern_node.py

A Python tree of mutable nodes is modelled by an immutable forest in first-child / next-sibling
form: `cons k a kids sibs` is the child stored under dict key `k` with data `a`, its own children
`kids`, followed by the later siblings `sibs` (dict insertion order).  The identity of a node is
the list of keys that leads to it.
-/

namespace OsUrl

/-- The `_children` dict of a `TreeNode`, utils.py:70-123. -/
inductive Forest (α : Type) where
  | nil
  | cons (key : Str) (a : α) (kids sibs : Forest α)
  deriving DecidableEq, Repr

namespace Forest
variable {α : Type}

/-- `TreeNode.leaf()` of the node that owns these children, utils.py:84-85 -/
def isNil : Forest α → Bool
  | nil => true
  | cons .. => false

/-- `self._children.get(k)`: the child's data and its children. -/
def get? (k : Str) : Forest α → Option (α × Forest α)
  | nil => none
  | cons k' a kids sibs => if k' = k then some (a, kids) else sibs.get? k

/-- Go to the child `k`, creating it with data `init` if there is none (`TreeNode.add_child`,
utils.py:103-123), and apply `g` to it. -/
def upsert (k : Str) (init : α) (g : α → Forest α → α × Forest α) : Forest α → Forest α
  | nil => let (a, kids) := g init nil; cons k a kids nil
  | cons k' a kids sibs =>
    if k' = k then let (a', kids') := g a kids; cons k' a' kids' sibs
    else cons k' a kids (upsert k init g sibs)

/-- Apply `g` to the child `k` if there is one. -/
def modify (k : Str) (g : α → Forest α → α × Forest α) : Forest α → Forest α
  | nil => nil
  | cons k' a kids sibs =>
    if k' = k then let (a', kids') := g a kids; cons k' a' kids' sibs
    else cons k' a kids (modify k g sibs)

/-- `TreeNode.children`, utils.py:99-101: keys, data and children, in dict order. -/
def children : Forest α → List (Str × α × Forest α)
  | nil => []
  | cons k a kids sibs => (k, a, kids) :: sibs.children

/-- The paths below a node, from `dump_tree` (utils.py:151-173): for every leaf the list of
(key, data) from the child of the root down to the leaf. -/
def paths : Forest α → List (List (Str × α))
  | nil => []
  | cons k a kids sibs =>
    (match kids with
     | nil => [[(k, a)]]
     | cons .. => (kids.paths).map ((k, a) :: ·)) ++ sibs.paths

end Forest

/-- A tree: the root's data and children. -/
structure Tree (α : Type) where
  root : α
  kids : Forest α
  deriving DecidableEq, Repr

/-- `dump_tree(root)[i][1:]`: all root-to-leaf paths without the root.  A root without children is
itself a leaf and yields the empty path (utils.py:164-166). -/
def Tree.paths {α : Type} (t : Tree α) : List (List (Str × α)) :=
  match t.kids with
  | .nil => [[]]
  | f => f.paths

/-- Data of a `PiecePatternNode`, piece_pattern_node.py:13-41.  `meta` is the set of bound metas,
`none` for Python's `None`; metas are modelled as strings, duplicates dropped, in insertion
order. -/
structure NodeData where
  pp : ParsedPiece
  pat : Option Str
  count : Int
  metas : Option (List Str)
  deriving DecidableEq, Repr

/-- `PiecePatternNode.__init__`, piece_pattern_node.py:18-20, utils.py:76-82 -/
def newNode (pp : ParsedPiece) (pat : Option Str) : NodeData := ⟨pp, pat, 0, none⟩

/-- `PiecePatternNode.pattern`, piece_pattern_node.py:25-29 -/
def NodeData.pattern (d : NodeData) : Str := d.pat.getD d.pp.piece

/-- `PiecePatternNode.add_meta`, piece_pattern_node.py:53-58 -/
def NodeData.addMeta (d : NodeData) : Option Str → NodeData
  | none => d
  | some m => { d with metas := some (setAdd m (d.metas.getD [])) }

/-- `PiecePatternNode.update_meta`, piece_pattern_node.py:60-65 -/
def NodeData.updateMeta (d : NodeData) : Option (List Str) → NodeData
  | none => d
  | some [] => d
  | some ms => { d with metas := some (ms.foldl (fun acc m => setAdd m acc) (d.metas.getD [])) }

/-- `node.count += count` -/
def NodeData.incr (d : NodeData) (count : Int) : NodeData := { d with count := d.count + count }

/-- The loop of `build_tree`, utils.py:140-144, below one node whose children are `kids`: every node
on the path is created if missing and its count increased; `fin` is what is done to the last node. -/
def buildPath (count : Int) (fin : NodeData → NodeData) :
    List (ParsedPiece × Option Str) → NodeData → Forest NodeData → NodeData × Forest NodeData
  | [], d, kids => (fin (d.incr count), kids)
  | (pp, pat) :: rest, d, kids =>
    (d.incr count, kids.upsert pp.piece (newNode pp pat) (buildPath count fin rest))

/-- Whether the last `add_child` of `build_tree` along the path creates a node
(`is_new`, utils.py:143, :148). -/
def isNewPath : List Str → Forest NodeData → Bool
  | [], _ => false
  | [k], kids => (kids.get? k).isNone
  | k :: ks, kids =>
    match kids.get? k with
    | none => true
    | some (_, kids') => isNewPath ks kids'

/-- `PiecePatternNode.incr_count(count, recur=True)` on the node at the end of the path,
piece_pattern_node.py:43-48: the node, its ancestors and the root. -/
def incrPath (count : Int) : List Str → NodeData → Forest NodeData → NodeData × Forest NodeData
  | [], d, kids => (d.incr count, kids)
  | k :: ks, d, kids => (d.incr count, kids.modify k (incrPath count ks))

/-- `build_from_parsed_pieces`, piece_pattern_node.py:68-86: the new tree and `is_new`.  An empty
sequence leaves `is_new` unbound in `build_tree` (utils.py:148). -/
def buildFromParsedPieces (t : Tree NodeData) (pps : List ParsedPiece) (count : Int := 1)
    (md : Option Str := none) (uniq : Bool := true) : Py (Tree NodeData × Bool) :=
  match pps with
  | [] => .error .unboundLocal
  | _ =>
    let keys := pps.map (·.piece)
    let isNew := isNewPath keys t.kids
    let (d, kids) := buildPath count (·.addMeta md) (pps.map (fun pp => (pp, none))) t.root t.kids
    let (d, kids) := if uniq && !isNew then incrPath (0 - count) keys d kids else (d, kids)
    .ok (⟨d, kids⟩, isNew)

/-- `build_from_piece_pattern_nodes`, piece_pattern_node.py:89-103, on the data of the nodes;
`piece_pattern_nodes[-1]` of an empty sequence raises `IndexError`. -/
def buildFromNodes (t : Tree NodeData) (nodes : List NodeData) : Py (Tree NodeData) :=
  match nodes.getLast? with
  | none => .error .indexError
  | some last =>
    let (d, kids) := buildPath last.count (·.updateMeta last.metas)
      (nodes.map (fun n => (n.pp, some n.pattern))) t.root t.kids
    .ok ⟨d, kids⟩

/-- `PiecePatternNode((EMPTY_PARSED_PIECE, None))`, e.g. pattern_maker.py:74. -/
def emptyTree : Tree NodeData := ⟨newNode emptyParsedPiece none, .nil⟩

end OsUrl
