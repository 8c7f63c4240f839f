import Verif.Model.Tree

/-!
# pattern_matcher.py and parser.py
-/

namespace OsUrl

/-- Position in `VIEW_MATCHERS`: `VIEW_ORDER`, pattern_matcher.py:156-165 -/
def viewOrder : ViewCls → Nat
  | .piece => 0
  | .multi => 1
  | .mixed => 2
  | .lastDot => 3
  | .length => 4
  | .fuzzy => 5

/-- `MatchPattern`, pattern_matcher.py:17-29: the pattern string, its units and its view class. -/
structure MatchPattern where
  str : Str
  units : List PatternUnit
  cls : ViewCls
  deriving DecidableEq, Repr

/-- `MatchPattern.__init__`, pattern_matcher.py:26-29 -/
def mkMatchPattern (s : Str) (isLastPath : Bool := false) : Py MatchPattern := do
  let us ← patternUnits s
  return ⟨s, us, viewClsFromUnits us isLastPath⟩

/-- `EMPTY_MATCH_PATTERN`, pattern_matcher.py:50 -/
def emptyMatchPattern : MatchPattern := ⟨[], [⟨[], [[]], 1⟩], .piece⟩

/-- `MatchPattern.cmp_key`, pattern_matcher.py:31-39 -/
def MatchPattern.cmpKey (p : MatchPattern) : Py Str := do
  let l ← p.units.reverse.mapM (fun u => mkMatchPattern u.str)
  return (l.map (fun q => natStr (viewOrder q.cls))).flatten

/-- `MatchPattern.__lt__`, pattern_matcher.py:44-47 -/
def MatchPattern.lt (p q : MatchPattern) : Py Bool :=
  if p.cls = q.cls then do
    let a ← p.cmpKey
    let b ← q.cmpKey
    return strLt b a
  else return decide (viewOrder p.cls > viewOrder q.cls)

/-- Data of a `PatternMatchNode`, pattern_matcher.py:181-189: the pattern, count, bound meta and the
view matchers.  A view matcher refers to child nodes; a reference is modelled by the child's key (its
pattern string).  `σ` is the type of the view matchers' contents. -/
structure MData (σ μ : Type) where
  pat : MatchPattern
  count : Int
  md : Option μ
  vms : List (ViewCls × σ)
  deriving Repr

/-- `PatternMatchNode.__init__`, pattern_matcher.py:187-189 -/
def MData.new {σ μ : Type} (p : MatchPattern) : MData σ μ := ⟨p, 0, none, []⟩

/-- The operations of a `ViewMatcher` class, pattern_matcher.py:53-77: constructor,
`add_match_node`, `match`.  A piece to be matched is `some pp`; `none` stands for a `MatchPattern`
object in its place, on which every attribute the matchers read is missing. -/
structure VMOps (σ : Type) where
  empty : ViewCls → σ
  add : MatchPattern → σ → Py σ
  matches_ : ViewCls → Option ParsedPiece → σ → Py (List Str)

/-- Contents of the view matchers below a single unit: `PiecePatternViewMatcher`,
`LengthPatternViewMatcher`, `FuzzyPatternViewMatcher`, pattern_matcher.py:80-99, :143-153.  Each maps
to child keys. -/
inductive Store where
  | piece (d : Dict Str Str)
  | length (d : Dict Int Str)
  | fuzzy (l : List Str)
  deriving Repr

/-- `PiecePatternViewMatcher.add_match_node` / `LengthPatternViewMatcher.add_match_node` /
`FuzzyPatternViewMatcher.add_match_node`, pattern_matcher.py:82-84, :93-95, :149-150. -/
def Store.add (p : MatchPattern) : Store → Py Store
  | .piece d => .ok (.piece (if (Dict.get? p.str d).isSome then d else Dict.upd p.str (fun _ => p.str) d))
  | .length d =>
    match p.units with
    | [] => .error .indexError
    | u :: _ => .ok (.length (Dict.upd u.num (fun _ => p.str) d))
  | .fuzzy l => .ok (.fuzzy (l ++ [p.str]))

/-- The `match` methods, pattern_matcher.py:86-88, :97-99, :152-153. -/
def Store.matches_ (pp : Option ParsedPiece) : Store → Py (List Str)
  | .piece d =>
    match pp with
    | none => .error .attributeError
    | some pp => .ok (Dict.get? pp.piece d).toList
  | .length d =>
    match pp with
    | none => .error .attributeError
    | some pp => do
      let l ← pp.pieceLength
      return (Dict.get? l d).toList
  | .fuzzy l => .ok l

/-- Empty contents for a single-unit view class (`VIEW_MATCHERS`, pattern_matcher.py:156-163).  A
`MatchPattern` made of one unit never has one of the three multi classes, so their matchers are not
modelled at this level (they would be `fuzzy []`). -/
def Store.emptyOf : ViewCls → Store
  | .piece => .piece []
  | .length => .length []
  | _ => .fuzzy []

/-- View matchers at unit level. -/
def unitOps : VMOps Store where
  empty := Store.emptyOf
  add := Store.add
  matches_ := fun _ pp s => Store.matches_ pp s

/-- `PatternMatchNode._get_matcher`, pattern_matcher.py:225-240: the position `e` the binary search
ends with, and whether a matcher of the class was found at `t`.  `fuel` is the number of view
matchers. -/
def getMatcher {σ : Type} (vms : List (ViewCls × σ)) (cls : ViewCls) : Nat → Nat → Nat → Nat × Bool
  | 0, _, e => (e, false)
  | fuel + 1, s, e =>
    if e > s then
      let t := (e - s) / 2 + s
      match vms[t]? with
      | none => (e, false)
      | some (c, _) =>
        if c = cls then (t, true)
        else if viewOrder c < viewOrder cls then getMatcher vms cls fuel (t + 1) e
        else getMatcher vms cls fuel s t
    else (e, false)

/-- `self._get_matcher(child.view_cls).add_match_node(child)`, pattern_matcher.py:240-253 -/
def addMatchNode {σ : Type} (ops : VMOps σ) (p : MatchPattern) (vms : List (ViewCls × σ)) :
    Py (List (ViewCls × σ)) := do
  let (i, found) := getMatcher vms p.cls (vms.length + 1) 0 vms.length
  let vms := if found then vms else vms.insertIdx i (p.cls, ops.empty p.cls)
  match vms[i]? with
  | none => .error .indexError
  | some (c, s) =>
    let s' ← ops.add p s
    return vms.set i (c, s')

/-- Monadic version of `Forest.upsert`. -/
def Forest.upsertM {α β : Type} (k : Str) (init : α)
    (g : α → Forest α → Py (α × Forest α × β)) : Forest α → Py (Forest α × β)
  | .nil => do
    let (a, kids, r) ← g init .nil
    return (.cons k a kids .nil, r)
  | .cons k' a kids sibs =>
    if k' = k then do
      let (a', kids', r) ← g a kids
      return (.cons k' a' kids' sibs, r)
    else do
      let (sibs', r) ← sibs.upsertM k init g
      return (.cons k' a kids sibs', r)

/-- `build_tree(root, patterns, meta=meta)` (utils.py:126-148) with
`PatternMatchNode.add_child` (pattern_matcher.py:248-254).  The last component is `is_new`; it is
unbound (`none`) when the sequence is empty. -/
def minsert {σ μ : Type} (ops : VMOps σ) (md : Option μ) :
    List MatchPattern → Option Bool → MData σ μ → Forest (MData σ μ) →
      Py (MData σ μ × Forest (MData σ μ) × Option Bool)
  | [], isNew, d, kids => .ok ({ d with count := d.count + 1, md := md.or d.md }, kids, isNew)
  | p :: ps, _, d, kids => do
    let isNew := (kids.get? p.str).isNone
    let vms ← if isNew then addMatchNode ops p d.vms else (pure d.vms : Py _)
    let (kids', r) ← kids.upsertM p.str (MData.new p) (minsert ops md ps (some isNew))
    return ({ d with count := d.count + 1, vms := vms }, kids', r)

/-- A matched node: the keys and patterns from the child of the root to the node, and its data. -/
structure Matched (σ μ : Type) where
  path : List MatchPattern
  data : MData σ μ

/-- Dereference child keys. -/
def derefs {σ μ : Type} (kids : Forest (MData σ μ)) (keys : List Str) :
    List (MData σ μ × Forest (MData σ μ)) :=
  keys.filterMap (fun k => kids.get? k)

/-- `PatternMatchNode.match` and `_deep_match`, pattern_matcher.py:195-223.  `pre` is the path to the
node.  `parsed_pieces[idx]` past the end raises `IndexError`. -/
def mmatch {σ μ : Type} (ops : VMOps σ) :
    List (Option ParsedPiece) → List MatchPattern → MData σ μ → Forest (MData σ μ) →
      Py (List (Matched σ μ))
  | [], _, _, _ => .error .indexError
  | pp :: rest, pre, d, kids => do
    let rs ← d.vms.mapM (fun vm => do
      let keys ← ops.matches_ vm.1 pp vm.2
      match derefs kids keys with
      | [] => return []
      | (d0, k0) :: ns =>
        if k0.isNil then
          return ((d0, k0) :: ns).map (fun n => (⟨pre ++ [n.1.pat], n.1⟩ : Matched σ μ))
        else do
          let ms ← ((d0, k0) :: ns).mapM (fun n => mmatch ops rest (pre ++ [n.1.pat]) n.1 n.2)
          return ms.flatten)
    return rs.flatten

/-- An inner tree of `MultiPatternViewMatcher`: its leaves carry the key of the outer child node. -/
abbrev UnitTree := MData Store Str × Forest (MData Store Str)

/-- Contents of the view matchers of a URL level node: as `Store`, and additionally
`MultiPatternViewMatcher` (pattern_matcher.py:102-112), a dict from joined unit rules to a unit level
match tree. -/
inductive FullStore where
  | simple (s : Store)
  | multi (d : Dict Str UnitTree)

/-- `MultiPatternViewMatcher.add_match_node`, pattern_matcher.py:104-112 -/
def multiAdd (p : MatchPattern) (d : Dict Str UnitTree) : Py (Dict Str UnitTree) := do
  let r := fuzzyJoin (p.units.map (·.fuzzyRule))
  let t := (Dict.get? r d).getD (MData.new emptyMatchPattern, .nil)
  let patterns ← p.units.mapM (fun u => mkMatchPattern u.str)
  let (dt, kids, isNew) ← minsert unitOps (some p.str) patterns none t.1 t.2
  match isNew with
  | none => .error .unboundLocal
  | some _ => return Dict.upd r (fun _ => (dt, kids)) d

/-- `view_cls(parsed_piece).parsed_pieces` for the three multi view classes,
pattern_matcher.py:70-73. -/
def viewPieces (cls : ViewCls) (pp : ParsedPiece) : List ParsedPiece :=
  match cls with
  | .mixed => mixedPieces pp
  | .lastDot => lastDotPieces pp
  | _ => multiPieces pp

/-- `ViewMatcher.match`, pattern_matcher.py:69-77: `[n.meta for n in matched_result]`, the metas are
the outer child nodes. -/
def multiMatch (cls : ViewCls) (pp : Option ParsedPiece) (d : Dict Str UnitTree) : Py (List Str) :=
  match pp with
  | none => .error .attributeError
  | some pp =>
    let pps := viewPieces cls pp
    match Dict.get? (viewStr pps) d with
    | none => .ok []
    | some (dt, kids) => do
      let ms ← mmatch unitOps (pps.map some) [] dt kids
      return ms.filterMap (fun m => m.data.md)

/-- `add_match_node` at URL level. -/
def FullStore.add (p : MatchPattern) : FullStore → Py FullStore
  | .simple s => do
    let s' ← s.add p
    return .simple s'
  | .multi d => do
    let d' ← multiAdd p d
    return .multi d'

/-- `match` at URL level. -/
def FullStore.matches_ (cls : ViewCls) (pp : Option ParsedPiece) : FullStore → Py (List Str)
  | .simple s => s.matches_ pp
  | .multi d => multiMatch cls pp d

/-- `VIEW_MATCHERS`, pattern_matcher.py:156-163: `MultiView`, `MixedView` and
`LastDotSplitFuzzyView` all get a `MultiPatternViewMatcher`. -/
def FullStore.emptyOf : ViewCls → FullStore
  | .multi => .multi []
  | .mixed => .multi []
  | .lastDot => .multi []
  | c => .simple (Store.emptyOf c)

/-- View matchers at URL level. -/
def urlOps : VMOps FullStore where
  empty := FullStore.emptyOf
  add := FullStore.add
  matches_ := FullStore.matches_

/-- `Matcher`, pattern_matcher.py:314-322. -/
structure MatcherSt where
  urlMeta : URLMeta
  root : MData FullStore Str
  kids : Forest (MData FullStore Str)

/-- `Matcher.__init__`, pattern_matcher.py:320-322 -/
def MatcherSt.new (m : URLMeta) : MatcherSt := ⟨m, MData.new emptyMatchPattern, .nil⟩

/-- `Matcher.load`, pattern_matcher.py:344-355: the new state and `is_new`. -/
def MatcherSt.load (st : MatcherSt) (ps : List MatchPattern) (md : Option Str) : Py (MatcherSt × Bool) := do
  let (d, kids, isNew) ← minsert urlOps md ps none st.root st.kids
  match isNew with
  | none => .error .unboundLocal
  | some b => return ({ st with root := d, kids := kids }, b)

/-- `Matcher.match`, pattern_matcher.py:329-342 -/
def MatcherSt.match_ (st : MatcherSt) (pps : List (Option ParsedPiece)) :
    Py (List (Matched FullStore Str)) :=
  mmatch urlOps pps [] st.root st.kids

/-- What `parse` returns besides the `URLMeta`: `MatchPattern`s or `ParsedPiece`s. -/
inductive Parsed where
  | patterns (ps : List MatchPattern)
  | pieces (pps : List ParsedPiece)

/-- `parse(url_or_pattern)`, parser.py:10-31 -/
def parse (s : Str) : Py (URLMeta × Parsed) :=
  if startsWith ['/'] s then do
    let (m, strs) ← analyzeUrlPatternString s
    let ps ← (strs.zipIdx 1).mapM (fun (p, i) => mkMatchPattern p (i == m.pathDepth))
    return (m, .patterns ps)
  else do
    let (m, pieces) ← analyzeUrl s
    let pps ← pieces.mapM parsePiece
    return (m, .pieces pps)

/-- The `fuzzy_rule`s of the parsed objects. -/
def Parsed.fuzzyRules : Parsed → List Str
  | .patterns ps => ps.map (fun p => unitsFuzzyRule p.units)
  | .pieces pps => pps.map (·.fuzzyRule)

/-- `fuzzy_digest(url_meta, objs)`, parser.py:34-53, parse_utils.py:554-564.  `md5` models
`hashlib.md5(..).hexdigest()` of the UTF-8 encoding. -/
def fuzzyDigest (md5 : Str → Str) (m : URLMeta) (p : Parsed) : Str := digest md5 m p.fuzzyRules

/-- `PatternMatcher._matchers`, pattern_matcher.py:273-275 -/
abbrev PatternMatcherSt := Dict Str MatcherSt

/-- `PatternMatcher.load`, pattern_matcher.py:277-295.  A sub-matcher is created before
`Matcher.load` runs; `Matcher.load` does not fail on parsed patterns, so no state is lost by
returning it only on success. -/
def PatternMatcherSt.load (md5 : Str → Str) (st : PatternMatcherSt) (s : Str) (md : Option Str) :
    Py (PatternMatcherSt × Bool) := do
  let (m, parsed) ← parse s
  match parsed with
  | .pieces _ => .error .valueError
  | .patterns ps =>
    let sid := fuzzyDigest md5 m (.patterns ps)
    let (ms, isNew) ← ((Dict.get? sid st).getD (MatcherSt.new m)).load ps md
    return (Dict.upd sid (fun _ => ms) st, isNew)

/-- `PatternMatcher.match`, pattern_matcher.py:297-311 -/
def PatternMatcherSt.match_ (md5 : Str → Str) (st : PatternMatcherSt) (url : Str) :
    Py (List (Matched FullStore Str)) := do
  let (m, parsed) ← parse url
  let sid := fuzzyDigest md5 m parsed
  match Dict.get? sid st with
  | none => return []
  | some ms =>
    ms.match_ (match parsed with
      | .pieces pps => pps.map some
      | .patterns ps => ps.map (fun _ => none))

/-- `PatternMatchNode.__lt__`, pattern_matcher.py:256-261, on two nodes of one tree given by their
paths from the leaf up to the child of the root. -/
def ltUp : List MatchPattern → List MatchPattern → Py Bool
  | [], _ => .ok false
  | _ :: _, [] => .ok false
  | p :: ps, q :: qs => if p.str = q.str then ltUp ps qs else p.lt q

/-- `PatternMatchNode.__lt__`: identity test first (two nodes of one tree are the same object iff
their paths are equal). -/
def Matched.lt {σ μ : Type} (a b : Matched σ μ) : Py Bool :=
  if a.path.map (·.str) = b.path.map (·.str) then .ok false
  else ltUp a.path.reverse b.path.reverse

end OsUrl
