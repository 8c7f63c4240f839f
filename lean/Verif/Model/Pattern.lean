import Verif.Model.ParseUtils

/-!
# pattern.py and parsed_piece_view.py
-/

namespace OsUrl

/-- `PatternUnit`, pattern.py:10-19.  `rules` is the Python set, kept sorted and duplicate free. -/
structure PatternUnit where
  str : Str
  rules : List Str
  num : Int
  deriving DecidableEq, Repr

/-- `PatternUnit.__init__`, pattern.py:15-19 -/
def mkUnit (u : Str) : Py PatternUnit := do
  let (rules, num) ← parsePatternUnitString u
  return ⟨u, rules, num⟩

/-- `PatternUnit.is_literal`, pattern.py:21-41 -/
def PatternUnit.isLiteral (u : PatternUnit) : Bool :=
  if !startsWith ['['] u.str then true
  else match u.rules with
    | [r] => decide (u.num > 0) && decide (r ∉ digitAsciiRuleSet)
    | _ => false

/-- `PatternUnit.fuzzy_rule`, pattern.py:43-47 -/
def PatternUnit.fuzzyRule (u : PatternUnit) : Str := joinSorted u.rules

/-- `Pattern.pattern_units`, pattern.py:67-75 -/
def patternUnits (p : Str) : Py (List PatternUnit) := do
  let us ← parsePatternString p
  us.mapM mkUnit

/-- `Pattern.fuzzy_rule`, pattern.py:94-100, from the units. -/
def unitsFuzzyRule (us : List PatternUnit) : Str := joinSorted (us.flatMap (·.rules))

/-- `fuzzy_join(objs)`, parse_utils.py:392-402, on the fuzzy rules of the objects. -/
def fuzzyJoin (rules : List Str) : Str := join ['/'] rules

/-- The six subclasses of `ParsedPieceView`, parsed_piece_view.py:49-138. -/
inductive ViewCls where
  | piece | multi | mixed | lastDot | length | fuzzy
  deriving DecidableEq, Repr

/-- `ParsedPiece((piece,), (rule,))` -/
def single (piece rule : Str) : ParsedPiece := ⟨[piece], [rule]⟩

/-- `ParsedPieceView.parsed_pieces`, parsed_piece_view.py:39-46 (`MultiView`). -/
def multiPieces (p : ParsedPiece) : List ParsedPiece :=
  (p.pieces.zip p.rules).map (fun pr => single pr.1 pr.2)

/-- `MixedView.parsed_pieces`, parsed_piece_view.py:69-82 -/
def mixedPieces (p : ParsedPiece) : List ParsedPiece :=
  if p.rules.length ≤ 1 then [p]
  else
    let (mp, mr) := mix p.pieces p.rules
    (mp.zip mr).map (fun pr => single pr.1 pr.2)

/-- The search for the last dot, parsed_piece_view.py:92-99: among the last three rules. -/
def lastDotIdx (rules : List Str) : Option Nat :=
  let rec go : Nat → List Str → Option Nat
    | _, [] => none
    | i, r :: rs =>
      if i > 2 then none
      else if r = ruleDot then some (rules.length - i - 1)
      else go (i + 1) rs
  go 0 rules.reverse

/-- `FuzzyView.parsed_pieces`, parsed_piece_view.py:132-138 -/
def fuzzyPieces (p : ParsedPiece) : List ParsedPiece := [single p.piece p.fuzzyRule]

/-- `LastDotSplitFuzzyView.parsed_pieces`, parsed_piece_view.py:87-123 -/
def lastDotPieces (p : ParsedPiece) : List ParsedPiece :=
  match lastDotIdx p.rules with
  | none => fuzzyPieces p
  | some i =>
    if (p.rules.drop (i + 1)).all (fun r => decide (r ∈ digitAsciiRuleSet)) then
      let (mp, mr) := mix (p.pieces.drop (i + 1)) (p.rules.drop (i + 1))
      let pieces := [(p.pieces.take i).flatten, p.pieces.getD i []] ++ mp
      let rules := [joinSorted (p.rules.take i), p.rules.getD i []] ++ mr
      (pieces.zip rules).map (fun pr => single pr.1 pr.2)
    else fuzzyPieces p

/-- The objects' `fuzzy_rule`s joined: `ParsedPieceView.view`, parsed_piece_view.py:33-37 -/
def viewStr (pps : List ParsedPiece) : Str := fuzzyJoin (pps.map (·.fuzzyRule))

/-- `view_cls_from_pattern` on the pattern's units, parsed_piece_view.py:141-179 -/
def viewClsFromUnits (us : List PatternUnit) (isLastPath : Bool) : ViewCls :=
  match us with
  | [u] =>
    if u.isLiteral then .piece
    else if u.num < 0 then .fuzzy
    else .length
  | _ =>
    let nonLit := us.filter (fun u => !u.isLiteral)
    -- parsed_piece_view.py:164-170: MixedView at the first non-literal unit with several rules,
    -- otherwise MultiView if there is any non-literal unit
    let cls :=
      if nonLit.any (fun u => decide (u.rules.length > 1)) then ViewCls.mixed
      else if nonLit.isEmpty then ViewCls.piece
      else ViewCls.multi
    match us with
    | [_, u1, u2] =>
      if isLastPath ∧ cls ≠ .piece ∧ u1.rules = [ruleDot]
          ∧ u2.rules.all (fun r => decide (r ∈ digitAsciiRuleSet)) then .lastDot
      else cls
    | _ => cls

end OsUrl
