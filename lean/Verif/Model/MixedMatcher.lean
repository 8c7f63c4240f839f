import Verif.Model.Matcher

/-!
# `MixedPatternViewMatcher`, pattern_matcher.py:115-140

The class is defined but `VIEW_MATCHERS` (pattern_matcher.py:156-163) does not name it: for the mixed view
the program uses `MultiPatternViewMatcher`.  Its `match` is the one of `ViewMatcher`, `multiMatch`.
-/

namespace OsUrl

/-- `MixedPatternViewMatcher._pattern`, pattern_matcher.py:117-118 -/
def mixedPattern (us : List PatternUnit) : Py MatchPattern := mkMatchPattern (us.map (·.str)).flatten

/-- Lines 126-127 and 133-134: what has been collected becomes a pattern. -/
def mixedFlush (t : List PatternUnit) (patterns : List MatchPattern) : Py (List MatchPattern) :=
  if t = [] then .ok patterns
  else do
    let q ← mixedPattern t
    return patterns ++ [q]

/-- The loop of `add_match_node`, pattern_matcher.py:121-134: `t` and `patterns` are the local variables. -/
def mixedLoop : List PatternUnit → List PatternUnit → List MatchPattern → Py (List MatchPattern)
  | [], t, patterns => mixedFlush t patterns
  | u :: us, t, patterns =>
    if u.isLiteral = false ∨ u.fuzzyRule ∉ mixedRuleSet then do
      let patterns ← mixedFlush t patterns
      let q ← mixedPattern [u]
      mixedLoop us [] (patterns ++ [q])
    else mixedLoop us (t ++ [u]) patterns

/-- `MixedPatternViewMatcher.add_match_node`, pattern_matcher.py:120-140: as in `multiAdd` the node that is
bound as meta is modelled by its key, the pattern string. -/
def mixedAdd (p : MatchPattern) (d : Dict Str UnitTree) : Py (Dict Str UnitTree) := do
  let patterns ← mixedLoop p.units [] []
  let r := fuzzyJoin (patterns.map (fun q => unitsFuzzyRule q.units))
  let t := (Dict.get? r d).getD (MData.new emptyMatchPattern, .nil)
  let (dt, kids, isNew) ← minsert unitOps (some p.str) patterns none t.1 t.2
  match isNew with
  | none => .error .unboundLocal
  | some _ => return Dict.upd r (fun _ => (dt, kids)) d

/-- The `_matchers` of a `MixedPatternViewMatcher` after `add_match_node` of the patterns, in this order. -/
def mixedFill (ps : List MatchPattern) : Py (Dict Str UnitTree) := ps.foldlM (fun d p => mixedAdd p d) []

end OsUrl
