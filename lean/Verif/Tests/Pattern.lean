import Verif.Props.C16
import Verif.Model.Re

/-!
# The test data of tests/test_pattern.py, tests/test_parsed_piece_view.py,
# tests/test_pattern_matcher.py and `test_digest`, checked against the model

As in Tests/ParseUtils.lean each `example` is a row of the data of the cited test.
-/

namespace OsUrl.Tests

/-! tests/test_parse_utils.py:237-255, `test_digest`.  The digest is md5 of a text; equal texts have
equal digests, and here the texts themselves are compared. -/

/-- `fuzzy_digest(url_meta, parsed_pieces)` before md5. -/
def digestText (url : Str) : Py Str := do
  let (m, p) ← parse (c!"http://example.com" ++ url)
  return fuzzyDigest id m p

/-- `digest(url_meta, [p.fuzzy_rule for p in parsed_pieces])` before md5. -/
def digestText' (url : Str) : Py Str := do
  let (m, ps) ← analyzeUrl (c!"http://example.com" ++ url)
  let pps ← ps.mapM parsePiece
  return digest id m (pps.map (·.fuzzyRule))

example : digestText c!"/abc/" = digestText c!"/abcdef/" := by decide +kernel
example : digestText c!"/abc/" = digestText' c!"/abc/" := by decide +kernel
example : digestText c!"/abc/index.html?k1=v1&k2=v2" = digestText c!"/abc/html.htm?k1=c01&k2=2m" := by
  decide +kernel
example : digestText c!"/abc/index.html?k1=v1&k2=v2" = digestText' c!"/abc/html.htm?k1=c01&k2=2m" := by
  decide +kernel
example : digestText c!"/abc/index.html?k1=v1#abc" = digestText c!"/abc/html.htm?k1=c01#def" := by
  decide +kernel
example : digestText' c!"/abc/index.html?k1=v1#abc" = digestText c!"/abc/html.htm?k1=c01#def" := by
  decide +kernel

/-! tests/test_pattern.py:5-10, `test_equal` -/

example : patternEq c!"[a-z]+" c!"[a-z]+" = true := by decide +kernel
example : patternEq c!"[a-z]+" c!"[a-z]" = false := by decide +kernel

/-! tests/test_pattern.py:13-29, `test_fuzzy_rule` -/

/-- `Pattern(s).fuzzy_rule` -/
def fuzzyOf (s : Str) : Py Str := do return unitsFuzzyRule (← patternUnits s)

/-- The three assertions of the test: the fuzzy rule, that of the wildcard pattern and that of the
pattern of ten characters made from it. -/
def fuzzyFacts (s : Str) : Py (Str × Str × Str) := do
  let r ← fuzzyOf s
  return (r, ← fuzzyOf (← wildcardRule r), ← fuzzyOf (← specifyRule r 10))

example : fuzzyFacts c!"123" = .ok (c!"0-9", c!"0-9", c!"0-9") := by decide +kernel
example : fuzzyFacts c!"abc" = .ok (c!"a-z", c!"a-z", c!"a-z") := by decide +kernel
example : fuzzyFacts c!"a1b2c3" = .ok (c!"0-9a-z", c!"0-9a-z", c!"0-9a-z") := by decide +kernel
example : fuzzyFacts c!"a1b2c3D4" = .ok (c!"0-9A-Za-z", c!"0-9A-Za-z", c!"0-9A-Za-z") := by
  decide +kernel
example : fuzzyFacts c!"a1[\\-]b2[\\-]c3[_]D4"
    = .ok (c!"0-9A-Z\\-_a-z", c!"0-9A-Z\\-_a-z", c!"0-9A-Z\\-_a-z") := by decide +kernel
example : fuzzyFacts c!"[a-z]+" = .ok (c!"a-z", c!"a-z", c!"a-z") := by decide +kernel

/-! tests/test_pattern.py:32-47, `test_pattern_unit` -/

/-- Fuzzy rule, number and literality of a unit. -/
def unitFacts (s : Str) : Py (Str × Int × Bool) := do
  let u ← mkUnit s
  return (u.fuzzyRule, u.num, u.isLiteral)

example : unitFacts c!"[a-z]+" = .ok (c!"a-z", -1, false) := by decide +kernel
example : unitFacts c!"[a-z]{3}" = .ok (c!"a-z", 3, false) := by decide +kernel
example : unitFacts c!"abc" = .ok (c!"a-z", 3, true) := by decide +kernel
example : unitFacts c!"[0-9]" = .ok (c!"0-9", 1, false) := by decide +kernel
example : unitFacts c!"[\\.]{2}" = .ok (c!"\\.", 2, true) := by decide +kernel
example : unitFacts c!"[\\.]" = .ok (c!"\\.", 1, true) := by decide +kernel
example : unitFacts c!"[\\._]{2}" = .ok (c!"\\._", 2, false) := by decide +kernel

/-! tests/test_parsed_piece_view.py:7-19, `test_view_cls_from_pattern` -/

/-- `view_cls_from_pattern(Pattern(s), is_last_path)` -/
def clsOf (s : Str) (isLastPath : Bool) : Py ViewCls := do
  return viewClsFromUnits (← patternUnits s) isLastPath

example : clsOf c!"abc" false = .ok .piece := by decide +kernel
example : clsOf c!"[a-z]{2}" false = .ok .length := by decide +kernel
example : clsOf c!"[a-z]+" false = .ok .fuzzy := by decide +kernel
example : clsOf c!"abc[A-Z]{2}" false = .ok .multi := by decide +kernel
example : clsOf c!"[A-Za-z]{3}123" false = .ok .mixed := by decide +kernel
example : clsOf c!"[A-Za-z]+[\\.]html" true = .ok .lastDot := by decide +kernel
example : clsOf c!"id[_][0-9A-Za-z]+[\\.][a-z]+" true = .ok .mixed := by decide +kernel

/-! tests/test_pattern_matcher.py:16-28, `test_match` -/

/-- `'http://example.com/abc%02d' % i for i in range(1, 10)`, test_pattern_matcher.py:17 -/
def abcUrls : List Str :=
  (List.range 9).map (fun i => c!"http://example.com/abc0" ++ [Char.ofNat (49 + i)])

/-- The patterns of test_pattern_matcher.py:18-25 -/
def abcPatterns : List Str :=
  [c!"/abc[0-9]{2}", c!"/abc[0-9]+", c!"/[a-z]+[0-9]{2}", c!"/[a-z]{3}[0-9]{2}", c!"/[0-9a-z]+",
   c!"/[0-9a-z]{5}"]

/-- Each pattern loaded alone is found for each URL (`len(matched) > 0`). -/
example : (abcPatterns.all fun p => abcUrls.all fun u =>
    matchTexts [p] u == .ok [[p.drop 1]]) = true := by decide +kernel

/-- All loaded: more than three are found for each URL (`len(matched) > 3`). -/
example : (abcUrls.all fun u =>
    match matchTexts abcPatterns u with
    | .ok ms => decide (ms.length > 3)
    | .error _ => false) = true := by decide +kernel

/-- The last lines of the helper of the test, `sorted(matched)` and `matched[-1].meta == most_match`,
check nothing: the first drops its result and the second has no `assert`.  In fact the pattern
`/abc[0-9]{2}` is the first of the results, not the last. -/
example : (abcUrls.all fun u =>
    match matchTexts abcPatterns u with
    | .ok ms => ms.head? == some [c!"abc[0-9]{2}"]
    | .error _ => false) = true := by decide +kernel

end OsUrl.Tests
