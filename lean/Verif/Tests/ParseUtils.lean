import Verif.Model.ParseUtils
import Verif.Model.Pattern
import Verif.Model.Re

/-!
# The test data of the repository, tests/test_parse_utils.py, checked against the model

Every `example` is one row of the data of the cited test.  It is evaluated by the kernel.  This is
evidence that the model computes what the program computes: the expected values on the right are
those the authors of the program wrote down, not values taken from the model.
-/

namespace OsUrl.Tests

/-! tests/test_parse_utils.py:15-28, `test_normalize_str` -/

example : normalize c!"a" = c!"a" := by decide +kernel
example : normalize c!"ab=" = c!"ab[=]" := by decide +kernel
example : normalize c!"ab1=a" = c!"ab1[=]a" := by decide +kernel
example : normalize c!"ab==a" = c!"ab[=]{2}a" := by decide +kernel
example : normalize c!"ab=={a" = c!"ab[=]{2}[\\{]a" := by decide +kernel
example : normalize c!"=" = c!"[=]" := by decide +kernel
example : normalize c!"==" = c!"[=]{2}" := by decide +kernel
example : normalize c!"==+a" = c!"[=]{2}[\\+]a" := by decide +kernel
example : normalize c!"\\" = c!"[\\\\]" := by decide +kernel

/-! tests/test_parse_utils.py:31-44, `test_parse_url` -/

/-- Parts, depth and fragment flag of a URL: what `test_parse_url` looks at. -/
def urlFacts (s : Str) : Py (List Str × Nat × Bool) := do
  let (m, ps) ← analyzeUrl s
  return (ps, m.depth, m.hasFragment)

example : urlFacts c!"http://www.test.com/" = .ok ([c!""], 1, false) := by decide +kernel
example : urlFacts c!"http://www.test.com/?" = .ok ([c!"", c!""], 2, false) := by decide +kernel
example : urlFacts c!"http://www.test.com/abc/def?k=v#xxx"
    = .ok ([c!"abc", c!"def", c!"v", c!"xxx"], 4, true) := by decide +kernel
example : analyzeUrl c!"http://www.g.com" = .error .irregularURL := by decide +kernel

/-! tests/test_parse_utils.py:47-62, `test_parse_query_string` -/

example : parseQueryString (some c!"a") = .ok ([c!""], [c!"a"]) := by decide +kernel
example : parseQueryString (some c!"a=") = .ok ([c!"a="], [c!""]) := by decide +kernel
example : parseQueryString (some c!"a&b") = .ok ([c!"a", c!"b"], [c!"", c!""]) := by decide +kernel
example : parseQueryString (some c!"a=1") = .ok ([c!"a="], [c!"1"]) := by decide +kernel
example : parseQueryString (some c!"a=1&b=2")
    = .ok ([c!"a=", c!"b="], [c!"1", c!"2"]) := by decide +kernel
example : parseQueryString (some c!"a&") = .error .irregularURL := by decide +kernel
example : parseQueryString (some c!"a&&b") = .error .irregularURL := by decide +kernel
example : parseQueryString (some c!"a=1&") = .error .irregularURL := by decide +kernel

/-! tests/test_parse_utils.py:65-88, `test_analyze_url` -/

/-- Query and fragment found by `parse_url`. -/
def queryFragment (s : Str) : Py (Option Str × Option Str) := do
  let (_, q, f) ← parseUrl s
  return (q, f)

example : (do let (r, q, f) ← parseUrl c!"http://www.g.com/test"; return (r.path, q, f))
    = (.ok (c!"/test", none, none) : Py _) := by decide +kernel
example : queryFragment c!"http://www.g.com/test?" = .ok (some c!"", none) := by decide +kernel
example : queryFragment c!"http://www.g.com/test?#" = .ok (some c!"", some c!"") := by
  decide +kernel
example : queryFragment c!"http://www.g.com/test?#abc" = .ok (some c!"", some c!"abc") := by
  decide +kernel
example : queryFragment c!"http://www.g.com/test#abc" = .ok (none, some c!"abc") := by
  decide +kernel
example : queryFragment c!"http://www.g.com/test?a#" = .ok (some c!"a", some c!"") := by
  decide +kernel
example : queryFragment c!"http://www.g.com/test?a##" = .ok (some c!"a", some c!"#") := by
  decide +kernel
example : queryFragment c!"http://www.g.com/test#?" = .ok (none, some c!"?") := by decide +kernel

/-! tests/test_parse_utils.py:91-103, `test_filter_useless_part` -/

example : filterUseless (splitChar '/' c!"/") = [c!""] := by decide +kernel
example : filterUseless (splitChar '/' c!"//") = [c!""] := by decide +kernel
example : filterUseless (splitChar '/' c!"") = [c!""] := by decide +kernel
example : filterUseless (splitChar '/' c!"/a/b") = [c!"a", c!"b"] := by decide +kernel
example : filterUseless (splitChar '/' c!"/a/b/") = [c!"a", c!"b", c!""] := by decide +kernel
example : filterUseless (splitChar '/' c!"/a/b//") = [c!"a", c!"b", c!""] := by decide +kernel
example : filterUseless (splitChar '/' c!"/a/b///c") = [c!"a", c!"b", c!"c"] := by decide +kernel
example : filterUseless (splitChar '/' c!"a/b///c") = [c!"a", c!"b", c!"c"] := by decide +kernel

/-! tests/test_parse_utils.py:106-123, `test_piece_parser` -/

/-- Pieces, rules and length of a parsed piece. -/
def pieceFacts (s : Str) : Py (List Str × List Str × Int) := do
  let p ← parsePiece s
  let n ← p.pieceLength
  return (p.pieces, p.rules, n)

example : pieceFacts c!"abc" = .ok ([c!"abc"], [c!"a-z"], 3) := by decide +kernel
example : pieceFacts c!"abc.exe"
    = .ok ([c!"abc", c!"[\\.]", c!"exe"], [c!"a-z", c!"\\.", c!"a-z"], 7) := by decide +kernel
example : pieceFacts c!"%%%%%%%%%%" = .ok ([c!"[%]{10}"], [c!"%"], 10) := by decide +kernel
example : pieceFacts c!"abc1D..exe"
    = .ok ([c!"abc", c!"1", c!"D", c!"[\\.]{2}", c!"exe"],
        [c!"a-z", c!"0-9", c!"A-Z", c!"\\.", c!"a-z"], 10) := by decide +kernel
example : pieceFacts c!"@<>.."
    = .ok ([c!"[@]", c!"[<]", c!"[>]", c!"[\\.]{2}"], [c!"@", c!"<", c!">", c!"\\."], 5) := by
  decide +kernel
example : parsePiece c!" a" = .error .invalidChar := by decide +kernel

/-! tests/test_parse_utils.py:126-137, `test_unpack_pack` -/

/-- `pack(*analyze_url(url))`. -/
def packed (s : Str) : Py Str := do
  let (m, ps) ← analyzeUrl s
  return pack m ps

example : packed c!"http://www.g.com/" = .ok c!"/" := by decide +kernel
example : packed c!"http://www.g.com/abc" = .ok c!"/abc" := by decide +kernel
example : packed c!"http://www.g.com/abc?a=1#c" = .ok c!"/abc[\\?]a=1#c" := by decide +kernel
example : packed c!"http://www.g.com/abc???a=1#c" = .ok c!"/abc[\\?][\\?]{2}a=1#c" := by
  decide +kernel
example : packed c!"http://www.g.com/abc?=1#c" = .ok c!"/abc[\\?]=1#c" := by decide +kernel
example : packed c!"http://www.g.com/abc?a=1#" = .ok c!"/abc[\\?]a=1#" := by decide +kernel
example : packed c!"http://www.g.com/abc?a=1&b=2#" = .ok c!"/abc[\\?]a=1&b=2#" := by
  decide +kernel

/-! tests/test_parse_utils.py:140-145, `test_url_meta` -/

example : URLMeta.depth ⟨1, [c!"key1", c!"key2"], false⟩ = 3 := by decide +kernel
example : URLMeta.depth ⟨1, [c!"key1", c!"key2"], true⟩ = 4 := by decide +kernel

/-! tests/test_parse_utils.py:148-163, `test_parse_url_pattern` -/

/-- The URL and the pattern string packed from it have the same meta and as many parts. -/
def backAgain (s : Str) : Py Bool := do
  let (m, ps) ← analyzeUrl s
  let t := pack m ps
  let (m', ps') ← analyzeUrlPatternString t
  return m = m' ∧ ps.length = ps'.length

example : backAgain c!"http://www.g.com/" = .ok true := by decide +kernel
example : backAgain c!"http://www.g.com/abc" = .ok true := by decide +kernel
example : backAgain c!"http://www.g.com/abc?a=1#c" = .ok true := by decide +kernel
example : backAgain c!"http://www.g.com/abc???a=1#c" = .ok true := by decide +kernel
example : backAgain c!"http://www.g.com/abc?=1#c" = .ok true := by decide +kernel
example : backAgain c!"http://www.g.com/abc?a=1#" = .ok true := by decide +kernel
example : backAgain c!"http://www.g.com/abc?a=1&b=2#" = .ok true := by decide +kernel

/-! tests/test_parse_utils.py:166-191, `test_parse_pattern_string` -/

/-- The joined parts and their number. -/
def patternFacts (s : Str) : Py (Str × Nat) := do
  let ps ← parsePatternString s
  return (ps.flatten, ps.length)

example : patternFacts c!"abc" = .ok (c!"abc", 1) := by decide +kernel
example : patternFacts c!"[0-9]{2}abc" = .ok (c!"[0-9]{2}abc", 2) := by decide +kernel
example : patternFacts c!"abc[0-9]+" = .ok (c!"abc[0-9]+", 2) := by decide +kernel
example : patternFacts c!"abc[\\[\\?][a-z]" = .ok (c!"abc[\\[\\?][a-z]", 3) := by decide +kernel
example : patternFacts c!"" = .ok (c!"", 1) := by decide +kernel
example : patternFacts c!"abcAbc" = .ok (c!"abcAbc", 3) := by decide +kernel
example : parsePatternString c!"[a-z" = .error .invalidPattern := by decide +kernel
example : parsePatternString c!"a-z]" = .error .invalidPattern := by decide +kernel
example : parsePatternString c!"[a-z]{-}" = .error .invalidPattern := by decide +kernel
example : parsePatternString c!"[a-z]{-2}" = .error .invalidPattern := by decide +kernel
example : parsePatternString c!"?" = .error .invalidPattern := by decide +kernel
example : parsePatternString c!"[a-z]++" = .error .invalidPattern := by decide +kernel

/-! tests/test_parse_utils.py:194-215, `test_parse_pattern_unit_string` -/

example : parsePatternUnitString c!"[a-z]" = .ok ([c!"a-z"], 1) := by decide +kernel
example : parsePatternUnitString c!"[a-z]+" = .ok ([c!"a-z"], -1) := by decide +kernel
example : parsePatternUnitString c!"" = .ok ([c!""], 1) := by decide +kernel
example : parsePatternUnitString c!"[%\\+]{12}" = .ok ([c!"%", c!"\\+"], 12) := by decide +kernel
example : parsePatternUnitString c!"[z-a]" = .error .invalidPattern := by decide +kernel
example : parsePatternUnitString c!"[z-a]{abc}" = .error .invalidPattern := by decide +kernel
example : parsePatternUnitString c!"[z-a]{-1}" = .error .invalidPattern := by decide +kernel
example : parsePatternUnitString c!"[\\._]" = .error .invalidPattern := by decide +kernel
example : parsePatternUnitString c!"[0-9a-z]" = .error .invalidPattern := by decide +kernel

/-! tests/test_parse_utils.py:218-234, `test_parse_url_pattern_string` -/

/-- Same meta, and each pattern matches the part of the URL at its place. -/
def patternFits (url pattern : Str) : Py Bool := do
  let (m, ps) ← analyzeUrl (c!"http://example.com" ++ url)
  let (m', qs) ← analyzeUrlPatternString pattern
  return m = m' ∧ (qs.zip ps).all fun (q, s) => patternMatch q s == some true

example : patternFits c!"/AaBb/123456.shtml" c!"/[A-Za-z]+/[0-9]{6}[\\.]shtml" = .ok true := by
  decide +kernel
example : patternFits c!"/abc/123/index.html" c!"/abc/123/index[\\.]html" = .ok true := by
  decide +kernel
example : patternFits c!"/12345678/index.asp?id=123" c!"/[0-9]{8}/[a-z]+[\\.]asp[\\?]id=[0-9]+"
    = .ok true := by decide +kernel
example : patternFits c!"/newsShow.asp?dataID=1" c!"/newsShow[\\.]asp[\\?]dataID=[0-9]+"
    = .ok true := by decide +kernel

end OsUrl.Tests
