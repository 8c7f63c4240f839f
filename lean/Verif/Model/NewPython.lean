import Verif.Model.Cmdline

/-!
# The program on the Python that has `urllib/parse.py` of CPython 3.11.10

`Model/UrlParse` is `urlparse` as in the versions named in /repo/setup.py:44-49.  Later versions first remove characters from the URL and
reject more hosts.  Here are the functions of /repo that depend on it, with the newer `urlparse`; they differ from those of the other modules
in nothing else.
-/

namespace OsUrl

/-- `_UNSAFE_URL_BYTES_TO_REMOVE`, urllib/parse.py:92 -/
def removedC (c : Char) : Bool := c == '\t' || c == '\r' || c == '\n'

/-- A character of `_WHATWG_C0_CONTROL_OR_SPACE`, urllib/parse.py:89 -/
def leadingC (c : Char) : Bool := decide (c.toNat ≤ 32)

/-- urllib/parse.py:477, :480-481 -/
def cleanUrl (url : Str) : Str := (url.dropWhile leadingC).filter (fun c => !removedC c)

/-- `urlparse(url)` with the `urlsplit` of urllib/parse.py:453-507.  `bad` says for which netloc `_check_bracketed_host` (:441-448) or
`_checknetloc` (:421-437) raises `ValueError`; it is arbitrary. -/
def urlparseNew (bad : Str → Bool) (url : Str) : Py UrlParts := do
  let r ← urlparse (cleanUrl url)
  if bad r.netloc then .error .valueError else .ok r

/-- `parse_url(url)`, parse_utils.py:154-178.  The indices are those of the URL as it is given, not as `urlparse` cleaned it. -/
def parseUrlNew (bad : Str → Bool) (url : Str) : Py (UrlParts × Option Str × Option Str) := do
  let r ← urlparseNew bad url
  if r.fragment = [] then
    let last ← pyIndex url (-1)
    if last ≠ '#' then
      if r.query = [] ∧ last ≠ '?' then return (r, none, none)
      else return (r, some r.query, none)
    else if r.query = [] then
      let c ← pyIndex url (-2)
      if c ≠ '?' then return (r, none, some r.fragment)
      else return (r, some r.query, some r.fragment)
    else return (r, some r.query, some r.fragment)
  else if r.query = [] then
    let c ← pyIndex url ((url.length : Int) - r.fragment.length - 2)
    if c ≠ '?' then return (r, none, some r.fragment)
    else return (r, some r.query, some r.fragment)
  else return (r, some r.query, some r.fragment)

/-- `analyze_url(url)`, parse_utils.py:378-389 -/
def analyzeUrlNew (bad : Str → Bool) (url : Str) : Py (URLMeta × List Str) := do
  let (r, query, fragment) ← parseUrlNew bad url
  unpack ⟨some r.path, query, fragment⟩ true

/-- `parse(url_or_pattern)`, parser.py:10-31.  A pattern string is not given to `urlparse`. -/
def parseNew (bad : Str → Bool) (s : Str) : Py (URLMeta × Parsed) :=
  if startsWith ['/'] s then parse s
  else do
    let (m, pieces) ← analyzeUrlNew bad s
    let pps ← pieces.mapM parsePiece
    return (m, .pieces pps)

/-- `PatternMaker.load`, pattern_maker.py:29-47 -/
def PatternMakerSt.loadNew (bad : Str → Bool) (md5 : Str → Str) (st : PatternMakerSt) (url : Str) (md : Option Str) :
    Py (PatternMakerSt × Bool) := do
  let (m, parsed) ← parseNew bad url
  match parsed with
  | .patterns _ => .error .valueError
  | .pieces pps =>
    let sid := fuzzyDigest md5 m (.pieces pps)
    let (mk, isNew) ← ((Dict.get? sid st).getD (MakerSt.new m)).load pps md
    return (Dict.upd sid (fun _ => mk) st, isNew)

/-- One line of `MakePatternCommand._load`, cmdline.py:117-141, without the counters. -/
def makeLineNew (bad : Str → Bool) (env : Env) (loadUrl : Bool) (st : PatternMakerSt) (line : Bytes) : PatternMakerSt :=
  let line := stripB line
  if line.isEmpty then st
  else
    match env.decode line with
    | none => st
    | some url =>
      match PatternMakerSt.loadNew bad env.md5 st url (if loadUrl then some url else none) with
      | .error _ => st
      | .ok (mk, _) => mk

/-- `MakePatternCommand.run`, cmdline.py:155-158 -/
def makeRunNew (bad : Str → Bool) (env : Env) (mcn : Int) (f : Fmt) (lines : List Bytes) : Py (List Str) :=
  makeProcess env mcn f (lines.foldl (makeLineNew bad env (loadsUrl f)) [])

/-- `PatternMatcher.load`, pattern_matcher.py:277-295 -/
def PatternMatcherSt.loadNew (bad : Str → Bool) (md5 : Str → Str) (st : PatternMatcherSt) (s : Str) (md : Option Str) :
    Py (PatternMatcherSt × Bool) := do
  let (m, parsed) ← parseNew bad s
  match parsed with
  | .pieces _ => .error .valueError
  | .patterns ps =>
    let sid := fuzzyDigest md5 m (.patterns ps)
    let (ms, isNew) ← ((Dict.get? sid st).getD (MatcherSt.new m)).load ps md
    return (Dict.upd sid (fun _ => ms) st, isNew)

/-- One line of `MatchPatternCommand._load`, cmdline.py:189-202 -/
def matchLoadLineNew (bad : Str → Bool) (env : Env) (st : PatternMatcherSt) (line : Bytes) : PatternMatcherSt :=
  let line := rstripB line
  if line.head? ≠ some 47 then st
  else
    match env.decode line with
    | none => st
    | some p =>
      match PatternMatcherSt.loadNew bad env.md5 st p (some p) with
      | .error _ => st
      | .ok (st', _) => st'

/-- `PatternMatcher.match`, pattern_matcher.py:297-311 -/
def PatternMatcherSt.matchNew (bad : Str → Bool) (md5 : Str → Str) (st : PatternMatcherSt) (url : Str) : Py (List (Matched FullStore Str)) := do
  let (m, parsed) ← parseNew bad url
  let sid := fuzzyDigest md5 m parsed
  match Dict.get? sid st with
  | none => return []
  | some ms =>
    ms.match_ (match parsed with
      | .pieces pps => pps.map some
      | .patterns ps => ps.map (fun _ => none))

/-- The `try` block of `MatchPatternCommand._match_result`, cmdline.py:208-214 -/
def matchTryNew (bad : Str → Bool) (env : Env) (st : PatternMatcherSt) (allMatched : Bool) (raw : Bytes) : Py Bytes := do
  match env.decode raw with
  | none => .error .valueError
  | some url =>
    let ms ← st.matchNew bad env.md5 url
    let ms ← if allMatched then (pure ms : Py _) else do
      let s ← pySortedDesc Matched.lt ms
      pure (s.take 1)
    let metas ← ms.mapM (fun m => match m.data.md with
      | some x => (pure x : Py Str)
      | none => .error .attributeError)
    return env.encode (join ['\t'] metas)

/-- One line of `MatchPatternCommand._match`, cmdline.py:205-225, :230-239 -/
def matchLineNew (bad : Str → Bool) (env : Env) (st : PatternMatcherSt) (allMatched : Bool) (line : Bytes) : Bytes :=
  let line := stripB line
  let r := match matchTryNew bad env st allMatched line with
    | .ok r => r
    | .error _ => [69]
  (if r.isEmpty then [78] else r) ++ [9] ++ line ++ [10]

/-- `MatchPatternCommand.run`, cmdline.py:241-244 -/
def matchRunNew (bad : Str → Bool) (env : Env) (allMatched : Bool) (patternLines lines : List Bytes) : Bytes :=
  (lines.map (matchLineNew bad env (patternLines.foldl (matchLoadLineNew bad env) []) allMatched)).flatten

end OsUrl
