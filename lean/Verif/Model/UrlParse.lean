import Verif.Model.Defs

/-!
# The part of `urllib.parse` that parse_utils.py:167 calls

Model of CPython 3.11 `urllib/parse.py` (`urlparse`, `_splitparams`, `_splitnetloc`, `urlsplit`),
imported by /repo/src/os_urlpattern/compat.py:15.  Simplifications: the removal of leading control
characters/blanks and of tab, CR and LF (absent from the Python 2.7/3.6 the project targets), the
validation of the text between brackets in a netloc and the NFKC check of a non-ASCII netloc are
not modelled.
-/

namespace OsUrl

/-- The 6-tuple of `urlparse`, with `query`/`fragment` still plain strings. -/
structure UrlParts where
  scheme : Str
  netloc : Str
  path : Str
  params : Str
  query : Str
  fragment : Str
  deriving DecidableEq, Repr

/-- `uses_params` of urllib/parse.py. -/
def usesParams : List Str :=
  [c!"", c!"ftp", c!"hdl", c!"prospero", c!"http", c!"imap", c!"https", c!"shttp", c!"rtsp",
   c!"rtsps", c!"rtspu", c!"sip", c!"sips", c!"mms", c!"sftp", c!"tel"]

/-- `c in scheme_chars` of urllib/parse.py. -/
def isSchemeC (c : Char) : Bool := isAlnumC c || c == '+' || c == '-' || c == '.'

/-- `str.lower` on ASCII (only used on strings of `scheme_chars`). -/
def lowerC (c : Char) : Char := if isUpperC c then Char.ofNat (c.toNat + 32) else c

/-- `s.split(c, 1)` when `c in s`, else `(s, '')`: the text before and after the first `c`. -/
def cutChar (c : Char) : Str → Str × Str
  | [] => ([], [])
  | x :: xs =>
    if x = c then ([], xs)
    else ((x :: (cutChar c xs).1), (cutChar c xs).2)

/-- `_splitnetloc(url, 2)` applied after the leading `//`: up to the first of `/?#`. -/
def splitNetloc : Str → Str × Str
  | [] => ([], [])
  | x :: xs =>
    if x = '/' ∨ x = '?' ∨ x = '#' then ([], x :: xs)
    else ((x :: (splitNetloc xs).1), (splitNetloc xs).2)

/-- `_splitparams(url)`; called only when `';' in url`. -/
def splitParams (url : Str) : Str × Str :=
  match rfindChar '/' url with
  | some i =>
    match findChar ';' (url.drop i) with
    | none => (url, [])
    | some j => (url.take (i + j), url.drop (i + j + 1))
  | none =>
    match findChar ';' url with
    | none => (url, [])
    | some j => (url.take j, url.drop (j + 1))

/-- The scheme part of `urlsplit`: `(scheme, rest of the url)`. -/
def splitScheme (url : Str) : Str × Str :=
  match findChar ':' url with
  | some i =>
    match url with
    | [] => ([], url)
    | c0 :: _ =>
      if i > 0 ∧ (isLowerC c0 || isUpperC c0) ∧ (url.take i).all isSchemeC then
        ((url.take i).map lowerC, url.drop (i + 1))
      else ([], url)
  | none => ([], url)

/-- `urlparse(url)` -/
def urlparse (url : Str) : Py UrlParts :=
  let (scheme, rest) := splitScheme url
  let (netloc, rest) :=
    if startsWith ['/', '/'] rest then splitNetloc (rest.drop 2) else ([], rest)
  if hasChar '[' netloc != hasChar ']' netloc then .error .valueError
  else
    let (rest, fragment) := cutChar '#' rest
    let (path, query) := cutChar '?' rest
    let (path, params) :=
      if scheme ∈ usesParams ∧ hasChar ';' path then splitParams path else (path, [])
    .ok ⟨scheme, netloc, path, params, query, fragment⟩

end OsUrl
