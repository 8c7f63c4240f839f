import Verif.Model.Formatter

/-!
# cmdline.py (the two commands) and the speed logger of utils.py

Input files are lists of byte lines.  `decode`/`encode` (UTF-8) are parameters.
-/

namespace OsUrl

/-- A byte string. -/
abbrev Bytes := List UInt8

/-- ASCII whitespace, what `bytes.strip()` removes. -/
def isSpaceB (b : UInt8) : Bool :=
  b == 32 || (decide (9 ≤ b.toNat) && decide (b.toNat ≤ 13))

/-- `line.rstrip()` -/
def rstripB (l : Bytes) : Bytes := (l.reverse.dropWhile isSpaceB).reverse

/-- `line.strip()` -/
def stripB (l : Bytes) : Bytes := rstripB (l.dropWhile isSpaceB)

/-- The counters of `MakePatternCommand._load`, cmdline.py:114-141 -/
structure MakeStats where
  all : Nat := 0
  empty : Nat := 0
  uniq : Nat := 0
  valid : Nat := 0
  invalid : Nat := 0
  deriving DecidableEq, Repr

/-- Runtime parameters: `hashlib.md5(..).hexdigest`, `bytes.decode('UTF-8')` (with `none` for
`UnicodeDecodeError`), `str.encode('UTF-8')`, and Python's string `hash` and order of sets. -/
structure Env where
  md5 : Str → Str
  decode : Bytes → Option Str
  encode : Str → Bytes
  rt : Runtime

/-- One line of `MakePatternCommand._load`, cmdline.py:117-141.  Both `except` clauses count the line
as invalid and continue; the logger calls are not modelled. -/
def makeLine (env : Env) (loadUrl : Bool) (st : PatternMakerSt × MakeStats) (line : Bytes) :
    PatternMakerSt × MakeStats :=
  let stats := { st.2 with all := st.2.all + 1 }
  let line := stripB line
  if line.isEmpty then (st.1, { stats with empty := stats.empty + 1 })
  else
    match env.decode line with
    | none => (st.1, { stats with invalid := stats.invalid + 1 })
    | some url =>
      match PatternMakerSt.load env.md5 st.1 url (if loadUrl then some url else none) with
      | .error _ => (st.1, { stats with invalid := stats.invalid + 1 })
      | .ok (mk, isNew) =>
        (mk, { stats with uniq := if isNew then stats.uniq + 1 else stats.uniq, valid := stats.valid + 1 })

/-- `MakePatternCommand._load`, cmdline.py:112-142, on the lines of all inputs. -/
def makeLoad (env : Env) (loadUrl : Bool) (lines : List Bytes) : PatternMakerSt × MakeStats :=
  lines.foldl (makeLine env loadUrl) ([], {})

/-- The `--formatter` choices that need no third party package, formatter.py:222-233. -/
inductive Fmt where
  | pattern | cluster | inline | json | null
  deriving DecidableEq, Repr

/-- `pformat(name, url_meta, root)`, formatter.py:207-219 -/
def pformat (rt : Runtime) (f : Fmt) (m : URLMeta) (t : Tree NodeData) : List Str :=
  match f with
  | .pattern => formatPattern m t
  | .cluster => formatCluster rt m t
  | .inline => formatInline rt m t
  | .json => formatJson m t
  | .null => []

/-- `MakePatternCommand._process`, cmdline.py:144-153: the printed records. -/
def makeProcess (env : Env) (mcn : Int) (f : Fmt) (st : PatternMakerSt) : Py (List Str) := do
  let rs ← st.make env.rt mcn
  return rs.flatMap (fun mt => pformat env.rt f mt.1 mt.2)

/-- `load_url`, cmdline.py:113 -/
def loadsUrl (f : Fmt) : Bool := f == .cluster || f == .inline

/-- `MakePatternCommand.run`, cmdline.py:155-158 -/
def makeRun (env : Env) (mcn : Int) (f : Fmt) (lines : List Bytes) : Py (List Str) :=
  makeProcess env mcn f (makeLoad env (loadsUrl f) lines).1

/-- One line of `MatchPatternCommand._load`, cmdline.py:189-202 -/
def matchLoadLine (env : Env) (st : PatternMatcherSt) (line : Bytes) : PatternMatcherSt :=
  let line := rstripB line
  if line.head? ≠ some 47 then st
  else
    match env.decode line with
    | none => st
    | some p =>
      match PatternMatcherSt.load env.md5 st p (some p) with
      | .error _ => st
      | .ok (st', _) => st'

/-- `MatchPatternCommand._load`, cmdline.py:180-203 -/
def matchLoad (env : Env) (lines : List Bytes) : PatternMatcherSt :=
  lines.foldl (matchLoadLine env) []

/-- Insert into a list sorted by `<`, after the elements that are not greater. -/
def insertAsc {α : Type} (lt : α → α → Py Bool) (x : α) : List α → Py (List α)
  | [] => .ok [x]
  | y :: ys => do
    let b ← lt x y
    if b then return x :: y :: ys
    else do
      let r ← insertAsc lt x ys
      return y :: r

/-- `sorted(xs)` by insertion.  CPython's sort gives the same result whenever `<` is a strict weak
order on the list. -/
def pySorted {α : Type} (lt : α → α → Py Bool) (xs : List α) : Py (List α) :=
  xs.foldlM (fun acc x => insertAsc lt x acc) []

/-- `sorted(xs, reverse=True)`: CPython reverses, sorts, reverses (equal elements keep their
order). -/
def pySortedDesc {α : Type} (lt : α → α → Py Bool) (xs : List α) : Py (List α) := do
  let r ← pySorted lt xs.reverse
  return r.reverse

/-- The `try` block of `MatchPatternCommand._match_result`, cmdline.py:208-214; a missing meta makes
`'\t'.join` raise. -/
def matchTry (env : Env) (st : PatternMatcherSt) (allMatched : Bool) (raw : Bytes) : Py Bytes := do
  match env.decode raw with
  | none => .error .valueError
  | some url =>
    let ms ← st.match_ env.md5 url
    let ms ← if allMatched then (pure ms : Py _) else do
      let s ← pySortedDesc Matched.lt ms
      pure (s.take 1)
    let metas ← ms.mapM (fun m => match m.data.md with
      | some x => (pure x : Py Str)
      | none => .error .attributeError)
    return env.encode (join ['\t'] metas)

/-- `MatchPatternCommand._match_result`, cmdline.py:205-225: `b'E'` on any exception. -/
def matchResult (env : Env) (st : PatternMatcherSt) (allMatched : Bool) (raw : Bytes) : Bytes :=
  match matchTry env st allMatched raw with
  | .ok r => r
  | .error _ => [69]

/-- One line of `MatchPatternCommand._match`, cmdline.py:230-239: the bytes written. -/
def matchLine (env : Env) (st : PatternMatcherSt) (allMatched : Bool) (line : Bytes) : Bytes :=
  let line := stripB line
  let r := matchResult env st allMatched line
  (if r.isEmpty then [78] else r) ++ [9] ++ line ++ [10]

/-- `MatchPatternCommand.run`, cmdline.py:241-244: everything written to stdout. -/
def matchRun (env : Env) (allMatched : Bool) (patternLines lines : List Bytes) : Bytes :=
  (lines.map (matchLine env (matchLoad env patternLines) allMatched)).flatten

/-- `LogSpeedAdapter._log`, utils.py:198-208: the new count and whether a record is emitted. -/
def logStep (interval count : Nat) : Nat × Bool :=
  let count := count + 1
  (count, decide (count % interval = 0))

/-- The records emitted by `n` calls: the counts at which one was emitted. -/
def logRun (interval : Nat) : Nat → Nat → List Nat
  | 0, _ => []
  | n + 1, count =>
    let (c, e) := logStep interval count
    (if e then [c] else []) ++ logRun interval n c

end OsUrl
