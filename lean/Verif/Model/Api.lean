import Verif.Model.Cmdline

/-!
# parser.py `fuzzy_digest`, the `load` methods statement by statement, and the table of formatters
-/

namespace OsUrl

/-- The arguments of `parser.fuzzy_digest(*args)`. -/
inductive DigestArgs where
  | one (s : Str)
  | two (m : URLMeta) (p : Parsed)
  | other

/-- `parser.fuzzy_digest(*args)`, parser.py:34-53 -/
def fuzzyDigestArgs (md5 : Str → Str) : DigestArgs → Py Str
  | .two m p => .ok (fuzzyDigest md5 m p)
  | .one s => do
    let (m, p) ← parse s
    return fuzzyDigest md5 m p
  | .other => .error .valueError

/-- `if sid not in d: d[sid] = new` -/
def ensure {α : Type} (sid : Str) (new : α) (d : Dict Str α) : Dict Str α :=
  if (Dict.get? sid d).isSome then d else d ++ [(sid, new)]

/-- `PatternMaker.load`, pattern_maker.py:29-47, statement by statement: the state after the call, and the result or the exception.
`PatternMakerSt.load` is the same without the states left by exceptions. -/
def PatternMakerSt.loadStmts (md5 : Str → Str) (st : PatternMakerSt) (url : Str) (md : Option Str) : PatternMakerSt × Py Bool :=
  match parse url with
  | .error e => (st, .error e)
  | .ok (_, .patterns ps) => (st, .error (if ps.isEmpty then .indexError else .valueError))
  | .ok (m, .pieces pps) =>
    if pps.isEmpty then (st, .error .indexError)
    else
      let sid := fuzzyDigest md5 m (.pieces pps)
      let st := ensure sid (MakerSt.new m) st
      match Dict.get? sid st with
      | none => (st, .error .keyError)
      | some mk =>
        match mk.load pps md with
        | .error e => (st, .error e)
        | .ok (mk', isNew) => (Dict.upd sid (fun _ => mk') st, .ok isNew)

/-- `PatternMatcher.load`, pattern_matcher.py:277-295, statement by statement. -/
def PatternMatcherSt.loadStmts (md5 : Str → Str) (st : PatternMatcherSt) (s : Str) (md : Option Str) : PatternMatcherSt × Py Bool :=
  match parse s with
  | .error e => (st, .error e)
  | .ok (_, .pieces pps) => (st, .error (if pps.isEmpty then .indexError else .valueError))
  | .ok (m, .patterns ps) =>
    if ps.isEmpty then (st, .error .indexError)
    else
      let sid := fuzzyDigest md5 m (.patterns ps)
      let st := ensure sid (MatcherSt.new m) st
      match Dict.get? sid st with
      | none => (st, .error .keyError)
      | some mt =>
        match mt.load ps md with
        | .error e => (st, .error e)
        | .ok (mt', isNew) => (Dict.upd sid (fun _ => mt') st, .ok isNew)

/-- The classes of formatter.py:13-180 that are subclasses of `Formatter`. -/
inductive FmtCls where
  | base | pattern | cluster | inline | json | ete
  deriving DecidableEq, Repr

/-- `__name__` of the classes, formatter.py:13, :35, :55, :84, :113, :140. -/
def FmtCls.name : FmtCls → Str
  | .base => c!"Formatter"
  | .pattern => c!"PatternFormatter"
  | .cluster => c!"ClusterFormatter"
  | .inline => c!"InlineFormatter"
  | .json => c!"JsonFormatter"
  | .ete => c!"ETEFormatter"

/-- `inspect.getmembers` sorts the classes by name (utils.py:306). -/
def insertCls (c : FmtCls) : List FmtCls → List FmtCls
  | [] => [c]
  | d :: ds => if strLt d.name c.name then d :: insertCls c ds else c :: d :: ds

/-- `get_classes(module, Formatter)`, utils.py:290-306, formatter.py:224. -/
def formatterClasses : List FmtCls :=
  ([.base, .pattern, .cluster, .inline, .json, .ete] : List FmtCls).foldr insertCls []

/-- `s.rfind(sub)` -/
def rfindSub (sub : Str) : Str → Option Nat
  | [] => if sub.isEmpty then some 0 else none
  | c :: rest =>
    match rfindSub sub rest with
    | some i => some (i + 1)
    | none => if startsWith sub (c :: rest) then some 0 else none

/-- `str.upper()` of one character; only ASCII letters change.  (Some other characters change too in Python: `'ſ'.upper()` is `'S'`.) -/
def upperC (c : Char) : Char := if 'a'.toNat ≤ c.toNat ∧ c.toNat ≤ 'z'.toNat then Char.ofNat (c.toNat - 32) else c

/-- `str.upper()` -/
def upperStr (s : Str) : Str := s.map upperC

/-- The key of a class, formatter.py:225-229; `none` is the `ImportError`. -/
def formatterKey (c : FmtCls) : Option Str :=
  (rfindSub c!"Formatter" c.name).map (fun t => if (c.name.take t).isEmpty then c!"NULL" else upperStr (c.name.take t))

/-- `FORMATTERS`, formatter.py:222-233.  `ete3` says whether the package can be imported; otherwise `ETEFormatter()` raises and the
class is left out.  `none` is the `ImportError`. -/
def formatters (ete3 : Bool) : Option (Dict Str FmtCls) :=
  formatterClasses.foldlM (fun d c => do
    let k ← formatterKey c
    return if c == .ete && !ete3 then d else Dict.upd k (fun _ => c) d) []

/-- `FORMATTERS[name.upper()]`, formatter.py:219 -/
def formatterOf (ete3 : Bool) (name : Str) : Py FmtCls :=
  match (formatters ete3).bind (Dict.get? (upperStr name)) with
  | some c => .ok c
  | none => .error .keyError

/-- `--formatter`, cmdline.py:104-110: upper case, one of the keys, `CLUSTER` when missing; `none` is the usage error of argparse. -/
def formatArg (ete3 : Bool) (arg : Option Str) : Option Str :=
  match arg with
  | none => some c!"CLUSTER"
  | some a => if upperStr a ∈ ((formatters ete3).getD []).map (·.1) then some (upperStr a) else none

/-- `load_url` and `combine`, cmdline.py:113, :145. -/
def formatFlags (name : Str) : Bool × Bool := (name == c!"CLUSTER" || name == c!"INLINE", name == c!"ETE")

/-- The formatters that need no third party package. -/
def FmtCls.fmt : FmtCls → Option Fmt
  | .base => some .null
  | .pattern => some .pattern
  | .cluster => some .cluster
  | .inline => some .inline
  | .json => some .json
  | .ete => none

end OsUrl
