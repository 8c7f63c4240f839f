import Verif.Model.Counters

/-!
# The log of the two commands

cmdline.py:36-50, cmdline.py:112-153, cmdline.py:180-239, utils.py:175-218.  A record is its level and what it says.  The speed in
`[LOADING]`/`[MATCHING]` records, the seconds in `[CLUSTER]` records and the text `str(e)` of an exception are left out: they depend on the clock
or are not modelled; the exception itself is kept.
-/

namespace OsUrl

/-- The levels of `logging` that occur as a choice of `--loglevel` (cmdline.py:78-79), apart from `NOTSET`. -/
inductive LogLevel where
  | debug | info | warn | error | fatal
  deriving DecidableEq, Repr

/-- `logging.DEBUG` … `logging.FATAL` -/
def LogLevel.num : LogLevel → Nat
  | .debug => 10
  | .info => 20
  | .warn => 30
  | .error => 40
  | .fatal => 50

/-- What a record says. -/
inductive LogText where
  /-- `'[LOADING] {count} {speed}/s'` or `'[MATCHING] {count} {speed}/s'`, utils.py:201-205 -/
  | speed (tag : Str) (count : Nat)
  /-- a message without times -/
  | msg (text : Str)
  /-- `'%s, %r'` with the exception and the line, cmdline.py:135, :139, :201, :221, :224 -/
  | rejected (e : PyErr) (line : Bytes)
  /-- `'[CLUSTER] %d %.2fs'`, cmdline.py:150 -/
  | cluster (count : Int)
  deriving DecidableEq, Repr

/-- A log record. -/
structure LogRec where
  level : LogLevel
  text : LogText
  deriving DecidableEq, Repr

/-- The two `except` clauses of cmdline.py:130-141 and cmdline.py:215-224: `warn` for the listed exceptions (`UnicodeDecodeError` is a
`ValueError`), `error` for any other. -/
def exceptLevel : PyErr → LogLevel
  | .invalidPattern | .irregularURL | .invalidChar | .valueError => .warn
  | _ => .error

/-- `speed_logger.debug(tag)`, utils.py:198-208: the new count and the records. -/
def speedDebug (tag : Str) (interval count : Nat) : Nat × List LogRec :=
  let (count, emit) := logStep interval count
  (count, if emit then [⟨.debug, .speed tag count⟩] else [])

/-- The state of a loop that counts and logs. -/
structure Logged (σ : Type) where
  state : σ
  count : Nat
  log : List LogRec

/-- One line of `MakePatternCommand._load`, cmdline.py:117-141, with its log. -/
def makeLineLog (env : Env) (loadUrl : Bool) (s : Logged (PatternMakerSt × Dict Str Nat)) (line : Bytes) :
    Logged (PatternMakerSt × Dict Str Nat) :=
  let (count, recs) := speedDebug c!"[LOADING]" 5000 s.count
  let log := s.log ++ recs
  let stats := counterInc c!"ALL" s.state.2
  let line := stripB line
  if line.isEmpty then ⟨(s.state.1, counterInc c!"EMPTY" stats), count, log⟩
  else
    let attempt : Py (PatternMakerSt × Bool) :=
      match env.decode line with
      | none => .error .valueError
      | some url => PatternMakerSt.load env.md5 s.state.1 url (if loadUrl then some url else none)
    match attempt with
    | .error e => ⟨(s.state.1, counterInc c!"INVALID" stats), count, log ++ [⟨exceptLevel e, .rejected e line⟩]⟩
    | .ok (mk, isNew) =>
      let stats := if isNew then counterInc c!"UNIQ" stats else stats
      ⟨(mk, counterInc c!"VALID" stats), count, log⟩

/-- `MakePatternCommand._load`, cmdline.py:112-142: the maker, the counter and the log. -/
def makeLoadLog (env : Env) (loadUrl : Bool) (lines : List Bytes) : (PatternMakerSt × Dict Str Nat) × List LogRec :=
  let s := lines.foldl (makeLineLog env loadUrl) ⟨([], []), 0, []⟩
  (s.state, s.log ++ [⟨.debug, .msg (c!"[LOADED] " ++ prettyCounter s.state.2)⟩])

/-- `MakePatternCommand._process`, cmdline.py:144-153, for the formats other than `ETE`: the printed records and the log. -/
def makeProcessLog (env : Env) (mcn : Int) (f : Fmt) (st : PatternMakerSt) : Py (List Str × List LogRec) := do
  let rs ← st.make env.rt mcn
  return (rs.flatMap (fun mt => pformat env.rt f mt.1 mt.2), rs.map (fun mt => ⟨.debug, .cluster mt.2.root.count⟩))

/-- The log of `MakePatternCommand._process`, cmdline.py:144-153, for the format `ETE`: one combined tree per sub-maker. -/
def makeProcessEteLog (env : Env) (mcn : Int) (st : PatternMakerSt) : Py (List LogRec) := do
  let rs ← st.makeCombined env.rt mcn
  return rs.map (fun mt => ⟨.debug, .cluster mt.2.root.count⟩)

/-- `MakePatternCommand.run`, cmdline.py:155-158: the printed records and the log. -/
def makeRunLog (env : Env) (mcn : Int) (f : Fmt) (lines : List Bytes) : Py (List Str × List LogRec) := do
  let (s, log) := makeLoadLog env (loadsUrl f) lines
  let (out, log') ← makeProcessLog env mcn f s.1
  return (out, log ++ log')

/-- One line of `MatchPatternCommand._load`, cmdline.py:189-202, with its log: every exception is a warning. -/
def matchLoadLineLog (env : Env) (s : Logged (PatternMatcherSt × Dict Str Nat)) (line : Bytes) : Logged (PatternMatcherSt × Dict Str Nat) :=
  let (count, recs) := speedDebug c!"[LOADING]" 1000 s.count
  let log := s.log ++ recs
  let stats := counterInc c!"ALL" s.state.2
  let line := rstripB line
  if line.head? ≠ some 47 then ⟨(s.state.1, counterInc c!"UNKNOW" stats), count, log⟩
  else
    let attempt : Py (PatternMatcherSt × Bool) :=
      match env.decode line with
      | none => .error .valueError
      | some p => PatternMatcherSt.load env.md5 s.state.1 p (some p)
    match attempt with
    | .error e => ⟨(s.state.1, counterInc c!"INVALID" stats), count, log ++ [⟨.warn, .rejected e line⟩]⟩
    | .ok (st, _) => ⟨(st, counterInc c!"VALID" stats), count, log⟩

/-- `MatchPatternCommand._load`, cmdline.py:180-203, given the names of the files and all their lines. -/
def matchLoadLog (env : Env) (names : List Str) (lines : List Bytes) : (PatternMatcherSt × Dict Str Nat) × List LogRec :=
  let s := lines.foldl (matchLoadLineLog env) ⟨([], []), 0, [⟨.debug, .msg (matchFilesMsg names)⟩]⟩
  (s.state, s.log ++ [⟨.debug, .msg (c!"[LOAD] Finished " ++ prettyCounter s.state.2)⟩])

/-- `MatchPatternCommand._match_result`, cmdline.py:205-225, with its log. -/
def matchResultLog (env : Env) (st : PatternMatcherSt) (allMatched : Bool) (raw : Bytes) : Bytes × List LogRec :=
  match matchTry env st allMatched raw with
  | .ok r => (r, [])
  | .error e => ([69], [⟨exceptLevel e, .rejected e raw⟩])

/-- One line of `MatchPatternCommand._match`, cmdline.py:230-239, with its log; the state is what was written. -/
def matchLineLog (env : Env) (st : PatternMatcherSt) (allMatched : Bool) (s : Logged Bytes) (line : Bytes) : Logged Bytes :=
  let (count, recs) := speedDebug c!"[MATCHING]" 5000 s.count
  let line := stripB line
  let (r, log) := matchResultLog env st allMatched line
  ⟨s.state ++ ((if r.isEmpty then [78] else r) ++ [9] ++ line ++ [10]), count, s.log ++ recs ++ log⟩

/-- `MatchPatternCommand.run`, cmdline.py:241-244: what is written to stdout and the log. -/
def matchRunLog (env : Env) (allMatched : Bool) (names : List Str) (patternLines lines : List Bytes) : Bytes × List LogRec :=
  let (s, log) := matchLoadLog env names patternLines
  let r := lines.foldl (matchLineLog env s.1 allMatched) ⟨[], 0, []⟩
  (r.state, log ++ r.log)

/-- `_config_logging`, cmdline.py:37-50: which records reach stderr; `none` is the default `NOTSET`, a `NullHandler`.  A handler passes records
whose level is at least its own; the root logger passes everything. -/
def shownRecords (option : Option LogLevel) (log : List LogRec) : List LogRec :=
  match option with
  | none => []
  | some l => log.filter (fun r => decide (l.num ≤ r.level.num))

end OsUrl
