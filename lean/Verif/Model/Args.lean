import Verif.Model.Config
import Verif.Model.Api

/-!
# The command line

cmdline.py:57-80, :96-109, :162-178 (`add_argument`), :246-261 (`_execute`, `make`, `match`), and of the `argparse` of CPython 3.11 (a
dependency, not code of /repo) what they use: options only, no positional arguments.

`upper` stands for `str.upper`, which the commands apply to the log level and the format.  What is written to standard error is left out, and so
are the texts of `--help` and `--version`.
-/

namespace OsUrl

/-- The options of both commands (`dest`). -/
inductive Opt where
  | help | version | inputs | loglevel | config | format | patterns | all
  deriving DecidableEq, Repr

/-- `nargs`: none for `help`, `version` and `store_true`, one for `None` and `1`, at least one for `+`. -/
inductive Nargs where
  | zero | one | some
  deriving DecidableEq, Repr

/-- cmdline.py:58-80, :98-109, :164-178 -/
def Opt.nargs : Opt → Nargs
  | .help | .version | .all => .zero
  | .loglevel | .config | .format => .one
  | .inputs | .patterns => .some

/-- `_option_string_actions` -/
abbrev OptTable := List (Str × Opt)

/-- cmdline.py:58-80; `-h` is added by `ArgumentParser()`. -/
def commonOptions : OptTable :=
  [(c!"-h", .help), (c!"--help", .help), (c!"-v", .version), (c!"--version", .version), (c!"-i", .inputs), (c!"--inputs", .inputs),
   (c!"-l", .loglevel), (c!"--loglevel", .loglevel)]

/-- `MakePatternCommand.add_argument`, cmdline.py:96-109 -/
def makeOptions : OptTable := commonOptions ++ [(c!"-c", .config), (c!"--config", .config), (c!"-f", .format), (c!"--formatter", .format)]

/-- `MatchPatternCommand.add_argument`, cmdline.py:162-178 -/
def matchOptions : OptTable :=
  commonOptions ++ [(c!"-p", .patterns), (c!"--pattern-files", .patterns), (c!"-a", .all), (c!"--all-matched", .all)]

/-- What a word is: an argument, `--`, or an option.  For an option: which (`none` for an unknown one), whether it begins with a single dash,
and the argument that is part of the word, with whether `=` stands before it. -/
inductive WordKind where
  | arg | dashes
  | opt (o : Option Opt) (single : Bool) (explicit : Option (Bool × Str))
  deriving DecidableEq, Repr

/-- `option_string[1] not in chars` -/
def singleDash (s : Str) : Bool := s[1]? != some '-'

/-- `_get_option_tuples`, argparse.py:2300-2340 -/
def optionTuples (T : OptTable) (s : Str) : List WordKind :=
  if s[1]? = some '-' then
    let prefx := s.takeWhile (· != '=')
    let explicit := if hasChar '=' s then some (true, (s.dropWhile (· != '=')).drop 1) else none
    T.filterMap (fun e => if startsWith prefx e.1 then some (.opt (some e.2) (singleDash e.1) explicit) else none)
  else
    T.filterMap (fun e =>
      if e.1 = s.take 2 then some (.opt (some e.2) (singleDash e.1) (some (false, s.drop 2)))
      else if startsWith s e.1 then some (.opt (some e.2) (singleDash e.1) none)
      else none)

/-- `_negative_number_matcher`, argparse.py:1786: `^-\d+$|^-\d*\.\d+$`; `$` also matches before a newline at the end. -/
def looksNegative (s : Str) : Bool :=
  let s := if s.getLast? = some '\n' then s.dropLast else s
  match s with
  | '-' :: r => isDecimalStr r || (isDecimalStr ((r.dropWhile isDecimalC).drop 1) && (r.dropWhile isDecimalC).head? == some '.')
  | _ => false

/-- `_parse_optional`, argparse.py:2239-2293; `none` is the usage error about an ambiguous option. -/
def parseOptional (T : OptTable) (s : Str) : Option WordKind :=
  if s.head? ≠ some '-' then some .arg
  else
    match Dict.get? s T with
    | some o => some (.opt (some o) (singleDash s) none)
    | none =>
      if s.length = 1 then some .arg
      else
        let a := s.takeWhile (· != '=')
        match (if hasChar '=' s then Dict.get? a T else none) with
        | some o => some (.opt (some o) (singleDash a) (some (true, (s.dropWhile (· != '=')).drop 1)))
        | none =>
          match optionTuples T s with
          | _ :: _ :: _ => none
          | [k] => some k
          | [] => if looksNegative s || hasChar ' ' s then some .arg else some (.opt none (singleDash s) none)

/-- `option_string_indices` and `arg_strings_pattern`, argparse.py:1937-1962 -/
def wordKinds (T : OptTable) : List Str → Option (List (Str × WordKind))
  | [] => some []
  | s :: rest =>
    if s = c!"--" then some ((s, .dashes) :: rest.map (fun r => (r, .arg)))
    else do
      let k ← parseOptional T s
      let ks ← wordKinds T rest
      return (s, k) :: ks

/-- How a word with options ends: with an argument, with an option whose arguments follow, or with something unknown. -/
inductive ChainEnd where
  | value (o : Opt) (v : Str)
  | follow (o : Opt)
  | extra
  deriving DecidableEq, Repr

/-- The loop of `consume_optional` for an explicit argument, argparse.py:2004-2052: the options without argument in front, and the end; `none`
is the usage error `ignored explicit argument`. -/
def chainOptions (T : OptTable) (o : Opt) (single eq : Bool) : Str → Option (List Opt × ChainEnd)
  | [] => if o.nargs = .zero then none else some ([], .value o [])
  | c :: rest =>
    if o.nargs ≠ .zero then some ([], .value o (c :: rest))
    else if !single || eq || c = '-' then none
    else
      match Dict.get? ['-', c] T with
      | none => some ([o], .extra)
      | some o' =>
        match rest with
        | [] => some ([o], .follow o')
        | d :: r =>
          if d = '=' then (chainOptions T o' true true r).map (fun x => (o :: x.1, x.2))
          else (chainOptions T o' true false (d :: r)).map (fun x => (o :: x.1, x.2))

/-- `match_argument(action, selected_patterns)`, argparse.py:2056-2058, :2196-2216: the arguments taken from the words that follow, and the
rest; `none` is the usage error. -/
def takeArgs (o : Opt) (rest : List (Str × WordKind)) : Option (List Str × List (Str × WordKind)) :=
  match o.nargs with
  | .zero => some ([], rest)
  | .one =>
    match rest with
    | (s, .arg) :: r => some ([s], r)
    | _ => none
  | .some =>
    let vs := rest.takeWhile (fun w => w.2 == .arg)
    if vs.isEmpty then none else some (vs.map (·.1), rest.dropWhile (fun w => w.2 == .arg))

/-- The actions of `consume_optional`, the words that are left, and whether something is unknown. -/
structure Consumed where
  actions : List (Opt × List Str)
  rest : List (Str × WordKind)
  extra : Bool

/-- `consume_optional`, argparse.py:1992-2070, up to the actions. -/
def consumeOptional (T : OptTable) (o : Opt) (single : Bool) (explicit : Option (Bool × Str)) (rest : List (Str × WordKind)) : Option Consumed :=
  match explicit with
  | none => (takeArgs o rest).map (fun x => ⟨[(o, x.1)], x.2, false⟩)
  | some (eq, e) =>
    match chainOptions T o single eq e with
    | none => none
    | some (os, .value o' v) => some ⟨os.map (fun o => (o, [])) ++ [(o', [v])], rest, false⟩
    | some (os, .extra) => some ⟨os.map (fun o => (o, [])), rest, true⟩
    | some (os, .follow o') => (takeArgs o' rest).map (fun x => ⟨os.map (fun o => (o, [])) ++ [(o', x.1)], x.2, false⟩)

/-- The namespace.  Files are kept by name; `-` is standard input. -/
structure Args where
  inputs : List Str := [c!"-"]
  level : Option Str := none
  config : Option Str := none
  format : Option Str := none
  patterns : Option (List Str) := none
  all : Bool := false
  deriving DecidableEq, Repr

/-- `choices`, cmdline.py:78-79 -/
def levelNames : List Str := [c!"NOTSET", c!"DEBUG", c!"INFO", c!"WARN", c!"ERROR", c!"FATAL"]

/-- What the commands get from outside: which files can be opened and their content, standard input, whether ete3 can be imported. -/
structure World where
  file : Str → Option Bytes
  stdin : Bytes
  ete3 : Bool

/-- `FileType.__call__`, argparse.py:1305-1326, does not raise. -/
def World.opens (w : World) (name : Str) : Bool := name == c!"-" || (w.file name).isSome

/-- `take_action`, argparse.py:1970-1989, with `_get_values`, argparse.py:2453-2507; the error is the exit status. -/
def takeAction (upper : Str → Str) (w : World) (a : Args) (ov : Opt × List Str) : Except Nat Args :=
  match ov.1 with
  | .help | .version => .error 0
  | .all => .ok { a with all := true }
  | .inputs => if ov.2.all w.opens then .ok { a with inputs := ov.2 } else .error 2
  | .patterns => if ov.2.all w.opens then .ok { a with patterns := some ov.2 } else .error 2
  | .config => if ov.2.all w.opens then .ok { a with config := ov.2.head? } else .error 2
  | .loglevel =>
    let v := upper (ov.2.headD [])
    if v ∈ levelNames then .ok { a with level := some v } else .error 2
  | .format =>
    let v := upper (ov.2.headD [])
    if v ∈ ((formatters w.ete3).getD []).map (·.1) then .ok { a with format := some v } else .error 2

/-- The loop over the words, argparse.py:2098-2134; the fuel is the number of words.  The Boolean says whether `extras` is not empty. -/
def argLoop (T : OptTable) (upper : Str → Str) (w : World) : Nat → Args → Bool → List (Str × WordKind) → Except Nat (Args × Bool)
  | _, a, x, [] => .ok (a, x)
  | 0, a, x, _ :: _ => .ok (a, x)
  | fuel + 1, a, x, (_, k) :: rest =>
    match k with
    | .opt (some o) single explicit =>
      match consumeOptional T o single explicit rest with
      | none => .error 2
      | some c => do
        let a ← c.actions.foldlM (takeAction upper w) a
        argLoop T upper w fuel a (x || c.extra) c.rest
    | _ => argLoop T upper w fuel a true rest

/-- `parse_args`, argparse.py:1873-1878, :1919-2167; `required` for `pattern-match`, which needs `-p`. -/
def parseArgs (T : OptTable) (required : Bool) (upper : Str → Str) (w : World) (argv : List Str) : Except Nat Args :=
  match wordKinds T argv with
  | none => .error 2
  | some ks => do
    let (a, extra) ← argLoop T upper w ks.length {} false ks
    if (required && a.patterns.isNone) || extra then .error 2 else return a

/-- What a command does. -/
inductive CmdOutcome where
  | exit (status : Nat)
  | fails (e : CmdErr)
  | ete
  | prints (out : Bytes)
  deriving DecidableEq, Repr

/-- The contents of the opened files; standard input can be read once. -/
def World.read (w : World) : (consumed : Bool) → List Str → List Bytes
  | _, [] => []
  | used, n :: ns => if n = c!"-" then (if used then [] else w.stdin) :: w.read true ns else (w.file n).getD [] :: w.read used ns

/-- `pattern-make argv`, cmdline.py:247-257; `text` is the decoding of the configuration file.  A missing format is `CLUSTER`
(cmdline.py:105), to which argparse applies `upper` too.  The format `ETE` is not followed further. -/
def makeProgram (lower upper : Str → Str) (text : Bytes → Str) (env : Env) (w : World) (argv : List Str) : CmdOutcome :=
  match parseArgs makeOptions false upper w argv with
  | .error n => .exit n
  | .ok a =>
    let cfg := a.config.map (fun n => text ((w.read false [n]).headD []))
    match ((formatters w.ete3).bind (Dict.get? (a.format.getD (upper c!"CLUSTER")))).bind FmtCls.fmt with
    | none => .ete
    | some f =>
      match makeCommand lower env cfg f (w.read (a.config == some c!"-") a.inputs) with
      | .error e => .fails e
      | .ok out => .prints out

/-- `pattern-match argv`, cmdline.py:247-251, :260-261 -/
def matchProgram (upper : Str → Str) (env : Env) (w : World) (argv : List Str) : CmdOutcome :=
  match parseArgs matchOptions true upper w argv with
  | .error n => .exit n
  | .ok a =>
    let ps := a.patterns.getD []
    .prints (matchMain env a.all (w.read false ps) (w.read (ps.contains c!"-") a.inputs))

end OsUrl
