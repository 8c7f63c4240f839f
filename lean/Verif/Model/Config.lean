import Verif.Model.Io

/-!
# The configuration file

config/__init__.py, config/default_config.cfg, cmdline.py:90-94 (`-c`), pattern_cluster.py:190-191 (`getint`), and the part of the
`configparser` of CPython 3.11 that they use (a dependency, not code of /repo): `ConfigParser()` with all its defaults, `read`/`readfp`, `getint`.

`lower` stands for `str.lower`, which `optionxform` applies to the names of options.
-/

namespace OsUrl

/-- The exceptions of `configparser`, and `ValueError` of `int`. -/
inductive CfgErr where
  | missingSectionHeader | duplicateSection | duplicateOption | parsing
  | noSection | noOption
  | interpolationSyntax | interpolationMissing | interpolationDepth
  | notInt
  deriving DecidableEq, Repr

/-- `c.isspace()`; `\s` of `re` and `str.strip()` use the same set.  Unicode 14. -/
def isSpaceC (c : Char) : Bool :=
  (decide (9 ≤ c.toNat) && decide (c.toNat ≤ 13)) || (decide (28 ≤ c.toNat) && decide (c.toNat ≤ 32)) || c.toNat == 133 || c.toNat == 160 ||
  c.toNat == 5760 || (decide (8192 ≤ c.toNat) && decide (c.toNat ≤ 8202)) || c.toNat == 8232 || c.toNat == 8233 || c.toNat == 8239 ||
  c.toNat == 8287 || c.toNat == 12288

/-- `s.rstrip()` -/
def rstripS (s : Str) : Str := (s.reverse.dropWhile isSpaceC).reverse

/-- `s.strip()` -/
def stripS (s : Str) : Str := rstripS (s.dropWhile isSpaceC)

/-- The lines of a file opened in text mode: `\n`, `\r\n` and `\r` end a line.  The line ends are left out; `_read` strips them. -/
def textLines : Str → List Str
  | [] => []
  | c :: rest =>
    if c = '\n' ∨ (c = '\r' ∧ rest.head? ≠ some '\n') then [] :: textLines rest
    else if c = '\r' then textLines rest
    else
      match textLines rest with
      | [] => [[c]]
      | l :: ls => (c :: l) :: ls

/-- The sections; `DEFAULT` holds the defaults (`_sections` and `_defaults`, configparser.py:619-620). -/
abbrev Cfg := Dict Str (Dict Str Str)

/-- `DEFAULTSECT` -/
def cfgDefault : Str := c!"DEFAULT"

/-- A parser without content: only the section of defaults. -/
def cfgEmpty : Cfg := [(cfgDefault, [])]

/-- `_sections[sec][opt]` -/
def Cfg.look (c : Cfg) (sec opt : Str) : Option Str := (Dict.get? sec c).bind (Dict.get? opt)

/-- `cursect[opt] = f(cursect[opt])` -/
def Cfg.set (c : Cfg) (sec opt : Str) (f : Option Str → Str) : Cfg := Dict.upd sec (fun d => Dict.upd opt f (d.getD [])) c

/-- The variables of `_read`, configparser.py:1029-1035.  A value is kept as its lines joined by newlines from the beginning; it is stripped
at the end by `_join_multiline_values`.  `bad` says that `e` is not `None`. -/
structure CfgRd where
  cfg : Cfg
  added : List (Str × Option Str) := []
  cur : Option Str := none
  opt : Option Str := none
  indent : Nat := 0
  bad : Bool := false

/-- `if cursect is not None and optname`: the option that may be continued. -/
def CfgRd.open? (s : CfgRd) : Option (Str × Str) :=
  match s.cur, s.opt with
  | some sec, some o => if o.isEmpty then none else some (sec, o)
  | _, _ => none

/-- `cursect[optname].append(text)`, configparser.py:1067, :1077 -/
def CfgRd.append (s : CfgRd) (sec o text : Str) : CfgRd := { s with cfg := s.cfg.set sec o (fun v => v.getD [] ++ '\n' :: text) }

/-- `SECTCRE.match(value)`, configparser.py:574-578: greedy, up to the last `]`. -/
def cfgHeader : Str → Option Str
  | '[' :: rest =>
    match rfindChar ']' rest with
    | some (k + 1) => some (rest.take (k + 1))
    | _ => none
  | _ => none

/-- `OPTCRE.match(value)`, configparser.py:579-586: the text before and after the first `=` or `:`. -/
def cfgOption : Str → Option (Str × Str)
  | [] => none
  | c :: rest => if c = '=' ∨ c = ':' then some ([], rest) else (cfgOption rest).map (fun r => (c :: r.1, r.2))

/-- A section header, configparser.py:1082-1101. -/
def cfgSection (s : CfgRd) (name : Str) : Except CfgErr CfgRd :=
  if name = cfgDefault then .ok { s with cur := some name, opt := none }
  else if (Dict.get? name s.cfg).isSome then
    if (name, none) ∈ s.added then .error .duplicateSection
    else .ok { s with cur := some name, opt := none, added := (name, none) :: s.added }
  else .ok { s with cfg := s.cfg ++ [(name, [])], cur := some name, opt := none, added := (name, none) :: s.added }

/-- One line of `_read`, configparser.py:1037-1127. -/
def cfgLine (lower : Str → Str) (s : CfgRd) (line : Str) : Except CfgErr CfgRd :=
  let value := stripS line
  if value.head? = some '#' ∨ value.head? = some ';' then .ok s
  else if value.isEmpty then
    match s.open? with
    | some (sec, o) => .ok (s.append sec o [])
    | none => .ok s
  else
    let indent := (line.takeWhile isSpaceC).length
    match s.open?, decide (s.indent < indent) with
    | some (sec, o), true => .ok (s.append sec o value)
    | _, _ =>
      let s := { s with indent := indent }
      match cfgHeader value with
      | some name => cfgSection s name
      | none =>
        match s.cur with
        | none => .error .missingSectionHeader
        | some sec =>
          match cfgOption value with
          | none => .ok { s with bad := true }
          | some (o, v) =>
            let name := lower (rstripS o)
            if (sec, some name) ∈ s.added then .error .duplicateOption
            else .ok { s with
              cfg := s.cfg.set sec name (fun _ => stripS v), added := (sec, some name) :: s.added, opt := some name
              bad := s.bad || (rstripS o).isEmpty }

/-- `_join_multiline_values`, configparser.py:1136-1147 -/
def Cfg.joined (c : Cfg) : Cfg := c.map (fun sd => (sd.1, sd.2.map (fun ov => (ov.1, rstripS ov.2))))

/-- `_read`, configparser.py:1012-1134, on top of what was read before. -/
def cfgRead (lower : Str → Str) (c : Cfg) (lines : List Str) : Except CfgErr Cfg := do
  let s ← lines.foldlM (cfgLine lower) { cfg := c }
  if s.bad then .error .parsing else return s.cfg.joined

/-- config/default_config.cfg -/
def defaultConfigText : Str := c!"[make]\nmin_cluster_num = 3"

/-- `get_default_config()`, config/__init__.py:5-15 -/
def getDefaultConfig (lower : Str → Str) : Except CfgErr Cfg := cfgRead lower cfgEmpty (textLines defaultConfigText)

/-- The loop of `BasicInterpolation._interpolate_some`, configparser.py:412-442; `deep` is the recursive call. -/
def interpLoop (lower : Str → Str) (look : Str → Option Str) (deep : Str → Except CfgErr Str) : Nat → Str → Except CfgErr Str
  | _, [] => .ok []
  | 0, _ :: _ => .error .interpolationDepth
  | fuel + 1, c :: rest =>
    if c ≠ '%' then do
      let r ← interpLoop lower look deep fuel rest
      return c :: r
    else
      match rest with
      | '%' :: r => do
        let r ← interpLoop lower look deep fuel r
        return '%' :: r
      | '(' :: r =>
        match findChar ')' r with
        | some (k + 1) =>
          if (r.drop (k + 2)).head? = some 's' then
            match look (lower (r.take (k + 1))) with
            | none => .error .interpolationMissing
            | some v => do
              let a ← if hasChar '%' v then deep v else (pure v : Except CfgErr Str)
              let b ← interpLoop lower look deep fuel (r.drop (k + 3))
              return a ++ b
          else .error .interpolationSyntax
        | _ => .error .interpolationSyntax
      | _ => .error .interpolationSyntax

/-- `_interpolate_some`, configparser.py:407-442; the number is how many levels are left of `MAX_INTERPOLATION_DEPTH`. -/
def interpolate (lower : Str → Str) (look : Str → Option Str) : Nat → Str → Except CfgErr Str
  | 0, _ => .error .interpolationDepth
  | d + 1, v => interpLoop lower look (interpolate lower look d) v.length v

/-- White space for `int`: `str.isspace` without the four separators U+001C … U+001F. -/
def isIntSpace (c : Char) : Bool := isSpaceC c && !(decide (28 ≤ c.toNat) && decide (c.toNat ≤ 31))

/-- Digits in groups that are separated by single underscores. -/
def intDigits (s : Str) : Option Nat :=
  if (splitChar '_' s).all isDecimalStr then some (strNatAux 0 (splitChar '_' s).flatten) else none

/-- A sign, or none, and digits. -/
def intSigned : Str → Option Int
  | '+' :: d => (intDigits d).map Int.ofNat
  | '-' :: d => (intDigits d).map (fun n => -Int.ofNat n)
  | d => (intDigits d).map Int.ofNat

/-- `int(s)` for a string: blanks around it, a sign, digits, single underscores between digits.  The limit of 4300 digits is left out. -/
def pyIntText (s : Str) : Except CfgErr Int :=
  match intSigned ((s.dropWhile isIntSpace).reverse.dropWhile isIntSpace).reverse with
  | some n => .ok n
  | none => .error .notInt

/-- `get(section, option)`, configparser.py:781-815 with `_unify_values`, configparser.py:1160-1177, for a section other than `DEFAULT` and an
option in lower case. -/
def cfgGet (lower : Str → Str) (c : Cfg) (sec opt : Str) : Except CfgErr Str :=
  match Dict.get? sec c with
  | none => .error .noSection
  | some d =>
    let look := fun k => (Dict.get? k d).orElse (fun _ => c.look cfgDefault k)
    match look opt with
    | none => .error .noOption
    | some v => interpolate lower look 10 v

/-- `processor.config.getint('make', 'min_cluster_num')`, pattern_cluster.py:190-191 -/
def minClusterNum (lower : Str → Str) (c : Cfg) : Except CfgErr Int := do
  let v ← cfgGet lower c c!"make" c!"min_cluster_num"
  pyIntText v

/-- What may end a command. -/
inductive CmdErr where
  | cfg (e : CfgErr)
  | py (e : PyErr)
  deriving DecidableEq, Repr

/-- `make`, cmdline.py:256-257, and `MakePatternCommand.process_args`, cmdline.py:91-94: the configuration; `text` is the content of the file
after `-c`. -/
def commandConfig (lower : Str → Str) (text : Option Str) : Except CfgErr Cfg := do
  let c ← getDefaultConfig lower
  match text with
  | none => return c
  | some t => cfgRead lower c (textLines t)

/-- `pattern-make -c config -f F -i files`, cmdline.py:247-257, :155-158.  `min_cluster_num` is read when the first cluster is made
(pattern_cluster.py:188-192, :712-732), hence not at all if no URL was loaded. -/
def makeCommand (lower : Str → Str) (env : Env) (text : Option Str) (f : Fmt) (files : List Bytes) : Except CmdErr Bytes :=
  match commandConfig lower text with
  | .error e => .error (.cfg e)
  | .ok c =>
    let st := (makeLoad env (loadsUrl f) (chainLines files)).1
    if st.isEmpty then .ok []
    else
      match minClusterNum lower c with
      | .error e => .error (.cfg e)
      | .ok mcn =>
        match makeProcess env mcn f st with
        | .error e => .error (.py e)
        | .ok records => .ok (printOut env records)

end OsUrl
