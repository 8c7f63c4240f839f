import Verif.Model.Args
import Verif.Spec.Digits

/-!
# Command lines

Which command lines the two commands accept and what they say, as a grammar.  Nothing here refers to how `argparse` goes through the words.
-/

namespace OsUrl.Spec

open OsUrl

/-- The options: the letter, the name, the meaning. -/
abbrev OptNames := List (Char × Str × Opt)

/-- The options of `pattern-make`. -/
def makeNames : OptNames :=
  [('h', c!"help", .help), ('v', c!"version", .version), ('i', c!"inputs", .inputs), ('l', c!"loglevel", .loglevel),
   ('c', c!"config", .config), ('f', c!"formatter", .format)]

/-- The options of `pattern-match`. -/
def matchNames : OptNames :=
  [('h', c!"help", .help), ('v', c!"version", .version), ('i', c!"inputs", .inputs), ('l', c!"loglevel", .loglevel),
   ('p', c!"pattern-files", .patterns), ('a', c!"all-matched", .all)]

/-- Options without an argument. -/
def Flag (o : Opt) : Prop := o = .help ∨ o = .version ∨ o = .all

/-- How many arguments an option takes. -/
def ArgCount (o : Opt) (n : Nat) : Prop :=
  (Flag o ∧ n = 0) ∨ ((o = .loglevel ∨ o = .config ∨ o = .format) ∧ n = 1) ∨ ((o = .inputs ∨ o = .patterns) ∧ 1 ≤ n)

/-- The word names the option: `-c`, `--name`, or a beginning of `--name` that is a beginning of no other. -/
inductive NamesOpt (F : OptNames) : Str → Opt → Prop
  | short (c : Char) (l : Str) (o : Opt) : (c, l, o) ∈ F → NamesOpt F ['-', c] o
  | long (c : Char) (l : Str) (o : Opt) : (c, l, o) ∈ F → NamesOpt F ('-' :: '-' :: l) o
  | abbreviation (c : Char) (l : Str) (o : Opt) (p : Str) : (c, l, o) ∈ F → p <+: l →
      (∀ x ∈ F, p <+: x.2.1 → x = (c, l, o)) → NamesOpt F ('-' :: '-' :: p) o

/-- A negative number: `-5`, `-.5` or `-1.5`, perhaps with a newline at the end. -/
def NegativeNumber (w : Str) : Prop :=
  ∃ (ds es nl : Str), (∀ c ∈ ds ++ es, ∃ v, IsDecimal c v) ∧ (nl = [] ∨ nl = ['\n']) ∧
    ((ds ≠ [] ∧ w = '-' :: ds ++ nl) ∨ (es ≠ [] ∧ w = '-' :: ds ++ '.' :: es ++ nl))

/-- The word cannot be meant as an option. -/
def NoOption (F : OptNames) (w : Str) : Prop :=
  (∀ x ∈ F, ¬ ['-', x.1] <+: w) ∧ (['-', '-'] <+: w → ∀ x ∈ F, ¬ w.takeWhile (· != '=') <+: '-' :: '-' :: x.2.1)

/-- The word is taken as an argument: it does not begin with a dash; or it is just a dash; or it is a negative number or has a space in it and
cannot be meant as an option. -/
def IsArg (F : OptNames) (w : Str) : Prop :=
  w.head? ≠ some '-' ∨ w = ['-'] ∨ ((NegativeNumber w ∨ ' ' ∈ w) ∧ NoOption F w)

/-- Some words and what they say. -/
inductive CmdItem (F : OptNames) : List Str → List (Opt × List Str) → Prop
  | apart (w : Str) (o : Opt) (vs : List Str) : NamesOpt F w o → ArgCount o vs.length → (∀ v ∈ vs, IsArg F v) → CmdItem F (w :: vs) [(o, vs)]
  | equals (w : Str) (o : Opt) (v : Str) : NamesOpt F w o → ¬ Flag o → CmdItem F [w ++ '=' :: v] [(o, [v])]
  | glued (c : Char) (l : Str) (o : Opt) (v : Str) : (c, l, o) ∈ F → ¬ Flag o → v ≠ [] → v.head? ≠ some '=' → CmdItem F ['-' :: c :: v] [(o, [v])]
  | flag (c : Char) (l : Str) (o : Opt) (r : Str) (ws : List Str) (gs : List (Opt × List Str)) : (c, l, o) ∈ F → Flag o → r.head? ≠ some '-' →
      CmdItem F (('-' :: r) :: ws) gs → CmdItem F (('-' :: c :: r) :: ws) ((o, []) :: gs)

/-- A command line and what it says. -/
inductive CmdLine (F : OptNames) : List Str → List (Opt × List Str) → Prop
  | nil : CmdLine F [] []
  | cons (ws argv : List Str) (gs hs : List (Opt × List Str)) : CmdItem F ws gs → CmdLine F argv hs → CmdLine F (ws ++ argv) (gs ++ hs)

/-- The log levels. -/
def levels : List Str := [c!"NOTSET", c!"DEBUG", c!"INFO", c!"WARN", c!"ERROR", c!"FATAL"]

/-- The formats; `ETE` needs ete3. -/
def formats (ete3 : Bool) : List Str :=
  [c!"NULL", c!"PATTERN", c!"CLUSTER", c!"INLINE", c!"JSON"] ++ if ete3 then [c!"ETE"] else []

/-- What is said can be done: the files can be opened, the level and the format are known (in upper case). -/
def CanDo (upper : Str → Str) (w : World) (g : Opt × List Str) : Prop :=
  match g.1 with
  | .inputs | .patterns | .config => ∀ n ∈ g.2, n = ['-'] ∨ (w.file n).isSome = true
  | .loglevel => ∀ v ∈ g.2, upper v ∈ levels
  | .format => ∀ v ∈ g.2, upper v ∈ formats w.ete3
  | _ => True

/-- The last arguments given to an option. -/
def lastOf (gs : List (Opt × List Str)) (o : Opt) : Option (List Str) := ((gs.filter (fun g => g.1 == o)).getLast?).map (·.2)

/-- Everything said can be done, and neither the help nor the version is asked for. -/
def Fine (upper : Str → Str) (w : World) (gs : List (Opt × List Str)) : Prop :=
  ∀ g ∈ gs, CanDo upper w g ∧ g.1 ≠ .help ∧ g.1 ≠ .version

/-- The two commands: their options, whether `-p` is needed, and the options in the grammar. -/
def commands : List (OptTable × Bool × OptNames) := [(makeOptions, false, makeNames), (matchOptions, true, matchNames)]

/-- The class a format stands for; `ETE` has none here. -/
def formatNames : List (Str × Fmt) :=
  [(c!"NULL", .null), (c!"PATTERN", .pattern), (c!"CLUSTER", .cluster), (c!"INLINE", .inline), (c!"JSON", .json)]

/-- What is read from a file name: the file; or standard input, unless something was read from it before (`used`): then nothing. -/
inductive Content (w : World) (used : Prop) : Str → Bytes → Prop
  | file (n : Str) (b : Bytes) : n ≠ ['-'] → w.file n = some b → Content w used n b
  | stdin : ¬ used → Content w used ['-'] w.stdin
  | again : used → Content w used ['-'] []

/-- What is read from several names, one after the other. -/
def Contents (w : World) (used : Prop) (ns : List Str) (bs : List Bytes) : Prop :=
  bs.length = ns.length ∧ ∀ i n b, ns[i]? = some n → bs[i]? = some b → Content w (used ∨ ['-'] ∈ ns.take i) n b

end OsUrl.Spec
