import Verif.Spec.Runs

/-!
# Specification: the texts of generated patterns

The grammar of the patterns the clustering writes, and what they stand for.  A class in which the
backslash comes last ends in `\\]`, which the program reads as an escaped bracket: such a class is written
but can not be read back.
-/

namespace OsUrl.Spec

/-- A unit of a generated pattern: a literal run, a class with a length, a class with `+`. -/
inductive GUnit where
  | run (sp : Space) (w : Str)
  | cls (R : List Space) (n : Nat)
  | wild (R : List Space)
  deriving DecidableEq, Repr

/-- A class as it is written: in increasing order, without repetition. -/
structure WrittenClass (R : List Space) : Prop where
  ne : R ≠ []
  valid : ∀ sp ∈ R, sp.Valid
  sorted : R.Pairwise (fun a b => a.text < b.text)

/-- A class that can be read back: the backslash is not the last space. -/
structure IsClass (R : List Space) : Prop extends WrittenClass R where
  readable : R.getLast? ≠ some (.sign '\\')

/-- The text of a unit. -/
def GUnit.text : GUnit → Str
  | .run sp w => runText (sp, w)
  | .cls R n => '[' :: (R.map Space.text).flatten ++ ']' :: (if n = 1 then [] else '{' :: decimal n ++ ['}'])
  | .wild R => '[' :: (R.map Space.text).flatten ++ [']', '+']

/-- The spaces a unit admits. -/
def GUnit.spaces : GUnit → List Space
  | .run sp _ => [sp]
  | .cls R _ => R
  | .wild R => R

/-- A unit as it is written. -/
def GUnit.Written : GUnit → Prop
  | .run sp w => w ≠ [] ∧ ∀ c ∈ w, space? c = some sp
  | .cls R n => WrittenClass R ∧ R.length ≤ n
  | .wild R => WrittenClass R

/-- The brackets of the unit do not end in a backslash. -/
def GUnit.Readable (u : GUnit) : Prop := u.spaces.getLast? ≠ some (.sign '\\')

/-- A unit as it is written that can be read back. -/
def GUnit.Valid : GUnit → Prop
  | .run sp w => w ≠ [] ∧ sp ≠ .sign '\\' ∧ ∀ c ∈ w, space? c = some sp
  | .cls R n => IsClass R ∧ R.length ≤ n
  | .wild R => IsClass R

/-- The text of a sequence of units. -/
def patText (us : List GUnit) : Str := (us.map GUnit.text).flatten

/-- Two neighbouring runs are of different spaces. -/
def GUnit.Differ : GUnit → GUnit → Prop
  | .run a _, .run b _ => a ≠ b
  | _, _ => True

/-- The pattern of one piece as it is written. -/
structure WrittenPat (us : List GUnit) : Prop where
  written : ∀ u ∈ us, u.Written
  apart : Neighbours GUnit.Differ us
  /-- `/` does not share a class with other signs when there are several units -/
  slash : 2 ≤ us.length → ∀ u ∈ us, .sign '/' ∈ u.spaces → u.spaces = [.sign '/']

/-- All units can be read back. -/
def ReadablePat (us : List GUnit) : Prop := ∀ u ∈ us, u.Readable

/-- The pattern of one piece as it is written, if it can be read back. -/
structure Generated (us : List GUnit) : Prop where
  valid : ∀ u ∈ us, u.Valid
  apart : Neighbours GUnit.Differ us
  /-- `/` does not share a class with other signs when there are several units -/
  slash : 2 ≤ us.length → ∀ u ∈ us, .sign '/' ∈ u.spaces → u.spaces = [.sign '/']

/-- The spaces of the characters of `s` are exactly those of `R`. -/
def SpacesOf (s : Str) (R : List Space) : Prop :=
  ∀ sp, sp ∈ R ↔ ∃ c ∈ s, space? c = some sp

/-- The length of a string as it is written in a class: every character counts, and the last backslash
of every run of backslashes counts twice. -/
def measured : Str → Nat
  | [] => 0
  | c :: s => (if c = '\\' ∧ s.head? ≠ some '\\' then 2 else 1) + measured s

/-- The whole-piece patterns. -/
inductive PiecePat where
  | lit (w : Str)
  | len (R : List Space) (n : Nat)
  | wild (R : List Space)

/-- The pattern stands for the string. -/
def PiecePat.Fits : PiecePat → Str → Prop
  | .lit w, s => s = w
  | .len R n, s => SpacesOf s R ∧ measured s = n
  | .wild R, s => SpacesOf s R

/-- The text of a whole-piece pattern. -/
def PiecePat.HasText : PiecePat → Str → Prop
  | .lit w, t => ∃ rs, Runs w rs ∧ t = (rs.map runText).flatten
  | .len R n, t => t = (GUnit.cls R n).text
  | .wild R, t => t = (GUnit.wild R).text

def PiecePat.Valid : PiecePat → Prop
  | .lit w => ∀ c ∈ w, Known c ∧ c ≠ '\\'
  | .len R n => (GUnit.cls R n).Valid
  | .wild R => (GUnit.wild R).Valid

end OsUrl.Spec
