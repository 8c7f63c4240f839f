import Verif.Model.Py

/-!
# Specification: character spaces

Independent of the model's tables: what "letter, digit or known sign" means.
-/

namespace OsUrl.Spec

/-- The character spaces: the three alphanumeric ones and one per known sign. -/
inductive Space where
  | lower
  | upper
  | digit
  | sign (c : Char)
  deriving DecidableEq, Repr

/-- The signs that have a representation; the first group is written bare, the second escaped. -/
def bareSigns : List Char :=
  ['%', '&', '_', '@', '#', ';', ':', ',', '=', '<', '>', '~', '/']

/-- The signs that are written with a backslash. -/
def escapedSigns : List Char :=
  ['.', '+', '\\', '"', '\'', '(', ')', '[', ']', '{', '}', '*', '$', '^', '?', '|', '!', '-']

/-- The space of a character, `none` for characters outside the table. -/
def space? (c : Char) : Option Space :=
  if 'a'.toNat ≤ c.toNat ∧ c.toNat ≤ 'z'.toNat then some .lower
  else if 'A'.toNat ≤ c.toNat ∧ c.toNat ≤ 'Z'.toNat then some .upper
  else if '0'.toNat ≤ c.toNat ∧ c.toNat ≤ '9'.toNat then some .digit
  else if c ∈ bareSigns ∨ c ∈ escapedSigns then some (.sign c)
  else none

/-- A known character. -/
def Known (c : Char) : Prop := (space? c).isSome = true

instance (c : Char) : Decidable (Known c) := inferInstanceAs (Decidable (_ = _))

/-- How a space is written inside a character class. -/
def Space.text : Space → Str
  | .lower => ['a', '-', 'z']
  | .upper => ['A', '-', 'Z']
  | .digit => ['0', '-', '9']
  | .sign c => if c ∈ bareSigns then [c] else ['\\', c]

/-- A space that exists. -/
def Space.Valid : Space → Prop
  | .sign c => c ∈ bareSigns ∨ c ∈ escapedSigns
  | _ => True

/-- Is the space one of the signs? -/
def Space.isSign : Space → Bool
  | .sign _ => true
  | _ => false

end OsUrl.Spec
