import Verif.Spec.Clustering

/-!
# Specification: renaming the characters of a piece and of its pattern

A renaming replaces small letters by small letters, capitals by capitals and digits by digits, different ones by different ones,
and keeps the signs.  In a pattern the characters outside of brackets and braces are renamed; what stands between brackets or braces is kept.
-/

namespace OsUrl.Spec

/-- A renaming of characters within their spaces. -/
def Renaming (f : Char → Char) : Prop := (∀ a b, f a = f b → a = b) ∧ ∀ c, space? (f c) = space? c

/-- Where in a pattern a character stands: outside, between brackets, after a backslash between brackets, between braces. -/
inductive Place where
  | out | cls | esc | num
  deriving DecidableEq, Repr

/-- The pattern text with its characters outside of brackets and braces renamed. -/
def renamed (f : Char → Char) : Place → Str → Str
  | _, [] => []
  | .out, c :: s => if c = '[' then c :: renamed f .cls s else if c = '{' then c :: renamed f .num s else f c :: renamed f .out s
  | .cls, c :: s => c :: renamed f (if c = ']' then .out else if c = '\\' then .esc else .cls) s
  | .esc, c :: s => c :: renamed f .cls s
  | .num, c :: s => c :: renamed f (if c = '}' then .out else .num) s

/-- Every piece of a URL renamed, the piece at position `j` by `f j`. -/
def renameRow (f : Nat → Char → Char) (row : List Str) : List Str := row.mapIdx (fun j s => s.map (f j))

/-- The pieces and patterns of a path renamed. -/
def renameMember (f : Nat → Char → Char) (ps : List (Str × Str)) : List (Str × Str) :=
  ps.mapIdx (fun j kp => (renamed (f j) .out kp.1, renamed (f j) .out kp.2))

end OsUrl.Spec
