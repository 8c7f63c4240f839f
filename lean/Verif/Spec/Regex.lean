import Verif.Model.Py

/-!
# Specification: the fragment of Python regular expressions that URL patterns use

`reParse` reads a pattern as `re.compile` does for the fragment: literal characters, escaped
characters `\c`, classes `[..]` of characters, escaped characters and ranges, each optionally
followed by `{n}` or `+`.  Anything else is `none` (not in the fragment, or a syntax error).
`ReMatch p s` says that `^p$` matches the whole string `s` (none of the strings considered
contains a newline, the only case where `$` is not the end of the string).
-/

namespace OsUrl.Spec

/-- Every character is an ASCII character.  The digits of a repetition `{n}` must be: `re` reads
`{` before anything else as the character itself. -/
def AsciiText (s : Str) : Prop := ∀ c ∈ s, c.toNat < 128

/-- How often an item repeats. -/
inductive Quant where
  | times (n : Nat)
  | plus
  deriving DecidableEq, Repr

/-- A class is a list of inclusive ranges. -/
abbrev Class := List (Char × Char)

/-- Membership of a character in a class. -/
def Class.has (k : Class) (c : Char) : Prop := ∃ r ∈ k, r.1.toNat ≤ c.toNat ∧ c.toNat ≤ r.2.toNat

/-- One item of a regular expression. -/
structure Item where
  cls : Class
  q : Quant
  deriving DecidableEq, Repr

/-- The characters that cannot stand for themselves outside a class. -/
def special : List Char := ['.', '+', '*', '?', '(', ')', '[', ']', '{', '}', '|', '^', '$', '\\']

/-- A letter or digit; `\` before one of them is not a plain escape. -/
def isWord (c : Char) : Bool :=
  ('a'.toNat ≤ c.toNat ∧ c.toNat ≤ 'z'.toNat) ∨ ('A'.toNat ≤ c.toNat ∧ c.toNat ≤ 'Z'.toNat)
    ∨ ('0'.toNat ≤ c.toNat ∧ c.toNat ≤ '9'.toNat)

/-- One character of a class, possibly escaped. -/
def reClassChar : Str → Option (Char × Str)
  | [] => none
  | '\\' :: rest =>
    match rest with
    | [] => none
    | c :: rest => if isWord c then none else some (c, rest)
  | c :: rest => some (c, rest)

/-- The rest of a class after `[`: its ranges and the text after the closing bracket. -/
def reClass : Nat → Str → Option (Class × Str)
  | 0, _ => none
  | fuel + 1, s =>
    match s with
    | [] => none
    | ']' :: rest => some ([], rest)
    | _ =>
      match reClassChar s with
      | none => none
      | some (lo, s1) =>
        match s1 with
        | '-' :: s2 =>
          if s2.head? = some ']' then (reClass fuel s1).map fun r => ((lo, lo) :: r.1, r.2)
          else
            match reClassChar s2 with
            | none => none
            | some (hi, s3) =>
              if lo.toNat ≤ hi.toNat then (reClass fuel s3).map fun r => ((lo, hi) :: r.1, r.2)
              else none
        | _ => (reClass fuel s1).map fun r => ((lo, lo) :: r.1, r.2)

/-- Reading the digits of `{n}`: the value and the text after `}`. -/
def reNum : Nat → Bool → Str → Option (Nat × Str)
  | _, _, [] => none
  | acc, seen, c :: rest =>
    if c = '}' then (if seen then some (acc, rest) else none)
    else if '0'.toNat ≤ c.toNat ∧ c.toNat ≤ '9'.toNat then
      reNum (acc * 10 + (c.toNat - '0'.toNat)) true rest
    else none

/-- An optional quantifier. -/
def reQuant : Str → Option (Quant × Str)
  | '{' :: rest => (reNum 0 false rest).map fun r => (.times r.1, r.2)
  | '+' :: rest => some (.plus, rest)
  | s => some (.times 1, s)

/-- One item without its quantifier. -/
def reAtom : Str → Option (Class × Str)
  | [] => none
  | '[' :: rest =>
    match reClass rest.length rest with
    | some ([], _) => none
    | r => r
  | '\\' :: c :: rest => if isWord c then none else some ([(c, c)], rest)
  | c :: rest => if c ∈ special then none else some ([(c, c)], rest)

/-- The items of a regular expression (`fuel` ≥ the length of the text is enough). -/
def reItems : Nat → Str → Option (List Item)
  | _, [] => some []
  | 0, _ :: _ => none
  | fuel + 1, s => do
    let (k, rest) ← reAtom s
    let (q, rest) ← reQuant rest
    let is ← reItems fuel rest
    return ⟨k, q⟩ :: is

/-- The items of a regular expression. -/
def reParse (p : Str) : Option (List Item) := reItems p.length p

/-- The text `w` is matched by one item. -/
def Item.Match (i : Item) (w : Str) : Prop :=
  (∀ c ∈ w, i.cls.has c) ∧
  match i.q with
  | .times n => w.length = n
  | .plus => 1 ≤ w.length

/-- The text is matched by a sequence of items. -/
inductive ItemsMatch : List Item → Str → Prop where
  | nil : ItemsMatch [] []
  | cons {i is w ws} : i.Match w → ItemsMatch is ws → ItemsMatch (i :: is) (w ++ ws)

/-- `re.match('^' + p + '$', s)` succeeds. -/
def ReMatch (p s : Str) : Prop := ∃ is, reParse p = some is ∧ ItemsMatch is s

end OsUrl.Spec
