import Verif.Spec.Regex

/-!
# `Pattern.match` of pattern.py, with the part of Python's `re` that it needs

The syntax is that of `Spec.reParse`.  The engine below tries the longest repetition first, as `re` does.
-/

namespace OsUrl
open Spec

/-- A character is in a class. -/
def inClass (k : Class) (c : Char) : Bool := k.any (fun r => decide (r.1.toNat ≤ c.toNat) && decide (c.toNat ≤ r.2.toNat))

/-- How many characters at the start of `s` are in the class. -/
def runLen (k : Class) (s : Str) : Nat := (s.takeWhile (inClass k)).length

/-- The engine.  At the end stands `$`, which holds at the end of the text and before a newline at the end of the text. -/
def reRun : List Item → Str → Bool
  | [], s => decide (s = []) || decide (s = ['\n'])
  | i :: is, s =>
    match i.q with
    | .times n => decide (n ≤ runLen i.cls s) && reRun is (s.drop n)
    | .plus => (List.range (runLen i.cls s)).reverse.any (fun j => reRun is (s.drop (j + 1)))

/-- `Pattern.match(piece)`, pattern.py:88-92: `re.match('^' + p + '$', piece)` as a truth value; `none` for a text outside the fragment of
`Spec.reParse`.  The compiled expression is cached in the object, which does not change the result. -/
def patternMatch (p s : Str) : Option Bool := (reParse p).map (fun is => reRun is s)

/-- `Pattern.__eq__`, pattern.py:85-86, of two patterns given by their texts. -/
def patternEq (p q : Str) : Bool := decide (p = q)

end OsUrl
