/-!
# Python primitives used by the model

Everything in this file models a builtin of the Python runtime, not code of /repo.
Strings are lists of code points (`List Char`), exceptions are values (`Except PyErr`).
-/

namespace OsUrl

/-- A Python `str`: the list of its code points. -/
abbrev Str := List Char

/-- `s!"..."`-like literal that elaborates to an explicit list of characters, so that the kernel
can compute with it without unfolding `String`. -/
syntax:max (name := cstr) "c!" str : term

macro_rules
  | `(c! $s:str) => do
    let cs := s.getString.toList
    let elems := cs.toArray.map fun c => (Lean.Syntax.mkCharLit c : Lean.TSyntax `char)
    `(([$[$elems:char],*] : List Char))

/-- The exceptions that the modelled code can raise.  The first three are
/repo/src/os_urlpattern/exceptions.py:5-14, the others are Python builtins. -/
inductive PyErr where
  | irregularURL
  | invalidPattern
  | invalidChar
  | valueError
  | indexError
  | keyError
  | attributeError
  | unboundLocal
  | recursionError
  deriving DecidableEq, Repr, Inhabited

/-- A Python computation: a value or an exception. -/
abbrev Py (α : Type) := Except PyErr α

deriving instance DecidableEq for Except

/-- `sep.join(parts)` -/
def join (sep : Str) : List Str → Str
  | [] => []
  | [x] => x
  | x :: y :: rest => x ++ sep ++ join sep (y :: rest)

/-- `s.split(c)` for a one-character separator: always at least one part. -/
def splitChar (c : Char) : Str → List Str
  | [] => [[]]
  | x :: xs =>
    if x = c then [] :: splitChar c xs
    else
      match splitChar c xs with
      | [] => [[x]]
      | p :: ps => (x :: p) :: ps

/-- `c in s` for a one-character string. -/
def hasChar (c : Char) (s : Str) : Bool := s.any (· == c)

/-- `s.startswith(p)` -/
def startsWith (p : Str) (s : Str) : Bool := p.isPrefixOf s

/-- `s.endswith(c)` for a one-character string. -/
def endsWithChar (c : Char) (s : Str) : Bool := s.getLast? == some c

/-- `s.find(sub)`: the first position at which `sub` starts, `none` for Python's `-1`. -/
def find (sub : Str) : Str → Option Nat
  | [] => if sub.isEmpty then some 0 else none
  | x :: xs =>
    if sub.isPrefixOf (x :: xs) then some 0
    else (find sub xs).map (· + 1)

/-- `s.find(c)` for a one-character string. -/
def findChar (c : Char) : Str → Option Nat
  | [] => none
  | x :: xs => if x = c then some 0 else (findChar c xs).map (· + 1)

/-- `s.rfind(c)` for a one-character string. -/
def rfindChar (c : Char) : Str → Option Nat
  | [] => none
  | x :: xs =>
    match rfindChar c xs with
    | some i => some (i + 1)
    | none => if x = c then some 0 else none

/-- `s[i]` with Python's negative indices; out of range raises `IndexError`. -/
def pyIndex (s : Str) (i : Int) : Py Char :=
  let j := if i < 0 then i + s.length else i
  if j < 0 then .error .indexError
  else match s[j.toNat]? with
    | some c => .ok c
    | none => .error .indexError

/-- The decimal digit character of `n < 10`. -/
def digitChar (n : Nat) : Char := Char.ofNat (48 + n)

/-- Decimal digits of `n`, most significant first; `fuel > n` is always enough. -/
def natStrAux : Nat → Nat → Str
  | 0, _ => []
  | fuel + 1, n =>
    if n < 10 then [digitChar n]
    else natStrAux fuel (n / 10) ++ [digitChar (n % 10)]

/-- `'%d' % n` -/
def natStr (n : Nat) : Str := natStrAux (n + 1) n

/-- `c in '0123456789'` -/
def isDigitC (c : Char) : Bool := decide (48 ≤ c.toNat) && decide (c.toNat ≤ 57)

/-- The zeros of the decimal digits of Unicode (general category `Nd`), which come in runs of ten
consecutive code points, `0` to `9`.  The table is that of the Unicode database 14.0.0 of CPython
3.11; it is part of the trusted base. -/
def uniZeros : List Nat :=
  [48, 1632, 1776, 1984, 2406, 2534, 2662, 2790, 2918, 3046, 3174, 3302, 3430, 3558, 3664, 3792,
   3872, 4160, 4240, 6112, 6160, 6470, 6608, 6784, 6800, 6992, 7088, 7232, 7248, 42528, 43216,
   43264, 43472, 43504, 43600, 44016, 65296, 66720, 68912, 69734, 69872, 69942, 70096, 70384,
   70736, 70864, 71248, 71360, 71472, 71904, 72016, 72784, 73040, 73120, 92768, 92864, 93008,
   120782, 120792, 120802, 120812, 120822, 123200, 123632, 125264, 130032]

/-- The characters that `str.isdigit` accepts although they are not decimal digits, such as
superscripts and circled digits, as ranges of code points (same database). -/
def uniDigitRanges : List (Nat × Nat) :=
  [(178, 179), (185, 185), (4969, 4977), (6618, 6618), (8304, 8304), (8308, 8313), (8320, 8329),
   (9312, 9320), (9332, 9340), (9352, 9360), (9450, 9450), (9461, 9469), (9471, 9471),
   (10102, 10110), (10112, 10120), (10122, 10130), (68160, 68163), (69216, 69224),
   (69714, 69722), (127232, 127242)]

/-- The zero of the run of decimal digits that holds the character. -/
def uniZero? (c : Char) : Option Nat :=
  uniZeros.find? (fun z => decide (z ≤ c.toNat) && decide (c.toNat < z + 10))

/-- `c.isdecimal()` -/
def isDecimalC (c : Char) : Bool := (uniZero? c).isSome

/-- The value of a decimal digit. -/
def digitVal (c : Char) : Nat := c.toNat - (uniZero? c).getD 0

/-- `c.isdigit()` of one character. -/
def isUniDigitC (c : Char) : Bool :=
  isDecimalC c || uniDigitRanges.any (fun r => decide (r.1 ≤ c.toNat) && decide (c.toNat ≤ r.2))

/-- `s.isdigit()` -/
def isDigitStr (s : Str) : Bool := !s.isEmpty && s.all isUniDigitC

/-- The value of a string of decimal digits. -/
def strNatAux : Nat → Str → Nat
  | acc, [] => acc
  | acc, c :: cs => strNatAux (acc * 10 + digitVal c) cs

/-- `s.isdecimal()` -/
def isDecimalStr (s : Str) : Bool := !s.isEmpty && s.all isDecimalC

/-- `int(s)`: raises `ValueError` unless `s` is a non-empty string of decimal digits of any script.
Simplifications: signs, underscores and surrounding blanks, which `int` accepts, are errors here,
since every modelled caller tests `isdigit()` first or passes a printed number; the limit of 4300
digits of recent interpreters is left out. -/
def pyInt (s : Str) : Py Nat :=
  if isDecimalStr s then .ok (strNatAux 0 s) else .error .valueError

/-- Code point order on characters. -/
def charLt (a b : Char) : Bool := decide (a.toNat < b.toNat)

/-- Python's `<` on strings: lexicographic by code point. -/
def strLt : Str → Str → Bool
  | [], [] => false
  | [], _ :: _ => true
  | _ :: _, [] => false
  | a :: as, b :: bs =>
    if charLt a b then true
    else if charLt b a then false
    else strLt as bs

/-- Insert into a strictly increasing list of strings, dropping duplicates. -/
def insertStr (x : Str) : List Str → List Str
  | [] => [x]
  | y :: ys =>
    if strLt x y then x :: y :: ys
    else if strLt y x then y :: insertStr x ys
    else y :: ys

/-- `sorted(set(xs))` -/
def sortedSet (xs : List Str) : List Str := xs.foldr insertStr []

/-- `''.join(sorted(set(xs)))` -/
def joinSorted (xs : List Str) : Str := (sortedSet xs).flatten

/-- A Python 3.7+ `dict` as an association list in insertion order. -/
abbrev Dict (κ α : Type) := List (κ × α)

/-- `d.get(k)` -/
def Dict.get? {κ α : Type} [DecidableEq κ] (k : κ) : Dict κ α → Option α
  | [] => none
  | (k', v) :: rest => if k' = k then some v else Dict.get? k rest

/-- Update the value bound to `k`, or append a new binding: `d[k] = f(d.get(k))`. -/
def Dict.upd {κ α : Type} [DecidableEq κ] (k : κ) (f : Option α → α) : Dict κ α → Dict κ α
  | [] => [(k, f none)]
  | (k', v) :: rest => if k' = k then (k', f (some v)) :: rest else (k', v) :: Dict.upd k f rest

/-- Group a sequence by a key, keys and members in order of first appearance.  This is the
`if k not in d: d[k] = Container()` / `d[k].add(x)` idiom used everywhere in /repo. -/
def groupBy {κ α : Type} [DecidableEq κ] (key : α → κ) (xs : List α) : Dict κ (List α) :=
  xs.foldl (fun d x => Dict.upd (key x) (fun o => o.getD [] ++ [x]) d) []

/-- `max(xs)` of a list of counts; `ValueError` on an empty sequence. -/
def pyMax : List Nat → Py Nat
  | [] => .error .valueError
  | x :: xs => .ok (xs.foldl max x)

/-- Insert into a list used as a set. -/
def setAdd {α : Type} [DecidableEq α] (x : α) (xs : List α) : List α :=
  if x ∈ xs then xs else xs ++ [x]

end OsUrl
