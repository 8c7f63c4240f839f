import Verif.Model.Py

/-!
# Specification: reading JSON records

A decoder for JSON objects whose members are strings and integers, after RFC 8259.  Strings are read
as sequences of UTF-16 code units, as `\u` escapes denote them.
-/

namespace OsUrl.Spec

/-- The UTF-16 code units of a character. -/
def utf16 (c : Char) : List Nat :=
  if c.toNat < 0x10000 then [c.toNat]
  else [0xD800 + (c.toNat - 0x10000) / 0x400, 0xDC00 + (c.toNat - 0x10000) % 0x400]

/-- Value of a hexadecimal digit, upper or lower case. -/
def hexVal (c : Char) : Option Nat :=
  if '0'.toNat ≤ c.toNat ∧ c.toNat ≤ '9'.toNat then some (c.toNat - '0'.toNat)
  else if 'a'.toNat ≤ c.toNat ∧ c.toNat ≤ 'f'.toNat then some (c.toNat - 'a'.toNat + 10)
  else if 'A'.toNat ≤ c.toNat ∧ c.toNat ≤ 'F'.toNat then some (c.toNat - 'A'.toNat + 10)
  else none

/-- The two-character escapes. -/
def shortEscape (c : Char) : Option Nat :=
  match c with
  | '"' => some 34
  | '\\' => some 92
  | '/' => some 47
  | 'b' => some 8
  | 'f' => some 12
  | 'n' => some 10
  | 'r' => some 13
  | 't' => some 9
  | _ => none

/-- The rest of a string after its opening quote: the code units up to the closing quote and what
follows it. -/
def readString : Str → Option (List Nat × Str)
  | '"' :: rest => some ([], rest)
  | '\\' :: 'u' :: a :: b :: c :: d :: rest =>
    match hexVal a, hexVal b, hexVal c, hexVal d, readString rest with
    | some a, some b, some c, some d, some (us, rest') => some ((a * 4096 + b * 256 + c * 16 + d) :: us, rest')
    | _, _, _, _, _ => none
  | '\\' :: c :: rest =>
    match shortEscape c, readString rest with
    | some u, some (us, rest') => some (u :: us, rest')
    | _, _ => none
  | c :: rest =>
    if c.toNat < 32 ∨ c = '\\' then none
    else match readString rest with
      | some (us, rest') => some (utf16 c ++ us, rest')
      | none => none
  | [] => none

/-- Whether the character is a decimal digit. -/
def isDec (c : Char) : Bool := decide ('0'.toNat ≤ c.toNat ∧ c.toNat ≤ '9'.toNat)

/-- An unsigned integer: digits without a superfluous leading zero. -/
def readNat (t : Str) : Option (Nat × Str) :=
  match t.takeWhile isDec with
  | [] => none
  | ['0'] => some (0, t.dropWhile isDec)
  | '0' :: _ => none
  | ds => some (ds.foldl (fun n c => n * 10 + (c.toNat - '0'.toNat)) 0, t.dropWhile isDec)

/-- The values that occur. -/
inductive JVal where
  | str (units : List Nat)
  | int (n : Int)
  deriving DecidableEq, Repr

/-- A value and what follows it. -/
def readValue (t : Str) : Option (JVal × Str) :=
  match t with
  | '"' :: rest => (readString rest).map (fun r => (.str r.1, r.2))
  | '-' :: rest => (readNat rest).map (fun r => (.int (-(r.1 : Int)), r.2))
  | _ => (readNat t).map (fun r => (.int r.1, r.2))

/-- Skip blanks. -/
def blanks (t : Str) : Str := t.dropWhile (fun c => decide (c ∈ [' ', '\t', '\n', '\r']))

/-- The members of an object up to and including the closing brace; `fuel` bounds their number. -/
def readMembers : Nat → Str → Option (List (List Nat × JVal) × Str)
  | 0, _ => none
  | fuel + 1, t =>
    match blanks t with
    | '"' :: t1 =>
      match readString t1 with
      | some (key, t2) =>
        match blanks t2 with
        | ':' :: t3 =>
          match readValue (blanks t3) with
          | some (v, t4) =>
            match blanks t4 with
            | '}' :: t5 => some ([(key, v)], t5)
            | ',' :: t5 =>
              match readMembers fuel t5 with
              | some (ms, t6) => some ((key, v) :: ms, t6)
              | none => none
            | _ => none
          | none => none
        | _ => none
      | none => none
    | _ => none

/-- The members of a text that consists of exactly one JSON object (with at least one member). -/
def readObject (t : Str) : Option (List (List Nat × JVal)) :=
  match blanks t with
  | '{' :: t1 =>
    match readMembers t.length t1 with
    | some (ms, rest) => if blanks rest = [] then some ms else none
    | none => none
  | _ => none

end OsUrl.Spec
