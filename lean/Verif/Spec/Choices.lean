import Verif.Spec.Gen

/-!
# Specification: the patterns of a URL of one character class per piece, by lookup

Every piece has at most three patterns: the piece itself, its class with its length, its class with `+`.
-/

namespace OsUrl.Spec

/-- The patterns of a piece of one class, the most special one first.  A sign repeated is written as a class with a length anyway; the class of the
backslash can not be read back. -/
def pieceTexts (s : Str) : List Str :=
  match s with
  | [] => [[]]
  | c :: _ =>
    match space? c with
    | none => []
    | some sp =>
      if sp = .sign '\\' then []
      else
        let sized := '[' :: sp.text ++ ']' :: (if s.length = 1 then [] else '{' :: decimal s.length ++ ['}'])
        let open_ := '[' :: sp.text ++ [']', '+']
        if sp.isSign then [sized, open_] else [s, sized, open_]

/-- One element of every list, in the order in which the first lists decide first. -/
def firstChoices : List (List Str) → List (List Str)
  | [] => [[]]
  | l :: ls => l.flatMap (fun x => (firstChoices ls).map (fun xs => x :: xs))

/-- One element of every list, in the order in which the last lists decide first. -/
def lastChoices : List (List Str) → List (List Str)
  | [] => [[]]
  | l :: ls => (lastChoices ls).flatMap (fun xs => l.map (fun x => x :: xs))

end OsUrl.Spec
