import Verif.Spec.Tree
import Verif.Spec.Runs

/-! # Specification of the counters -/

namespace OsUrl.Spec

/-- A sequence of events as text: every event once, in order of first appearance, with the number of its
occurrences. -/
def tallyText (evs : List Str) : Str :=
  (List.intercalate [',', ' '] ((firsts evs).map (fun k => k ++ ':' :: decimal (evs.count k))))

/-- What a line of a pattern file is, given whether it looks like a pattern and, if it can be decoded, its text. -/
def patternLine (starts : Bool) (text : Option Str) (isPattern : Str → Bool) : Str :=
  if starts then
    match text with
    | some t => if isPattern t then ['V', 'A', 'L', 'I', 'D'] else ['I', 'N', 'V', 'A', 'L', 'I', 'D']
    | none => ['I', 'N', 'V', 'A', 'L', 'I', 'D']
  else ['U', 'N', 'K', 'N', 'O', 'W']

/-- The events of a sequence of lines: every line counts for `ALL` and for what it is. -/
def patternEvents (kinds : List Str) : List Str := kinds.flatMap (fun k => [['A', 'L', 'L'], k])

/-- What a line of a URL file is: empty, or unreadable, or a URL with a reading in `ρ`. -/
inductive UrlLine (ρ : Type) where
  | empty
  | bad
  | url (r : ρ)

/-- The events of a sequence of lines of a URL file: a URL counts as `UNIQ` when no earlier line has the same
reading. -/
def urlEvents {ρ : Type} [DecidableEq ρ] : List ρ → List (UrlLine ρ) → List Str
  | _, [] => []
  | seen, .empty :: ls => ['A', 'L', 'L'] :: ['E', 'M', 'P', 'T', 'Y'] :: urlEvents seen ls
  | seen, .bad :: ls => ['A', 'L', 'L'] :: ['I', 'N', 'V', 'A', 'L', 'I', 'D'] :: urlEvents seen ls
  | seen, .url r :: ls =>
    (if r ∈ seen then [['A', 'L', 'L'], ['V', 'A', 'L', 'I', 'D']]
     else [['A', 'L', 'L'], ['U', 'N', 'I', 'Q'], ['V', 'A', 'L', 'I', 'D']]) ++ urlEvents (r :: seen) ls

end OsUrl.Spec
