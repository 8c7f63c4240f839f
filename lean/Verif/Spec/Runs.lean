import Verif.Spec.Chars
import Verif.Spec.Mix

/-!
# Specification: maximal runs of one character space
-/

namespace OsUrl.Spec

/-- The decomposition of a string into maximal runs of characters of one space. -/
structure Runs (s : Str) (rs : List (Space × Str)) : Prop where
  concat : (rs.map (·.2)).flatten = s
  nonempty : ∀ r ∈ rs, r.2 ≠ []
  space : ∀ r ∈ rs, ∀ c ∈ r.2, space? c = some r.1
  maximal : Neighbours (fun a b => a.1 ≠ b.1) rs

/-- Decimal digits of a number (independent of the model's own printing). -/
def decimal (n : Nat) : Str := (Nat.toDigits 10 n)

/-- How a run is written in a pattern: letters and digits verbatim, signs as a class with the length
of the run. -/
def runText (r : Space × Str) : Str :=
  if r.1.isSign then
    '[' :: r.1.text ++ ']' ::
      (if r.2.length = 1 then [] else '{' :: decimal r.2.length ++ ['}'])
  else r.2

end OsUrl.Spec
