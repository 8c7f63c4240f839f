import Verif.Spec.Cluster

/-!
# Specification: patterns that are no wider than the pieces require

The strings of a cluster at one level are cut into the same number of groups of neighbouring runs.
The groups at one place form a column.  A column is written out only if all its groups are the same,
as a class with a length only if its groups differ but are equally long, and as a class with `+` only if
two of its groups have different lengths.
-/

namespace OsUrl.Spec

/-- The text of a column with the groups `G`. -/
inductive TightColumn (G : List (Space × Str) → Prop) : Str → Prop where
  | lit {g : List (Space × Str)} (h : ∀ g', G g' → g' = g) : TightColumn G (g.map runText).flatten
  | len {k : Str} {n : Nat} (h : ∀ g, G g → g ≠ [] ∧ ClassOf g k ∧ writtenLength g = n) (two : ∃ g g', G g ∧ G g' ∧ g ≠ g') :
      TightColumn G ('[' :: k ++ ']' :: (if n = 1 then [] else '{' :: decimal n ++ ['}']))
  | wild {k : Str} (h : ∀ g, G g → g ≠ [] ∧ ClassOf g k) (two : ∃ g g', G g ∧ G g' ∧ writtenLength g ≠ writtenLength g') :
      TightColumn G ('[' :: k ++ [']', '+'])

/-- `t` is the text of columns of the strings in `P`. -/
def TightText (P : Str → Prop) (t : Str) : Prop :=
  ∃ (as : List Str) (cut : Str → List (List (Space × Str))), as.flatten = t ∧
    (∀ s, P s → (cut s).length = as.length ∧ Runs s (cut s).flatten) ∧
    ∀ (i : Nat) (a : Str), as[i]? = some a → TightColumn (fun g => ∃ s, P s ∧ (cut s)[i]? = some g) a

end OsUrl.Spec
