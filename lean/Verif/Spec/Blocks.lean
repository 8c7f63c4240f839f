import Verif.Spec.Sel
import Verif.Spec.Self

/-!
# Specification: neighbouring literal runs taken together
-/

namespace OsUrl.Spec

/-- A literal run that may be mixed with its neighbours. -/
def GUnit.Joined (u : GUnit) : Prop := u.rank = 0 ∧ u.Mix

/-- The units cut into blocks: as many neighbouring literal mixable runs as there are, or one other unit. -/
structure Blocks (us : List GUnit) (bs : List (List GUnit)) : Prop where
  flat : bs.flatten = us
  good : ∀ b ∈ bs, b ≠ [] ∧ ((∀ u ∈ b, u.Joined) ∨ ∃ u, b = [u] ∧ ¬ u.Joined)
  maximal : Neighbours (fun b b' => ¬ ((∀ u ∈ b, u.Joined) ∧ ∀ u ∈ b', u.Joined)) bs

/-- A block stands for the string: a single unit as always; several units when they stand for the runs of
the string, one by one. -/
def BlockFits : List GUnit → Str → Prop
  | [u], x => u.Fits x
  | b, x => ∃ rs, Runs x rs ∧ FitsAll b (rs.map (·.2))

/-- As many blocks as parts, each block standing for its part. -/
def BlocksFit : List (List GUnit) → List Str → Prop
  | [], [] => True
  | b :: bs, x :: xs => BlockFits b x ∧ BlocksFit bs xs
  | _, _ => False

/-- The piece, cut into its mixable parts and other signs, fits the blocks of the pattern. -/
def MatchesJoined (us : List GUnit) (s : Str) : Prop :=
  ∃ bs parts, Blocks us bs ∧ Parts .mixed s parts ∧ BlocksFit bs parts

end OsUrl.Spec
