import Verif.Model.Py

/-!
# Specification: grouping of sub-pieces

A grouping of (sub-piece, rule) pairs: every group is one unmixable pair or a maximal run of
mixable pairs.
-/

namespace OsUrl.Spec

/-- The rules that may be mixed. -/
def Mixable (r : Str) : Prop := r ∈ [c!"0-9", c!"a-z", c!"A-Z", c!"A-Za-z", c!"%"]

instance (r : Str) : Decidable (Mixable r) := inferInstanceAs (Decidable (_ ∈ _))

/-- All members of the group are mixable. -/
def MixGroup (g : List (Str × Str)) : Prop := ∀ pr ∈ g, Mixable pr.2

/-- A group of the result. -/
def GoodGroup (g : List (Str × Str)) : Prop :=
  g ≠ [] ∧ (MixGroup g ∨ ∃ pr, g = [pr] ∧ ¬ Mixable pr.2)

/-- Any two neighbours of the list are related. -/
def Neighbours {α : Type} (R : α → α → Prop) (l : List α) : Prop :=
  ∀ a x y b, l = a ++ x :: y :: b → R x y

/-- The grouping of the sequence `prs`: nothing lost or reordered, only good groups, no two
neighbouring mixable groups (so mixable runs are maximal). -/
structure Grouping (prs : List (Str × Str)) (gs : List (List (Str × Str))) : Prop where
  concat : gs.flatten = prs
  good : ∀ g ∈ gs, GoodGroup g
  maximal : Neighbours (fun g g' => ¬ (MixGroup g ∧ MixGroup g')) gs

end OsUrl.Spec
