import Verif.Spec.Gen

/-!
# Specification: which of two patterns is the more special one
-/

namespace OsUrl.Spec

/-- The kinds of patterns of one piece. -/
inductive Kind where
  | literal | runs | mixed | dotted | length | wild
  deriving DecidableEq, Repr

/-- The most special kind first. -/
def Kind.rank : Kind → Nat
  | .literal => 0
  | .runs => 1
  | .mixed => 2
  | .dotted => 3
  | .length => 4
  | .wild => 5

/-- How special a unit is: one string only, the strings of one length, any length. -/
def GUnit.rank : GUnit → Nat
  | .run _ _ => 0
  | .cls [.sign _] _ => 0
  | .cls _ _ => 1
  | .wild _ => 2

/-- Something, a dot, letters and digits. -/
def isDotted : List GUnit → Bool
  | [_, d, b] => decide (d.spaces = [.sign '.']) && b.spaces.all (fun sp => !sp.isSign)
  | _ => false

/-- The kind of a pattern; `lp` tells whether it stands at the end of the path. -/
def kind (lp : Bool) (us : List GUnit) : Kind :=
  if us.all (fun u => u.rank == 0) then .literal
  else match us with
    | [u] => if u.rank = 2 then .wild else .length
    | _ =>
      if lp && isDotted us then .dotted
      else if us.any (fun u => u.rank != 0 && decide (2 ≤ u.spaces.length)) then .mixed
      else .runs

/-- `us` is more general than `vs`: its kind is, or the kinds agree and the last units that differ in
rank decide. -/
def MoreGeneral (lp : Bool) (us vs : List GUnit) : Prop :=
  (kind lp vs).rank < (kind lp us).rank ∨
  (kind lp us = kind lp vs ∧
    ∃ a u as b v bs, us = a ++ u :: as ∧ vs = b ++ v :: bs ∧ as.map GUnit.rank = bs.map GUnit.rank ∧ v.rank < u.rank)

end OsUrl.Spec
