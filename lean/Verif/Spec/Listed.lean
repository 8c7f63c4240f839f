import Verif.Spec.Order

/-!
# Specification: the order in which results are listed
-/

namespace OsUrl.Spec

/-- `us` is listed before `vs`: its kind is more special, or the kinds agree and, at the first units that
are written differently, its unit is more special. -/
def ListedBefore (lp : Bool) (us vs : List GUnit) : Prop :=
  (kind lp us).rank < (kind lp vs).rank ∨
  (kind lp us = kind lp vs ∧
    ∃ a u as b v bs, us = a ++ u :: as ∧ vs = b ++ v :: bs ∧ a.map GUnit.text = b.map GUnit.text ∧ u.rank < v.rank)

end OsUrl.Spec
