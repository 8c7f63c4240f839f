import Verif.Model.Lazy
import Verif.Proofs.Load
import Verif.Spec.Tree

/-! # A generator and its caller, told without sub-makers: only the loads count -/

namespace OsUrl.Spec

/-- The digest of an accepted URL. -/
def structOf (md5 : Str → Str) (u : Str) : Option Str :=
  match parse u with
  | .ok (m, .pieces pps) => some (fuzzyDigest md5 m (.pieces pps))
  | _ => none

/-- The digests of the loads, in order of their first appearance. -/
def structs (md5 : Str → Str) (H : List (Str × Option Str)) : List Str := firsts (H.filterMap (fun um => structOf md5 um.1))

/-- The loads with one digest. -/
def ofStruct (md5 : Str → Str) (s : Str) (H : List (Str × Option Str)) : List (Str × Option Str) :=
  H.filter (fun um => decide (structOf md5 um.1 = some s))

/-- `ys` are the clusters of a maker of which only the loads with digest `s` are known.  Only a cluster that is alone may be the tree
of the sub-maker. -/
structure Turn (md5 : Str → Str) (h : Runtime) (mcn : Int) (s : Str) (H : List (Str × Option Str)) (ys : List Yielded) : Prop where
  make : PatternMakerSt.make h mcn (loadAll md5 (ofStruct md5 s H)) = .ok (ys.map (fun y => (y.urlMeta, y.tree)))
  ne : ys ≠ []
  own : ∀ y ∈ ys, y.own ≠ none → y.own = some s ∧ ys = [y]

/-- The loads of some calls. -/
def loads : List Op → List (Str × Option Str)
  | [] => []
  | .load u md :: ops => (u, md) :: loads ops
  | _ :: ops => loads ops

/-- An answer of generator `i`, with the loads so far. -/
def answerOf (i : Nat) (H : List (Str × Option Str)) : Option (Nat × Next) → List (List (Str × Option Str) × Next)
  | some (j, n) => if j = i then [(H, n)] else []
  | none => []

/-- The answers of generator `i` to its `next` calls, each with the loads that came before; `H` are the loads so far. -/
def answers (md5 : Str → Str) (h : Runtime) (mcn : Int) (i : Nat) : List Op → MakerWorld → List (Str × Option Str) → List (List (Str × Option Str) × Next)
  | [], _, _ => []
  | op :: ops, w, H =>
    answerOf i H (w.step md5 h mcn op).2 ++ answers md5 h mcn i ops (w.step md5 h mcn op).1 (H ++ loads [op])

/-- A yielded cluster as an answer. -/
def yieldedAt (x : List (Str × Option Str) × Yielded) : List (Str × Option Str) × Next := (x.1, .yielded x.2)

/-- The `k`-th turn in the answers: the clusters are those of the loads before the first of them, and there were no other digests than `ss`. -/
def TurnAt (md5 : Str → Str) (h : Runtime) (mcn : Int) (ss : List Str) (k : Nat) (t : List (List (Str × Option Str) × Yielded)) (rest : List Yielded) : Prop :=
  ∃ H y t' s, t = (H, y) :: t' ∧ structs md5 H = ss ∧ ss[k]? = some s ∧ Turn md5 h mcn s H (t.map (·.2) ++ rest)

/-- The first complete turns. -/
def Turns (md5 : Str → Str) (h : Runtime) (mcn : Int) (ss : List Str) (T : List (List (List (Str × Option Str) × Yielded))) : Prop :=
  ∀ (k : Nat) t, T[k]? = some t → TurnAt md5 h mcn ss k t []

end OsUrl.Spec
