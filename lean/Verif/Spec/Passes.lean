import Verif.Spec.Lazy
import Verif.Model.Passes

/-! # How many different URLs there are, and a complete list of calls -/

namespace OsUrl.Spec

/-- Structure and pieces of an accepted URL. -/
def readAs (u : Str) : Option (URLMeta × List Str) :=
  match parse u with
  | .ok (m, .pieces pps) => some (m, pps.map (·.piece))
  | _ => none

/-- The different URLs among the loads. -/
def different (H : List (Str × Option Str)) : List (URLMeta × List Str) := firsts (H.filterMap (fun um => readAs um.1))

/-- The list of calls that starts with the call on `t`: every entry is a call of `process`, the parts of every tree that is split
follow one level deeper, and nothing else is in the list. -/
structure Listed (h : Runtime) (nested : NestedCluster) (mcn : Int) (m : URLMeta) (kw : Bool) (d : Nat) (t : Tree NodeData) (ps : List Pass) : Prop where
  first : ∃ p, ps.head? = some p ∧ p.depth = d ∧ p.before = t
  call : ∀ p ∈ ps, process h nested mcn m kw p.before = .ok (p.after, p.split)
  down : ∀ p ∈ ps, p.split = true → ∃ subs, splitByPattern h p.after = .ok subs ∧
    ∀ s ∈ subs, 0 < s.root.count → ∃ q ∈ ps, q.before = s ∧ q.depth = p.depth + 1
  up : ∀ q ∈ ps, (q.depth = d ∧ q.before = t) ∨ ∃ p ∈ ps, p.split = true ∧ q.depth = p.depth + 1 ∧
    ∃ subs, splitByPattern h p.after = .ok subs ∧ q.before ∈ subs

end OsUrl.Spec
