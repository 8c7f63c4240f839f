import Verif.Model.Matcher

/-! When a loaded pattern is hidden by one loaded later. -/

namespace OsUrl.Spec

/-- `P` happens in the list before `Q` happens for the first time, and `Q` does happen. -/
def Overtaken {α : Type} (P Q : α → Prop) (l : List α) : Prop :=
  ∃ a b, l = a ++ b ∧ (∃ x ∈ a, P x) ∧ (∀ x ∈ a, ¬ Q x) ∧ ∃ x ∈ b, Q x

/-- A class with a fixed number of repetitions, `[…]` or `[…]{n}`: not a literal and not `[…]+`. -/
def FixedClass (u : PatternUnit) : Prop := u.isLiteral = false ∧ 0 ≤ u.num

/-- The piece patterns `x` go the way of `ps` up to piece `i`; there the pattern has the same view class as `p`, the
same classes of characters unit for unit, the same first `j` units, and then the unit `w`. -/
def GoesThrough (ps : List MatchPattern) (i : Nat) (p : MatchPattern) (j : Nat) (w : PatternUnit)
    (x : List MatchPattern) : Prop :=
  x.take i = ps.take i ∧ ∃ q, x[i]? = some q ∧ q.cls = p.cls ∧
    q.units.map (·.fuzzyRule) = p.units.map (·.fuzzyRule) ∧ q.units.take (j + 1) = p.units.take j ++ [w]

/-- Some unit with a fixed number of characters of some piece of `ps` was overtaken: another spelling of the unit with
the same number came to the same place later.  (`loads` are the piece patterns of the loads, in order.) -/
def Hidden (loads : List (List MatchPattern)) (ps : List MatchPattern) : Prop :=
  ∃ i p j u v, ps[i]? = some p ∧ p.units[j]? = some u ∧ FixedClass u ∧ FixedClass v ∧ v.num = u.num ∧ v ≠ u ∧
    Overtaken (GoesThrough ps i p j u) (GoesThrough ps i p j v) loads

/-- The loads with the structure `m` and the fuzzy rules `fs`, in order, by their piece patterns. -/
def loadsLike (hist : List (Str × Option Str)) (m : URLMeta) (fs : List Str) : List (List MatchPattern) :=
  hist.filterMap (fun t => match parse t.1 with
    | .ok (m', .patterns x) => if m' = m ∧ (Parsed.patterns x).fuzzyRules = fs then some x else none
    | _ => none)

end OsUrl.Spec
