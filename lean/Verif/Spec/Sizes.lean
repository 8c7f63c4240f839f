import Verif.Model.Cmdline

/-! How large the URLs of an input are. -/

namespace OsUrl.Spec

/-- The URLs with one meta and the same rules have at most `N` different lists of pieces; a URL has at most `D` pieces, and a piece at most `K` runs
of characters of one rule. -/
structure Sizes (hist : List (Str × Option Str)) (N D K : Nat) : Prop where
  rows : ∀ (m : URLMeta) (rules : List Str) (rows : List (List ParsedPiece)), rows.Nodup →
    (∀ row ∈ rows, row.map (·.fuzzyRule) = rules ∧ ∃ u md, (u, md) ∈ hist ∧ parse u = .ok (m, .pieces row)) → rows.length ≤ N
  pieces : ∀ u md m pps, (u, md) ∈ hist → parse u = .ok (m, .pieces pps) → pps.length ≤ D ∧ ∀ p ∈ pps, p.pieces.length ≤ K

/-- Every URL has at most `D` pieces, every piece at most `K` runs. -/
def ShortURLs (hist : List (Str × Option Str)) (D K : Nat) : Prop :=
  ∀ u md m pps, (u, md) ∈ hist → parse u = .ok (m, .pieces pps) → pps.length ≤ D ∧ ∀ p ∈ pps, p.pieces.length ≤ K

end OsUrl.Spec
