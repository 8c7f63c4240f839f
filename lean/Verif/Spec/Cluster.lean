import Verif.Spec.Runs

/-!
# Specification: the texts a pattern of a piece can have

A string is cut into maximal runs, neighbouring runs are put into groups, and every group is written
out, or as a class with its length, or as a class with `+`.
-/

namespace OsUrl.Spec

/-- `t` is the inside of the class of a group: the spaces of its runs in increasing order, once each. -/
def ClassOf (g : List (Space × Str)) (t : Str) : Prop :=
  ∃ R : List Space, (∀ sp, sp ∈ R ↔ ∃ r ∈ g, r.1 = sp) ∧ R.Pairwise (fun a b => a.text < b.text) ∧
    t = (R.map Space.text).flatten

/-- The length that is written for a group: the number of characters, and one more for every run of
backslashes. -/
def writtenLength (g : List (Space × Str)) : Nat :=
  (g.map (fun r => r.2.length + if r.1 = .sign '\\' then 1 else 0)).sum

/-- The texts of a group. -/
inductive GroupText (g : List (Space × Str)) : Str → Prop where
  | lit : GroupText g (g.map runText).flatten
  | len {k : Str} (hg : g ≠ []) (h : ClassOf g k) :
      GroupText g ('[' :: k ++ ']' :: (if writtenLength g = 1 then [] else '{' :: decimal (writtenLength g) ++ ['}']))
  | wild {k : Str} (hg : g ≠ []) (h : ClassOf g k) : GroupText g ('[' :: k ++ [']', '+'])

/-- Groups of the runs of `s` with their texts. -/
def TextGroups (s : Str) (gts : List (List (Space × Str) × Str)) : Prop :=
  Runs s (gts.map (·.1)).flatten ∧ ∀ gt ∈ gts, GroupText gt.1 gt.2

/-- `t` is a pattern text for `s`. -/
def PieceText (s t : Str) : Prop := ∃ gts, TextGroups s gts ∧ t = (gts.map (·.2)).flatten

/-- Every text with a `/` before it. -/
def slashed (ts : List Str) : Str := (ts.map ('/' :: ·)).flatten

/-- The texts by which patterns of the pieces of a URL are told apart. -/
def RowKey (pieces : List Str) (k : Str) : Prop :=
  ∃ sts : List (Str × Str), sts.map (·.1) = pieces ∧ (∀ st ∈ sts, PieceText st.1 st.2) ∧ k = slashed (sts.map (·.2))

/-- The texts by which patterns of the groups of one piece are told apart. -/
def PartKey (s k : Str) : Prop := ∃ gts, TextGroups s gts ∧ k = slashed (gts.map (·.2))

/-- The texts by which patterns are told apart for rows of pieces in `Row`. -/
def KeyIn (Row : List Str → Prop) (k : Str) : Prop := ∃ r, Row r ∧ (RowKey r k ∨ ∃ s ∈ r, PartKey s k)

/-- The hash `h` tells apart the texts that can occur for these rows of pieces (finitely many for every row). -/
def NoHashClash (h : Str → Nat) (Row : List Str → Prop) : Prop :=
  ∀ k k', KeyIn Row k → KeyIn Row k' → h k = h k' → k = k'

end OsUrl.Spec
