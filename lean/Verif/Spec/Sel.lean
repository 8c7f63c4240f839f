import Verif.Spec.Order

/-!
# Specification: which pieces a generated pattern is found for

A piece is cut into parts, depending on the kind of the pattern, and every part must be one the unit
at its place stands for.
-/

namespace OsUrl.Spec

/-- The unit stands for the string. -/
def GUnit.Fits : GUnit → Str → Prop
  | .run _ w, s => s = w
  | .cls R n, s => SpacesOf s R ∧ measured s = n
  | .wild R, s => SpacesOf s R

/-- As many units as parts, each unit standing for its part. -/
def FitsAll : List GUnit → List Str → Prop
  | [], [] => True
  | u :: us, x :: xs => u.Fits x ∧ FitsAll us xs
  | _, _ => False

/-- The text of some runs. -/
def rawText (g : List (Space × Str)) : Str := (g.map (·.2)).flatten

/-- All runs may be mixed. -/
def MixRuns (g : List (Space × Str)) : Prop := ∀ r ∈ g, Mixable r.1.text

/-- The parts a piece is cut into, for each kind of pattern: maximal runs of one space; maximal mixable
parts and single runs of other signs; what stands before the last dots, the dots and at most two runs
of letters or digits; the whole piece. -/
def Parts (k : Kind) (s : Str) (parts : List Str) : Prop :=
  match k with
  | .literal | .runs => ∃ rs, Runs s rs ∧ parts = rs.map (·.2)
  | .mixed => ∃ gs : List (List (Space × Str)), Runs s gs.flatten ∧
      (∀ g ∈ gs, g ≠ [] ∧ (MixRuns g ∨ ∃ r, g = [r] ∧ ¬ Mixable r.1.text)) ∧
      Neighbours (fun g g' => ¬ (MixRuns g ∧ MixRuns g')) gs ∧ parts = gs.map rawText
  | .dotted => ∃ ga x gb, Runs s (ga ++ x :: gb) ∧ x.1 = .sign '.' ∧ (∀ r ∈ gb, r.1.isSign = false) ∧
      gb.length ≤ 2 ∧ parts = [rawText ga, x.2, rawText gb]
  | .length | .wild => parts = [s]

/-- The pattern is found for the piece; `lp` tells whether it is the last piece of the path. -/
def Matches (lp : Bool) (us : List GUnit) (s : Str) : Prop :=
  ∃ parts, Parts (kind lp us) s parts ∧ FitsAll us parts

end OsUrl.Spec
