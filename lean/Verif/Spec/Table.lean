import Verif.Spec.Command

/-!
# Specification: tables of URLs whose pattern is plain to see

`cells` are the chunks of a column, one for every row.
-/

namespace OsUrl.Spec

/-- All chunks of the column get one text: they are equal; or they have one class, and one length and at least `mcn` values; or at least
`mcn` lengths. -/
inductive PartText (mcn : Int) (cells : List Chunk) : Str → Prop
  | same (g : Chunk) : (∀ c ∈ cells, c = g) → PartText mcn cells (litText g)
  | sized (g : Chunk) : (∀ c ∈ cells, clsText c = clsText g ∧ writtenLength c = writtenLength g) → mcn ≤ (firsts cells).length →
      PartText mcn cells (lenText g)
  | any (g : Chunk) : (∀ c ∈ cells, clsText c = clsText g) → mcn ≤ (firsts (cells.map writtenLength)).length →
      PartText mcn cells (wildText g)

/-- The ways to cut: where they are tried, and whether the last part is always written out. -/
inductive CutAt : Stage → Bool → Cutting → Prop
  | runs : CutAt .runs false byRun
  | mixed : CutAt .mixed false byMixed
  | dot : CutAt .dot true byDot

/-- All pieces of the column (`lp`: the last of the path) get one text: they are equal; or they are all taken as a whole and get one text; or they
are all cut in the same way, and each of their parts gets one text. -/
inductive ColText (mcn : Int) (lp : Bool) (cells : List Chunk) : Str → Prop
  | same (g : Chunk) : (∀ c ∈ cells, c = g) → ColText mcn lp cells (litText g)
  | whole (t : Str) : (∀ c ∈ cells, firstStage mcn lp c = .whole) → PartText mcn cells t → ColText mcn lp cells t
  | parts (st : Stage) (keep : Bool) (V : Cutting) (ts : List Str) : CutAt st keep V → (∀ c ∈ cells, firstStage mcn lp c = st) →
      (∀ c ∈ cells, (V c).length = ts.length) → mcn ≤ (firsts cells).length →
      (∀ i t, ts[i]? = some t → PartText mcn (cells.map (fun c => (V c).getD i [])) t) →
      (keep = true → ∃ g, ∀ c ∈ cells, (V c).getLast? = some g) → ColText mcn lp cells ts.flatten

end OsUrl.Spec
