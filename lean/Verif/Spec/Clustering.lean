import Verif.Spec.Cluster
import Verif.Spec.Tree

/-!
# Specification: which URLs form a cluster, and the pattern of every piece

A closed form of the clustering, on the pieces of the URLs as they are written.  There are no trees,
processors, buckets, bags or hashes here: only counting.  Everything is computable.

* A piece is cut into runs (`cut`); a *chunk* is a list of neighbouring runs.
* A table is a list of rows of chunks, each with a number of URLs.
* A *rule* says which text a chunk gets at a column, from the distinct chunks of the column and their numbers.
* The columns are done from left to right; after each one only the rows with the same text stay together (`texts`).
* Rows with equal texts are taken together again and the whole is repeated, until all rows left have
  equal texts (`family`).
-/

namespace OsUrl.Spec

/-- Neighbouring runs of a piece. -/
abbrev Chunk := List (Space × Str)

/-- A piece cut into maximal runs of one space (unknown characters are left out: such URLs are refused). -/
def cut : Str → Chunk
  | [] => []
  | c :: s =>
    match space? c, cut s with
    | none, g => g
    | some sp, [] => [(sp, [c])]
    | some sp, (sp', w) :: g => if sp = sp' then (sp', c :: w) :: g else (sp, [c]) :: (sp', w) :: g

/-- All spaces in the order in which they are written inside a class. -/
def spaceOrder : List Space :=
  ['#', '%', '&', ',', '/'].map .sign ++ [.digit] ++ [':', ';', '<', '=', '>', '@'].map .sign ++ [.upper] ++
    ['!', '"', '$', '\'', '(', ')', '*', '+', '-', '.', '?', '[', '\\', ']', '^', '{', '|', '}', '_'].map .sign ++
    [.lower] ++ [.sign '~']

/-- The inside of the class of a chunk: its spaces, once each, in that order. -/
def clsText (g : Chunk) : Str := ((spaceOrder.filter (fun sp => decide (sp ∈ g.map (·.1)))).map Space.text).flatten

/-- The chunk written out. -/
def litText (g : Chunk) : Str := (g.map runText).flatten

/-- The class of the chunk with its length. -/
def lenText (g : Chunk) : Str :=
  '[' :: clsText g ++ ']' :: (if writtenLength g = 1 then [] else '{' :: decimal (writtenLength g) ++ ['}'])

/-- The class of the chunk with `+`. -/
def wildText (g : Chunk) : Str := '[' :: clsText g ++ [']', '+']

/-- The largest number. -/
def biggest (ns : List Int) : Int := ns.foldl max 0

/-- Values occurring `ns` many times are *varied*: there are at least `mcn` values, or there are at least `mcn`
occurrences, and the most frequent value and the rest are both at least `mcn` or differ by less than `mcn - 1`. -/
def varied (mcn : Int) (ns : List Int) : Bool :=
  decide (mcn ≤ ns.length ∨
    (mcn ≤ ns.sum ∧ ((mcn ≤ biggest ns ∧ mcn ≤ ns.sum - biggest ns) ∨ (biggest ns - (ns.sum - biggest ns)).natAbs < mcn - 1)))

/-- The distinct chunks of a column with their numbers. -/
abbrev Column := List (Chunk × Int)

/-- The numbers of a column. -/
def numbers (E : Column) : List Int := E.map (·.2)

/-- The chunks of one written length. -/
def ofLength (E : Column) (l : Nat) : Column := E.filter (fun e => decide (writtenLength e.1 = l))

/-- The numbers of the written lengths of a column. -/
def lengthNumbers (E : Column) : List Int :=
  (firsts (E.map (fun e => writtenLength e.1))).map (fun l => (numbers (ofLength E l)).sum)

/-- The text of a whole chunk: `[class]+` when the lengths are varied, otherwise `[class]{n}` when the chunks of
the same length are varied, otherwise written out. -/
def wholeText (mcn : Int) (E : Column) (g : Chunk) : Str :=
  if varied mcn (lengthNumbers E) then wildText g
  else if varied mcn (numbers (ofLength E (writtenLength g))) then lenText g
  else litText g

/-- A rule: the text of a chunk at a column (counted from 0). -/
abbrev Rule := Nat → Column → Chunk → Str

/-- The rule for the parts of one piece: written out unless the column is varied; with `keep` the last of the
`n` parts is always written out. -/
def partRule (mcn : Int) (keep : Bool) (n : Nat) : Rule := fun j E g =>
  if (decide (j + 1 = n) && keep) || !varied mcn (numbers E) then litText g else wholeText mcn E g

/-- A row of a table with its number of URLs. -/
abbrev WRow := List Chunk × Int

/-- The chunk of a row at column `j`. -/
def WRow.at (x : WRow) (j : Nat) : Chunk := x.1.getD j []

/-- The number of URLs of a table. -/
def weight (S : List WRow) : Int := (S.map (·.2)).sum

/-- The column `j` of a table. -/
def column (j : Nat) (S : List WRow) : Column :=
  (firsts (S.map (fun x => x.at j))).map (fun g => (g, weight (S.filter (fun x => decide (x.at j = g)))))

/-- The text of the row at column `j`. -/
def textAt (F : Rule) (j : Nat) (S : List WRow) (x : WRow) : Str := F j (column j S) (x.at j)

/-- The texts of a row at `k` columns from column `j` on: the rows with another text are left behind. -/
def texts (F : Rule) : Nat → Nat → List WRow → WRow → List Str
  | 0, _, _, _ => []
  | k + 1, j, S, x =>
    textAt F j S x :: texts F k (j + 1) (S.filter (fun y => decide (textAt F j S y = textAt F j S x))) x

/-- All rows have the same texts. -/
def alike (F : Rule) (n : Nat) (S : List WRow) : Bool :=
  S.all (fun x => S.all (fun y => decide (texts F n 0 S x = texts F n 0 S y)))

/-- The rows that stay together with `x`: take the rows with the same texts, again and again, until all are alike. -/
def family (F : Rule) (n : Nat) : Nat → List WRow → WRow → List WRow
  | 0, S, _ => S
  | k + 1, S, x =>
    if alike F n S then S
    else family F n k (S.filter (fun y => decide (texts F n 0 S y = texts F n 0 S x))) x

/-- A way to cut a chunk into parts. -/
abbrev Cutting := Chunk → List Chunk

/-- Every run is a part. -/
def byRun : Cutting := fun g => g.map (fun r => [r])

/-- Neighbouring runs of letters, digits and `%` are one part. -/
def byMixed : Cutting
  | [] => []
  | r :: g =>
    match byMixed g with
    | (r' :: p) :: ps => if Mixable r.1.text ∧ Mixable r'.1.text then (r :: r' :: p) :: ps else [r] :: (r' :: p) :: ps
    | ps => [r] :: ps

/-- Letters or digits. -/
def alnum (r : Space × Str) : Bool := !r.1.isSign

/-- The runs after the last run of dots. -/
def afterDot (g : Chunk) : Chunk := (g.reverse.takeWhile (fun r => decide (r.1 ≠ .sign '.'))).reverse

/-- Cut at the last run of dots, when at most two runs follow and these are letters or digits: what comes before,
the dots, what follows (as one part).  Otherwise the whole is one part. -/
def byDot : Cutting := fun g =>
  let t := afterDot g
  if t.length < g.length ∧ t.length ≤ 2 ∧ t.all alnum then
    (g.take (g.length - t.length - 1)) :: (g.drop (g.length - t.length - 1)).take 1 :: byMixed t
  else [g]

/-- The classes of the parts. -/
def classes (V : Cutting) (g : Chunk) : List Str := (V g).map clsText

/-- What becomes of the piece when it is cut by `V`: the pieces of the column whose parts have the same classes
are a table of their own, clustered by the rule for parts; a piece in a family of at least `mcn` URLs is settled,
with the concatenated texts of its parts. -/
def settled (mcn : Int) (keep : Bool) (V : Cutting) (E : Column) (g : Chunk) : Option Str :=
  let R : List WRow := (E.filter (fun e => decide (classes V e.1 = classes V g))).map (fun e => (V e.1, e.2))
  let n := (V g).length
  let F := partRule mcn keep n
  let C := family F n (R.length + 1) R (V g, 0)
  if weight R < mcn ∨ weight C < mcn then none else some (texts F n 0 C (V g, 0)).flatten

/-- The stages a piece goes through. -/
inductive Stage where
  | runs | mixed | dot | whole
  deriving DecidableEq, Repr

/-- The first stage of a piece (`lp`: it is the last piece of the path). -/
def firstStage (mcn : Int) (lp : Bool) (g : Chunk) : Stage :=
  let n := g.length
  let k := (byMixed g).length
  if n = 1 then .whole
  else if n = 3 ∧ lp then (if classes byRun g = classes byDot g then .dot else .runs)
  else if n ≤ 3 then .runs
  else if k = 1 then .whole
  else if (n : Int) - k < mcn then .runs
  else if k = 3 ∧ lp ∧ classes byMixed g = classes byDot g then .dot
  else .mixed

/-- The next stage of a piece that is not settled by its runs. -/
def afterRuns (lp : Bool) (g : Chunk) : Stage :=
  let k := (byMixed g).length
  if classes byRun g = classes byMixed g then (if lp ∧ (byDot g).length ≠ 1 then .dot else .whole)
  else if k = 1 then .whole
  else if k = 3 ∧ lp ∧ classes byMixed g = classes byDot g then .dot
  else .mixed

/-- The next stage of a piece that is not settled by its mixed parts. -/
def afterMixed (lp : Bool) (g : Chunk) : Stage := if lp ∧ (byDot g).length ≠ 1 then .dot else .whole

section stages
variable (mcn : Int) (lp : Bool) (E : Column) (g : Chunk)

/-- The piece is tried by its runs. -/
def atRuns : Bool := decide (firstStage mcn lp g = .runs)
/-- What its runs settle. -/
def setRuns : Option Str := settled mcn false byRun (E.filter (fun e => atRuns mcn lp e.1)) g
/-- The piece leaves the stage of the runs unsettled, towards `t`. -/
def leftRuns (t : Stage) : Bool := atRuns mcn lp g && (setRuns mcn lp E g).isNone && decide (afterRuns lp g = t)
/-- The piece is tried by its mixed parts. -/
def atMixed : Bool := decide (firstStage mcn lp g = .mixed) || leftRuns mcn lp E g .mixed
/-- What its mixed parts settle. -/
def setMixed : Option Str := settled mcn false byMixed (E.filter (fun e => atMixed mcn lp E e.1)) g
/-- The piece leaves the stage of the mixed parts unsettled, towards `t`. -/
def leftMixed (t : Stage) : Bool := atMixed mcn lp E g && (setMixed mcn lp E g).isNone && decide (afterMixed lp g = t)
/-- The piece is tried by its last dot. -/
def atDot : Bool := decide (firstStage mcn lp g = .dot) || leftRuns mcn lp E g .dot || leftMixed mcn lp E g .dot
/-- What its last dot settles: what follows the dot is written out. -/
def setDot : Option Str := settled mcn true byDot (E.filter (fun e => atDot mcn lp E e.1)) g
/-- The piece is taken as a whole. -/
def atWhole : Bool := decide (firstStage mcn lp g = .whole) || leftRuns mcn lp E g .whole || leftMixed mcn lp E g .whole ||
  (atDot mcn lp E g && (setDot mcn lp E g).isNone)

/-- The text of a piece among the pieces of its column. -/
def pieceRuleText : Str :=
  if !varied mcn (numbers E) then litText g
  else if atRuns mcn lp g && (setRuns mcn lp E g).isSome then (setRuns mcn lp E g).getD []
  else if atMixed mcn lp E g && (setMixed mcn lp E g).isSome then (setMixed mcn lp E g).getD []
  else if atDot mcn lp E g && (setDot mcn lp E g).isSome then (setDot mcn lp E g).getD []
  else wholeText mcn (E.filter (fun e => atWhole mcn lp E e.1)) g

end stages

/-- The rule for the pieces of URLs with `d` path pieces. -/
def urlRule (mcn : Int) (d : Nat) : Rule := fun j E g => pieceRuleText mcn (d == j + 1) E g

/-- The row of a URL. -/
def urlRow (row : List Str) : WRow := (row.map cut, 1)

/-- The members of the cluster of the URL with pieces `row` among the URLs `R` of the same structure, each
written out with its texts. -/
def clusterOf (mcn : Int) (d : Nat) (R : List (List Str)) (row : List Str) : List (List (Str × Str)) :=
  let F := urlRule mcn d
  let n := row.length
  let C := family F n (R.length + 1) (R.map urlRow) (urlRow row)
  C.map (fun x => (x.1.map litText).zip (texts F n 0 C x))

end OsUrl.Spec
