/-! Specification of key trees: what is enumerated and in which order. -/

namespace OsUrl.Spec

/-- The distinct elements in order of first appearance. -/
def firsts {α : Type} [DecidableEq α] : List α → List α
  | [] => []
  | x :: xs => x :: (firsts xs).filter (fun y => decide (y ≠ x))

/-- Rests of the sequences that start with `h`. -/
def below {α : Type} [DecidableEq α] (h : α) : List (List α) → List (List α)
  | [] => []
  | [] :: xs => below h xs
  | (a :: r) :: xs => if a = h then r :: below h xs else below h xs

/-- First elements of the non-empty sequences. -/
def heads {α : Type} (xs : List (List α)) : List α := xs.filterMap List.head?

/-- The distinct sequences of length `n`, grouped by first element in order of first appearance, and
so on recursively inside each group. -/
def grouped {α : Type} [DecidableEq α] : Nat → List (List α) → List (List α)
  | 0, xs => if xs.isEmpty then [] else [[]]
  | n + 1, xs => (firsts (heads xs)).flatMap (fun h => (grouped n (below h xs)).map (h :: ·))

end OsUrl.Spec
