import Verif.Model.Matcher

/-!
# The comparison operators of match results and of match patterns

`functools.total_ordering` (functools.py:89-108) adds `>`, `<=` and `>=` to `PatternMatchNode` and `MatchPattern`, pattern_matcher.py:17 and :181,
each from `<` and `==` of the same two operands.
-/

namespace OsUrl

/-- `==` on nodes is identity: `PatternMatchNode` has no `__eq__`.  Two nodes of one tree are the same object iff their paths are equal. -/
def Matched.same {σ μ : Type} (a b : Matched σ μ) : Bool := decide (a.path.map (·.str) = b.path.map (·.str))

/-- `a > b`: not `a < b` and `a != b` -/
def Matched.gt {σ μ : Type} (a b : Matched σ μ) : Py Bool := do
  let l ← a.lt b
  return !l && !a.same b

/-- `a <= b`: `a < b` or `a == b` -/
def Matched.le {σ μ : Type} (a b : Matched σ μ) : Py Bool := do
  let l ← a.lt b
  return l || a.same b

/-- `a >= b`: not `a < b` -/
def Matched.ge {σ μ : Type} (a b : Matched σ μ) : Py Bool := do
  let l ← a.lt b
  return !l

/-- `MatchPattern` inherits `__eq__`, pattern.py:85-86, and has its own `__ne__`, pattern_matcher.py:41-42: the texts are compared. -/
def MatchPattern.gt (p q : MatchPattern) : Py Bool := do
  let l ← p.lt q
  return !l && p.str != q.str

/-- `p <= q` -/
def MatchPattern.le (p q : MatchPattern) : Py Bool := do
  let l ← p.lt q
  return l || p.str == q.str

/-- `p >= q` -/
def MatchPattern.ge (p q : MatchPattern) : Py Bool := do
  let l ← p.lt q
  return !l

/-- Python's `max(xs)` with `>` for `better` (pattern_matcher.py:181): the current best is replaced when the next element is better; `ValueError` for nothing. -/
def pyBest {α : Type} (better : α → α → Py Bool) : List α → Py α
  | [] => .error .valueError
  | x :: xs => xs.foldlM (fun best y => do
      let b ← better y best
      return if b then y else best) x

end OsUrl
