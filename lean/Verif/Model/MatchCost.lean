import Verif.Model.Matcher

/-!
# The number of calls that matching takes

As `Verif.Model.Matcher`, with the number of calls of methods named `match`: `PatternMatchNode.match` (pattern_matcher.py:195-219) and the `match`
methods of the view matchers (pattern_matcher.py:69-77, :86-88, :97-99, :152-153), those of the trees inside a `MultiPatternViewMatcher` included.
All other work of `PatternMatcher.match` (pattern_matcher.py:297-311) is done a bounded number of times for each of these calls, or once.  A call
that raises an exception returns no number.
-/

namespace OsUrl

/-- `PatternMatchNode.match` and `_deep_match`, pattern_matcher.py:195-223, as `mmatch`; `mt` is the `match` method of the view matchers with its
number of calls, itself not included. -/
def mmatchC {σ μ : Type} (mt : ViewCls → Option ParsedPiece → σ → Py (List Str × Nat)) :
    List (Option ParsedPiece) → List MatchPattern → MData σ μ → Forest (MData σ μ) → Py (List (Matched σ μ) × Nat)
  | [], _, _, _ => .error .indexError
  | pp :: rest, pre, d, kids => do
    let rs ← d.vms.mapM (fun vm => do
      let r ← mt vm.1 pp vm.2
      match derefs kids r.1 with
      | [] => return ([], r.2 + 1)
      | (d0, k0) :: ns =>
        if k0.isNil then
          return (((d0, k0) :: ns).map (fun n => (⟨pre ++ [n.1.pat], n.1⟩ : Matched σ μ)), r.2 + 1)
        else do
          let ms ← ((d0, k0) :: ns).mapM (fun n => mmatchC mt rest (pre ++ [n.1.pat]) n.1 n.2)
          return ((ms.map (·.1)).flatten, r.2 + 1 + (ms.map (·.2)).sum))
    return ((rs.map (·.1)).flatten, 1 + (rs.map (·.2)).sum)

/-- The `match` methods at unit level, pattern_matcher.py:86-88, :97-99, :152-153: no further call. -/
def unitMatchC (_ : ViewCls) (pp : Option ParsedPiece) (s : Store) : Py (List Str × Nat) := do
  let keys ← s.matches_ pp
  return (keys, 0)

/-- `ViewMatcher.match`, pattern_matcher.py:69-77, as `multiMatch`. -/
def multiMatchC (cls : ViewCls) (pp : Option ParsedPiece) (d : Dict Str UnitTree) : Py (List Str × Nat) :=
  match pp with
  | none => .error .attributeError
  | some pp =>
    let pps := viewPieces cls pp
    match Dict.get? (viewStr pps) d with
    | none => .ok ([], 0)
    | some (dt, kids) => do
      let r ← mmatchC unitMatchC (pps.map some) [] dt kids
      return (r.1.filterMap (fun m => m.data.md), r.2)

/-- The `match` methods at URL level, pattern_matcher.py:53-163. -/
def urlMatchC (cls : ViewCls) (pp : Option ParsedPiece) : FullStore → Py (List Str × Nat)
  | .simple s => unitMatchC cls pp s
  | .multi d => multiMatchC cls pp d

/-- `PatternMatcher.match`, pattern_matcher.py:297-311, with the number of calls. -/
def PatternMatcherSt.matchC (md5 : Str → Str) (st : PatternMatcherSt) (url : Str) : Py (List (Matched FullStore Str) × Nat) := do
  let (m, parsed) ← parse url
  let sid := fuzzyDigest md5 m parsed
  match Dict.get? sid st with
  | none => return ([], 0)
  | some ms =>
    mmatchC urlMatchC (match parsed with
      | .pieces pps => pps.map some
      | .patterns ps => ps.map (fun _ => none)) [] ms.root ms.kids

end OsUrl
