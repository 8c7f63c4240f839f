import Verif.Model.Cmdline

/-!
# Matching with a limited call stack

As `Model/Limit`: `lim` is the number of frames that are left.  Counted are the calls of `PatternMatchNode.match`, `PatternMatchNode._deep_match`, the
`match` methods of the view matchers, `PatternMatchNode.__lt__` and the comparisons of patterns in it.  Simplification: other calls (constructors of
views, `leaf`, dict look-ups) are not counted, so Python gives up a little earlier.
-/

namespace OsUrl

/-- `PatternMatchNode.match`, pattern_matcher.py:195-223, as `mmatch`.  It takes one frame, `_deep_match` another one before the next node's `match`.
`mt` is the `match` method of the view matchers, given the frames that are left after it was called. -/
def mmatchL {σ μ : Type} (mt : Nat → ViewCls → Option ParsedPiece → σ → Py (List Str)) :
    List (Option ParsedPiece) → Nat → List MatchPattern → MData σ μ → Forest (MData σ μ) → Py (List (Matched σ μ))
  | _, 0, _, _, _ => .error .recursionError
  | [], _ + 1, _, _, _ => .error .indexError
  | pp :: rest, lim + 1, pre, d, kids => do
    let rs ← d.vms.mapM (fun vm =>
      match lim with
      | 0 => .error .recursionError
      | l + 1 => do
        let keys ← mt l vm.1 pp vm.2
        match derefs kids keys with
        | [] => return []
        | (d0, k0) :: ns =>
          if k0.isNil then
            return ((d0, k0) :: ns).map (fun n => (⟨pre ++ [n.1.pat], n.1⟩ : Matched σ μ))
          else do
            let ms ← ((d0, k0) :: ns).mapM (fun n => mmatchL mt rest l (pre ++ [n.1.pat]) n.1 n.2)
            return ms.flatten)
    return rs.flatten

/-- `match` of the view matchers at unit level; they call nothing that is counted. -/
def unitMatchL (_ : Nat) (_ : ViewCls) (pp : Option ParsedPiece) (s : Store) : Py (List Str) := s.matches_ pp

/-- `ViewMatcher.match`, pattern_matcher.py:69-77, as `multiMatch`. -/
def multiMatchL (lim : Nat) (cls : ViewCls) (pp : Option ParsedPiece) (d : Dict Str UnitTree) : Py (List Str) :=
  match pp with
  | none => .error .attributeError
  | some pp =>
    let pps := viewPieces cls pp
    match Dict.get? (viewStr pps) d with
    | none => .ok []
    | some (dt, kids) => do
      let ms ← mmatchL unitMatchL (pps.map some) lim [] dt kids
      return ms.filterMap (fun m => m.data.md)

/-- `match` of the view matchers at URL level. -/
def urlMatchL (lim : Nat) (cls : ViewCls) (pp : Option ParsedPiece) : FullStore → Py (List Str)
  | .simple s => s.matches_ pp
  | .multi d => multiMatchL lim cls pp d

/-- `PatternMatcher.match`, pattern_matcher.py:297-311, with `lim` frames for `PatternMatchNode.match` and what it calls. -/
def PatternMatcherSt.matchL (md5 : Str → Str) (lim : Nat) (st : PatternMatcherSt) (url : Str) : Py (List (Matched FullStore Str)) := do
  let (m, parsed) ← parse url
  let sid := fuzzyDigest md5 m parsed
  match Dict.get? sid st with
  | none => return []
  | some ms =>
    mmatchL urlMatchL (match parsed with
      | .pieces pps => pps.map some
      | .patterns ps => ps.map (fun _ => none)) lim [] ms.root ms.kids

/-- `PatternMatchNode.__lt__`, pattern_matcher.py:256-261, on paths from the node up to the child of the root; each call takes a frame and needs
another one for `==` or `<` of the patterns.  Nodes with the same path are identical. -/
def ltUpL : Nat → List MatchPattern → List MatchPattern → Py Bool
  | 0, _, _ => .error .recursionError
  | _ + 1, [], _ => .ok false
  | _ + 1, _ :: _, [] => .ok false
  | lim + 1, p :: ps, q :: qs =>
    if (p :: ps).map (·.str) = (q :: qs).map (·.str) then .ok false
    else
      match lim with
      | 0 => .error .recursionError
      | l + 1 => if p.str = q.str then ltUpL (l + 1) ps qs else p.lt q

/-- `a < b` for two matched nodes. -/
def Matched.ltL {σ μ : Type} (lim : Nat) (a b : Matched σ μ) : Py Bool := ltUpL lim a.path.reverse b.path.reverse

/-- `MatchPatternCommand._match_result`, cmdline.py:205-225, as `matchTry` and `matchResult`: `except Exception` also catches `RecursionError`. -/
def matchTryL (env : Env) (lim : Nat) (st : PatternMatcherSt) (allMatched : Bool) (raw : Bytes) : Py Bytes := do
  match env.decode raw with
  | none => .error .valueError
  | some url =>
    let ms ← st.matchL env.md5 lim url
    let ms ← if allMatched then (pure ms : Py _) else do
      let s ← pySortedDesc (Matched.ltL lim) ms
      pure (s.take 1)
    let metas ← ms.mapM (fun m => match m.data.md with
      | some x => (pure x : Py Str)
      | none => .error .attributeError)
    return env.encode (join ['\t'] metas)

/-- One line of `MatchPatternCommand._match`, cmdline.py:230-239. -/
def matchLineL (env : Env) (lim : Nat) (st : PatternMatcherSt) (allMatched : Bool) (line : Bytes) : Bytes :=
  let line := stripB line
  let r := match matchTryL env lim st allMatched line with
    | .ok r => r
    | .error _ => [69]
  (if r.isEmpty then [78] else r) ++ [9] ++ line ++ [10]

/-- `MatchPatternCommand.run`, cmdline.py:241-244; loading patterns is not recursive. -/
def matchRunL (env : Env) (lim : Nat) (allMatched : Bool) (patternLines lines : List Bytes) : Bytes :=
  (lines.map (matchLineL env lim (matchLoad env patternLines) allMatched)).flatten

end OsUrl
