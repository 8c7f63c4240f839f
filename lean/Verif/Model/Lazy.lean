import Verif.Model.Maker

/-!
# `PatternMaker.make()` as a generator

`make` (pattern_maker.py:49-62) is a generator function: nothing happens before the first `next`, and between two `next` the
caller may load further URLs or use other generators of the same maker.

* The sub-makers are walked with `itervalues(self._makers)` (pattern_maker.py:24-27, :60).  A dict iterator of Python raises
  `RuntimeError: dictionary changed size during iteration` when it is advanced after the dict has grown; the size is compared
  before it is seen that there are no more entries.
* `Maker.make` calls `cluster` on the root of the sub-maker (pattern_maker.py:97-101).  `process` writes patterns into this
  tree; then either the root itself is yielded, or `split_by_pattern` builds all parts as new trees before the first of them is
  yielded (pattern_cluster.py:725-732, :660-668).  All that follows works on these copies.  So the clusters of a sub-maker are
  fixed at the `next` that reaches the sub-maker; the model computes them at this point.  (With an exception in a later part
  Python would yield the earlier parts first; for `min_cluster_num >= 2` there are no exceptions, C28.)
-/

namespace OsUrl

/-- A cluster in the hands of the caller: structure, tree at the time of the `next`, and, if the tree is not a copy but the
root of a sub-maker (`yield root`, pattern_cluster.py:727-728), the key of this sub-maker. -/
structure Yielded where
  urlMeta : URLMeta
  tree : Tree NodeData
  own : Option Str
  deriving DecidableEq, Repr

/-- What `next` does: a cluster, `StopIteration`, `RuntimeError` of the dict iterator, another exception. -/
inductive Next where
  | yielded (y : Yielded)
  | stopped
  | changed
  | raised (e : PyErr)
  deriving DecidableEq, Repr

/-- A generator object: not started; `pos` sub-makers of a dict of `size` entries started and the clusters `rest` of the last
one still to be yielded; finished. -/
inductive MakeGen where
  | fresh
  | running (size pos : Nat) (rest : List Yielded)
  | done
  deriving DecidableEq, Repr

/-- Whether `cluster` yields the root of the sub-maker itself, pattern_cluster.py:725-728. -/
def MakerSt.ownRoot (h : Runtime) (mcn : Int) (st : MakerSt) : Py Bool :=
  if st.tree.root.count ≤ 0 then .ok false
  else do
    let (_, split) ← process h (clusterNest h 1) mcn st.urlMeta false st.tree
    return !split

/-- `for clustered in maker.make(combine)`, pattern_maker.py:61-62: what is yielded, and the sub-maker afterwards. -/
def MakerSt.yields (h : Runtime) (mcn : Int) (sid : Str) (st : MakerSt) : Py (List Yielded × MakerSt) := do
  let ts ← st.make h mcn
  let own ← st.ownRoot h mcn
  let st' ← st.after h mcn
  return (ts.map (fun t => ⟨st.urlMeta, t, if own then some sid else none⟩), st')

/-- The loop over the sub-makers from number `pos` on, pattern_maker.py:60-62, up to the next `yield`. -/
def MakeGen.turn (h : Runtime) (mcn : Int) (size : Nat) : List (Str × MakerSt) → Nat → PatternMakerSt → Next × MakeGen × PatternMakerSt
  | [], _, st => (.stopped, .done, st)
  | (sid, mk) :: rest, pos, st =>
    match mk.yields h mcn sid with
    | .error e => (.raised e, .done, st)
    | .ok ([], mk') => MakeGen.turn h mcn size rest (pos + 1) (st.set pos (sid, mk'))
    | .ok (y :: ys, mk') => (.yielded y, .running size (pos + 1) ys, st.set pos (sid, mk'))

/-- `next(generator)`, pattern_maker.py:60-62. -/
def MakeGen.next (h : Runtime) (mcn : Int) : MakeGen → PatternMakerSt → Next × MakeGen × PatternMakerSt
  | .fresh, st => MakeGen.turn h mcn st.length st 0 st
  | .running size pos (y :: ys), st => (.yielded y, .running size pos ys, st)
  | .running size pos [], st =>
    if st.length ≠ size then (.changed, .done, st) else MakeGen.turn h mcn size (st.drop pos) pos st
  | .done, st => (.stopped, .done, st)

/-- A `PatternMaker` and the generators its `make` has returned. -/
structure MakerWorld where
  st : PatternMakerSt
  gens : List MakeGen

/-- What a caller does with them: `load` (exceptions caught), `make()`, `next` of the `i`-th generator. -/
inductive Op where
  | load (url : Str) (md : Option Str)
  | make
  | next (i : Nat)

/-- One call, and the answer of a `next`. -/
def MakerWorld.step (md5 : Str → Str) (h : Runtime) (mcn : Int) (w : MakerWorld) : Op → MakerWorld × Option (Nat × Next)
  | .load u md => (⟨match w.st.load md5 u md with | .ok (st', _) => st' | .error _ => w.st, w.gens⟩, none)
  | .make => (⟨w.st, w.gens ++ [.fresh]⟩, none)
  | .next i =>
    match w.gens[i]? with
    | none => (w, none)
    | some g =>
      let (n, g', st') := g.next h mcn w.st
      (⟨st', w.gens.set i g'⟩, some (i, n))

/-- Several calls. -/
def MakerWorld.run (md5 : Str → Str) (h : Runtime) (mcn : Int) : List Op → MakerWorld → MakerWorld
  | [], w => w
  | op :: ops, w => MakerWorld.run md5 h mcn ops (w.step md5 h mcn op).1

/-- The tree the caller sees now: of a copy what it was, of the root of a sub-maker what it has become. -/
def Yielded.look (st : PatternMakerSt) (y : Yielded) : Tree NodeData :=
  match y.own with
  | none => y.tree
  | some sid => ((Dict.get? sid st).map (·.tree)).getD y.tree

end OsUrl
