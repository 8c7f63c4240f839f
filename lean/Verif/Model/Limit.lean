import Verif.Model.Cmdline

/-!
# Clustering with a limited call stack

Python raises `RecursionError` when calls are nested too deeply (`sys.getrecursionlimit()`, 1000 by default).  Here `lim` is the number of
frames that are left.  Simplification: only the frames of the functions that call themselves are counted: `cluster` (pattern_cluster.py:712-732)
and `ClusterProcessor.process` (pattern_cluster.py:625-633).  All other calls in between need frames as well, so Python gives up earlier than
this model.  `dump_tree` also calls itself; see `Forest.dumpL`.
-/

namespace OsUrl

/-- A generator that is run to its end: what it yields, and the exception that ends it (`none`: it is exhausted). -/
abbrev Gen (α : Type) := List α × Option PyErr

/-- `list(gen)` -/
def Gen.toPy {α : Type} (g : Gen α) : Py (List α) :=
  match g.2 with
  | none => .ok g.1
  | some e => .error e

/-- `for x in xs: for y in f(x): yield y` -/
def Gen.chain {α β : Type} (f : β → Gen α) : List β → Gen α
  | [] => ([], none)
  | x :: xs =>
    match f x with
    | (l, some e) => (l, some e)
    | (l, none) => (l ++ (Gen.chain f xs).1, (Gen.chain f xs).2)

/-- `ClusterProcessor.process`, pattern_cluster.py:625-648, as `procLevel`; the first number is that of the frames that are left.  One is taken by
this call, the others are left to the calls inside, also to those of `cluster` by the multi stages. -/
def procLevelL (rt : Runtime) (nested : Nat → NestedCluster) (mcn : Int) (m : URLMeta) (kw : Bool) :
    Nat → Nat → Nat → List PNode → Py (List (List Str × Str) × Bool)
  | 0, _, _, _ => .error .recursionError
  | lim + 1, 0, level, nodes => procLevel rt (nested lim) mcn m kw 0 level nodes
  | lim + 1, rem + 1, level, nodes => do
    let bucket := rt.bucket nodes
    let st ← processStages rt (nested lim) ⟨mcn, level, false, m.pathDepth == level, kw⟩ bucket
    let all := bucket.flatMap (·.nodes)
    let own := all.map (fun n => (n.path, st.assign.pattern n.data.pp.piece))
    let groups := (groupBy (fun n : PNode => st.assign.pattern n.data.pp.piece) all).map (·.2)
    let subs ← groups.mapM (fun g => procLevelL rt nested mcn m kw lim rem (level + 1) (g.flatMap childNodes))
    let split :=
      if st.patternNum > 1 then true
      else match subs with
        | [] => false
        | [s] => s.2
        | _ => true
    pure (own ++ subs.flatMap (·.1), split)

/-- `process`, pattern_cluster.py:694-709 -/
def processL (rt : Runtime) (nested : Nat → NestedCluster) (mcn : Int) (m : URLMeta) (kw : Bool) (lim : Nat) (t : Tree NodeData) :
    Py (Tree NodeData × Bool) := do
  let (asg, split) ← procLevelL rt nested mcn m kw lim m.depth 0 [⟨[], t.root, t.kids, none⟩]
  pure (⟨{ t.root with pat := (Dict.get? [] asg).or t.root.pat }, annotate asg [] t.kids⟩, split)

/-- `cluster`, pattern_cluster.py:712-732, as a generator: clusters found before an exception have been yielded. -/
def clusterGenL (rt : Runtime) (nested : Nat → NestedCluster) (mcn : Int) (m : URLMeta) (kw : Bool) :
    Nat → Tree NodeData → Gen (Tree NodeData)
  | 0, _ => ([], some .recursionError)
  | lim + 1, t =>
    if t.root.count ≤ 0 then ([], none)
    else
      match processL rt nested mcn m kw lim t with
      | .error e => ([], some e)
      | .ok (t', split) =>
        if split then
          match splitByPattern rt t' with
          | .error e => ([], some e)
          | .ok subs => Gen.chain (clusterGenL rt nested mcn m kw lim) subs
        else ([t'], none)

/-- `cluster` at nesting depth `n`, as `clusterNest`. -/
def clusterNestL (rt : Runtime) : Nat → Nat → Int → URLMeta → Bool → Tree NodeData → Gen (Tree NodeData)
  | 0 => fun _ _ _ _ _ => ([], some .recursionError)
  | n + 1 => fun lim mcn m kw t => clusterGenL rt (fun l mcn m kw t => (clusterNestL rt n l mcn m kw t).toPy) mcn m kw lim t

/-- `PatternMaker.make()`, pattern_maker.py:49-62, as a generator. -/
def PatternMakerSt.makeL (rt : Runtime) (lim : Nat) (mcn : Int) (st : PatternMakerSt) : Gen (URLMeta × Tree NodeData) :=
  Gen.chain (fun kv : Str × MakerSt =>
    let g := clusterNestL rt 2 lim mcn kv.2.urlMeta false kv.2.tree
    (g.1.map (fun t => (kv.2.urlMeta, t)), g.2)) st

/-- `MakePatternCommand.run`, cmdline.py:144-158: the records that are printed, and the exception that ends the command. -/
def makeRunL (env : Env) (lim : Nat) (mcn : Int) (f : Fmt) (lines : List Bytes) : Gen Str :=
  let g := PatternMakerSt.makeL env.rt lim mcn (makeLoad env (loadsUrl f) lines).1
  (g.1.flatMap (fun mt => pformat env.rt f mt.1 mt.2), g.2)

/-- `_dump` of `dump_tree` for the children of a node, utils.py:162-170, with `lim` frames left; every child takes one.  (`dump_tree` is a generator;
here it is run to its end.) -/
def Forest.dumpL {α : Type} : Nat → Forest α → Py (List (List (Str × α)))
  | _, .nil => .ok []
  | 0, .cons .. => .error .recursionError
  | lim + 1, .cons k a .nil sibs => do
    let rest ← Forest.dumpL (lim + 1) sibs
    pure ([(k, a)] :: rest)
  | lim + 1, .cons k a (.cons k' a' kids' sibs') sibs => do
    let below ← Forest.dumpL lim (.cons k' a' kids' sibs')
    let rest ← Forest.dumpL (lim + 1) sibs
    pure (below.map ((k, a) :: ·) ++ rest)

/-- `dump_tree(root)`, utils.py:151-173: the first frame of `_dump` is that of the root. -/
def Tree.dumpL {α : Type} (t : Tree α) : Nat → Py (List (List (Str × α)))
  | 0 => .error .recursionError
  | lim + 1 =>
    match t.kids with
    | .nil => .ok [[]]
    | f => f.dumpL lim

end OsUrl
