import Verif.Proofs.AnyHash5
import Verif.Model.Formatter

/-! # C72: `make()` when strings clash under `hash()`

`split_by_pattern` (pattern_cluster.py:651-668) divides a tree by `hash()` of the joined patterns, so two different
patterns can end in one part.  The theorems on `make()` (C24, C25, C28 and others) assume this does not happen; here
nothing is assumed about `hash()`. -/

namespace OsUrl
open Spec

/-- **C72**: whatever `hash()` is, `make()` ends in a `RecursionError`, or it returns clusters that divide the loaded
URLs with their metas, and all URLs of a cluster carry the one pattern that is printed. -/
theorem C72_any (md5 : Str → Str) (h : Runtime) (mcn : Int) (hm : 2 ≤ mcn) (hist : List (Str × Option Str))
    (hc : NoCollision md5 (accepted hist)) :
    PatternMakerSt.make h mcn (loadAll md5 hist) = .error .recursionError ∨
    ∃ cs, PatternMakerSt.make h mcn (loadAll md5 hist) = .ok cs ∧
      (cs.flatMap (fun c => c.2.paths.map (fun p => (c.1, p.map (·.1))))).Nodup ∧
      (∀ m ks, (m, ks) ∈ cs.flatMap (fun c => c.2.paths.map (fun p => (c.1, p.map (·.1)))) ↔
        ∃ u md pps, (u, md) ∈ hist ∧ parse u = .ok (m, .pieces pps) ∧ ks = pps.map (·.piece)) ∧
      (∀ c ∈ cs, c.2.paths ≠ [] ∧ c.2.root.count = c.2.paths.length ∧
        ∀ p ∈ c.2.paths, ∃ k leaf, p.getLast? = some (k, leaf) ∧ leaf.count = 1 ∧ (leaf.metas.getD []).Nodup ∧
          ∀ x, x ∈ leaf.metas.getD [] ↔
            ∃ u pps, (u, some x) ∈ hist ∧ parse u = .ok (c.1, .pieces pps) ∧ pps.map (·.piece) = p.map (·.1)) ∧
      ∀ c ∈ cs, ∃ pats : List Str, pats.length = c.1.depth ∧ (∀ p ∈ c.2.paths, p.map (fun kn => kn.2.pattern) = pats) ∧
        formatPattern c.1 c.2 = [pack c.1 pats] := by
  rcases make_all_any (h := h) md5 hm hc (Q := fun _ => True) (fun _ _ _ => trivial) with e | ⟨cs, e, Ms, h1, rfl, h3⟩
  · exact .inl e
  obtain ⟨p1, p2, p3⟩ := partition_any md5 h1 (fun M hM => (h3 M hM).1)
  refine .inr ⟨_, e, p1, p2, p3, ?_⟩
  intro c hcm
  obtain ⟨pats, hl, hp⟩ := uniform_any (fun M hM => (h3 M hM).1) c hcm
  refine ⟨pats, hl, hp, ?_⟩
  cases hps : c.2.paths with
  | nil => exact absurd hps (p3 c hcm).1
  | cons p ps =>
    unfold formatPattern
    rw [hps]
    rw [← hp p (by rw [hps]; simp)]
    rfl

/-- **C72**, no difference between strings: if `hash()` is constant, `make()` ends in a `RecursionError`, or the URLs of
one structure with the same rules are all in one cluster. -/
theorem C72_constant (md5 : Str → Str) (h : Runtime) (hh : ∀ s t : Str, h s = h t) (mcn : Int) (hm : 2 ≤ mcn)
    (hist : List (Str × Option Str)) (hc : NoCollision md5 (accepted hist)) :
    PatternMakerSt.make h mcn (loadAll md5 hist) = .error .recursionError ∨
    ∃ cs, PatternMakerSt.make h mcn (loadAll md5 hist) = .ok cs ∧
      cs.Pairwise (fun c c' => ∀ p ∈ c.2.paths, ∀ p' ∈ c'.2.paths,
        c.1 ≠ c'.1 ∨ p.map (fun kn => kn.2.pp.fuzzyRule) ≠ p'.map (fun kn => kn.2.pp.fuzzyRule)) := by
  rcases make_all_any (h := h) md5 hm hc (Q := fun k => k ≤ 1) (fun mk ts e => by
    unfold MakerSt.make cluster clusterNest at e
    exact clusterWith_const hh _ _ _ _ _ _ _ e) with e | ⟨cs, e, Ms, h1, rfl, h3⟩
  · exact .inl e
  refine .inr ⟨_, e, ?_⟩
  have hd : Ms.Pairwise (fun M M' => ∀ r ∈ M.g, ∀ r' ∈ M'.g, r.sid md5 ≠ r'.sid md5) := by
    have h4 : (Ms.map (·.g)).Pairwise (fun g g' : List Rec => ∀ r ∈ g, ∀ r' ∈ g', r.sid md5 ≠ r'.sid md5) := by
      rw [h1, groupBy_eq, List.map_map, List.pairwise_map]
      refine (nodup_uniq _).imp ?_
      intro k k' hk r hr r' hr'
      simp only [Function.comp_apply] at hr hr'
      have e1 := of_decide_eq_true (List.mem_filter.mp hr).2
      have e2 := of_decide_eq_true (List.mem_filter.mp hr').2
      rw [e1, e2]; exact hk
    rwa [List.pairwise_map] at h4
  rw [List.pairwise_flatMap]
  constructor
  · intro M hM
    obtain ⟨g, m, Cs⟩ := M
    have hl : Cs.length ≤ 1 := (h3 _ hM).2
    match Cs, hl with
    | [], _ => exact .nil
    | [C], _ => exact List.pairwise_singleton _ _
    | _ :: _ :: _, hl => simp at hl
  · refine List.Pairwise.imp_of_mem ?_ hd
    intro M M' hM hM' hsep c hcM c' hcM' p hp p' hp'
    have hk := mem_out_any (Ms := [M]) (hist := hist) (fun N hN => by rw [List.mem_singleton] at hN; rw [hN]; exact (h3 M hM).1)
      (c := c) (by simpa using hcM)
    have hk' := mem_out_any (Ms := [M']) (hist := hist) (fun N hN => by rw [List.mem_singleton] at hN; rw [hN]; exact (h3 M' hM').1)
      (c := c') (by simpa using hcM')
    obtain ⟨N, hN, a1, C, hC, e1, hK⟩ := hk
    obtain ⟨N', hN', a1', C', hC', e1', hK'⟩ := hk'
    rw [List.mem_singleton] at hN hN'
    subst hN; subst hN'
    obtain ⟨r, hr, er⟩ := path_rules_any hK hp
    obtain ⟨r', hr', er'⟩ := path_rules_any hK' hp'
    have hne := hsep r hr r' hr'
    rw [ne_eq, sid_eq_iff hc (a1.acc r hr) (a1'.acc r' hr')] at hne
    obtain ⟨_, ha⟩ := a1.all
    obtain ⟨_, ha'⟩ := a1'.all
    rw [er, er', e1, e1', ← (ha r hr).1, ← (ha' r' hr').1]
    exact Classical.or_iff_not_imp_left.mpr (fun h => fun h' => hne ⟨Classical.not_not.mp h, h'⟩)

/-- Digits of one and of two places. -/
def loads72 : List (Str × Option Str) := [(c!"http://h/a/1", some c!"m"), (c!"http://h/b/2", none), (c!"http://h/c/3", none),
  (c!"http://h/x/33", none)]

/-- More of them. -/
def more72 : List (Str × Option Str) := loads72 ++ [(c!"http://h/y/44", none), (c!"http://h/a/2", none), (c!"http://h/pp/1", none)]

/-- The printed patterns with the pieces of the URLs. -/
def show72 (md5 : Str → Str) (h : Str → Nat) (mcn : Int) (hist : List (Str × Option Str)) : Py (List (List Str × List (List Str))) :=
  (PatternMakerSt.make (inserted h) mcn (loadAll md5 hist)).map (fun cs => cs.map (fun c =>
    (formatPattern c.1 c.2, c.2.paths.map (fun p => p.map (·.1)))))

/-- **C72**: C28 needs its hypothesis.  With a constant hash these four URLs, which make two clusters, end in a
`RecursionError`: the part that is split off is the tree itself. -/
theorem C72_error : show72 id (fun _ => 0) 3 loads72 = .error .recursionError ∧
    show72 id codeNum 3 loads72 = .ok [([c!"/[a-z]/[0-9]"], [[c!"a", c!"1"], [c!"b", c!"2"], [c!"c", c!"3"]]),
      ([c!"/x/33"], [[c!"x", c!"33"]])] := by
  constructor <;> decide +kernel

/-- **C72**: a clash can also change the clusters.  If the hash is the parity of the length, three URLs that are
clusters of their own are clustered together. -/
theorem C72_differs : show72 id (fun s => s.length % 2) 3 more72 =
      .ok [([c!"/[a-z]/[0-9]"], [[c!"a", c!"1"], [c!"a", c!"2"], [c!"b", c!"2"], [c!"c", c!"3"]]),
        ([c!"/[a-z]+/[0-9]+"], [[c!"x", c!"33"], [c!"y", c!"44"], [c!"pp", c!"1"]])] ∧
    show72 id codeNum 3 more72 =
      .ok [([c!"/[a-z]/[0-9]"], [[c!"a", c!"1"], [c!"a", c!"2"], [c!"b", c!"2"], [c!"c", c!"3"]]),
        ([c!"/x/33"], [[c!"x", c!"33"]]), ([c!"/y/44"], [[c!"y", c!"44"]]), ([c!"/pp/1"], [[c!"pp", c!"1"]])] := by
  constructor <;> decide +kernel

/-- **C72**, the digest: a clash of the digests is not noticed.  If two structures have the same digest, the second URL
is put into the tree of the first, and what is printed for it is a pattern it does not have. -/
theorem C72_digest : show72 (fun _ => []) codeNum 2 [(c!"http://h/a", none), (c!"http://h/b/c", none)] =
    .ok [([c!"/[a-z]"], [[c!"a"], [c!"b", c!"c"]])] := by decide +kernel

/-- **C72**, why it never ends: if a tree is to be split and its only part is the tree itself, `cluster()` calls itself
with it again, at every bound on the depth of the recursion. -/
theorem C72_endless (nested : NestedCluster) (h : Runtime) (mcn : Int) (m : URLMeta) (kw : Bool) (t t' : Tree NodeData)
    (hpos : 0 < t.root.count) (hp : process h nested mcn m kw t = .ok (t', true)) (hs : splitByPattern h t' = .ok [t]) (fuel : Nat) :
    clusterWith nested h mcn m kw fuel t = .error .recursionError := by
  induction fuel with
  | zero => unfold clusterWith; rw [if_neg (by omega)]
  | succ fuel ih =>
    unfold clusterWith
    rw [if_neg (by omega)]
    simp only [hp, bind, Except.bind, if_true, hs, List.mapM_cons, ih]

/-- A tree of four paths with patterns, as `split_by_pattern` leaves it. -/
def stuck72 : Py (List (Tree NodeData)) := do
  let (t', _) ← process (inserted (fun _ => 0)) (clusterNest (inserted (fun _ => 0)) 1) 3 ⟨2, [], false⟩ false
    (growTree 2 (insOf (accepted loads72)))
  splitByPattern (inserted (fun _ => 0)) t'

example : (do
    let ts ← stuck72
    match ts with
    | [t] => do
      let (t', b) ← process (inserted (fun _ => 0)) (clusterNest (inserted (fun _ => 0)) 1) 3 ⟨2, [], false⟩ false t
      let us ← splitByPattern (inserted (fun _ => 0)) t'
      pure (decide (0 < t.root.count), b, decide (us = [t]))
    | _ => pure (false, false, false) : Py (Bool × Bool × Bool)) = .ok (true, true, true) := by decide +kernel

end OsUrl
