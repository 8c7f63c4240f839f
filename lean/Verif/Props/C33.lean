import Verif.Proofs.Unpat
import Verif.Proofs.Comb
import Verif.Proofs.PatRe
import Verif.Proofs.Load2
import Verif.Proofs.Witness

/-! # C33: the combined tree keeps the counts -/

namespace OsUrl
open Spec

/-- The sum of the counts of the children. -/
def childSum (f : Forest CNode) : Int := (f.children.map (fun x => x.2.1.count)).sum

/-- Everywhere the count of a node with children is the sum of their counts. -/
def Summed : Forest CNode → Prop
  | .nil => True
  | .cons _ d kids sibs => (kids ≠ .nil → d.count = childSum kids) ∧ Summed kids ∧ Summed sibs

/-- Everywhere the children of a node have different keys. -/
def SibsDiffer {α : Type} : Forest α → Prop
  | .nil => True
  | .cons k _ kids sibs => k ∉ sibs.children.map (·.1) ∧ SibsDiffer kids ∧ SibsDiffer sibs

theorem sibs_mapD {β : Type} (φ : NodeData → β) : (f : Forest NodeData) → f.Distinct → SibsDiffer (f.mapD φ)
  | .nil, _ => trivial
  | .cons k d kids sibs, h => by
    obtain ⟨h1, h2, h3⟩ := h
    refine ⟨?_, sibs_mapD φ kids h2, sibs_mapD φ sibs h3⟩
    rw [children_mapD, List.map_map]
    exact h1

theorem summed_ofList (l : List (Str × CNode × Forest CNode)) (h : ∀ x ∈ l, (x.2.2 ≠ .nil → x.2.1.count = childSum x.2.2) ∧ Summed x.2.2) :
    Summed (.ofList l) := by
  induction l with
  | nil => trivial
  | cons x xs ih =>
    obtain ⟨k, d, kids⟩ := x
    exact ⟨(h (k, d, kids) (by simp)).1, (h (k, d, kids) (by simp)).2, ih (fun x hx => h x (by simp [hx]))⟩

theorem childSum_grow (n : Nat) (L : List Ins) : childSum ((grow (n + 1) L).mapD NodeData.comb) = total L := by
  unfold childSum
  rw [children_mapD, List.map_map, ← grow_children_sum n L]
  rfl

theorem mapD_ofList {α β : Type} (φ : α → β) (l : List (Str × α × Forest α)) :
    (Forest.ofList l).mapD φ = .ofList (l.map (fun x => (x.1, φ x.2.1, x.2.2.mapD φ))) := by
  induction l with
  | nil => rfl
  | cons x xs ih => obtain ⟨k, d, kids⟩ := x; simp [Forest.ofList, Forest.mapD, ih]

theorem summed_grow (n : Nat) (L : List Ins) : Summed ((grow n L).mapD NodeData.comb) := by
  induction n generalizing L with
  | zero => trivial
  | succ n ih =>
    rw [grow, mapD_ofList]
    apply summed_ofList
    intro x hx
    obtain ⟨y, hy, rfl⟩ := List.mem_map.mp hx
    obtain ⟨kg, hkg, rfl⟩ := List.mem_map.mp hy
    simp only
    refine ⟨?_, ih _⟩
    intro hne
    cases n with
    | zero => exact absurd rfl hne
    | succ n =>
      rw [childSum_grow]
      show (headData kg.2).count = _
      rw [headData_count, total, List.map_map]
      rfl

theorem foldl_piece (L : List Ins) (d : NodeData) : (L.foldl (fun d i => i.act d) d).pp.piece = d.pp.piece := by
  induction L generalizing d with
  | nil => rfl
  | cons i L ih =>
    rw [List.foldl_cons, ih]
    unfold Ins.act
    split
    · unfold NodeData.updateMeta
      cases i.metas <;> rfl
    · rfl

theorem filter_length_flatMap {α β : Type} (f : α → List β) (p : β → Bool) (l : List α) :
    (((l.flatMap f).filter p).length : Int) = (l.map (fun a => (((f a).filter p).length : Int))).sum := by
  induction l with
  | nil => rfl
  | cons a l ih =>
    rw [List.flatMap_cons, List.filter_append, List.length_append, List.map_cons, List.sum_cons, ← ih]
    push_cast
    rfl

theorem headData_piece {k : Str} {g : List Ins} (hg : g ≠ []) (hp : ∀ i ∈ g, i.path ≠ [] ∧ i.key = k) : (headData g).pp.piece = k := by
  obtain ⟨i, g, rfl⟩ := List.exists_cons_of_ne_nil hg
  rw [headData_pp]
  obtain ⟨h1, h2⟩ := hp i (by simp)
  rw [← h2]
  obtain ⟨path, c, ms⟩ := i
  cases path with
  | nil => exact absurd rfl h1
  | cons x xs => obtain ⟨pp, pat⟩ := x; cases pat <;> rfl

theorem growPaths_piece {n : Nat} {L : List Ins} (hL : ∀ i ∈ L, i.path.length = n) {p : List (Str × NodeData)} (hp : p ∈ growPaths n L) :
    ∀ kn ∈ p, kn.2.pp.piece = kn.1 := by
  induction n generalizing L p with
  | zero => simp [growPaths] at hp; subst hp; simp
  | succ n ih =>
    rw [growPaths, List.mem_flatMap] at hp
    obtain ⟨⟨k, g⟩, hkg, hp⟩ := hp
    obtain ⟨q, hq, rfl⟩ := List.mem_map.mp hp
    have hne := groupBy_ne_nil hkg
    obtain ⟨-, hgf⟩ := mem_groupBy hkg
    have hg : ∀ i ∈ g, i ∈ L ∧ i.key = k := fun i hi => by
      rw [hgf] at hi; exact ⟨(List.mem_filter.mp hi).1, of_decide_eq_true (List.mem_filter.mp hi).2⟩
    intro kn hkn
    rcases List.mem_cons.mp hkn with rfl | hkn
    · apply headData_piece hne
      intro i hi
      refine ⟨?_, (hg i hi).2⟩
      intro e
      have := hL i (hg i hi).1
      rw [e] at this
      simp at this
    · apply ih _ hq kn hkn
      intro i hi
      obtain ⟨i', hi', rfl⟩ := List.mem_map.mp hi
      simp [Ins.tail, hL i' (hg i' hi').1]

/-- What is claimed about the combined tree `T` of a sub-maker `mk`. -/
structure Combined (h : Runtime) (mcn : Int) (mk : MakerSt) (T : URLMeta × Tree CNode) : Prop where
  mt : T.1 = mk.urlMeta
  rootPat : T.2.root.pat = []
  /-- The root counts the loaded paths. -/
  root : T.2.root.count = mk.tree.paths.length
  /-- Counts of children add up. -/
  top : T.2.root.count = childSum T.2.kids
  sums : Summed T.2.kids
  /-- Siblings have different patterns. -/
  apart : SibsDiffer T.2.kids
  /-- Every pattern path occurs once. -/
  once : (T.2.paths.map (fun p => p.map (·.1))).Nodup
  names : ∀ p ∈ T.2.paths, ∀ kn ∈ p, kn.2.pat = kn.1
  /-- The pattern paths are those of the clusters, and a leaf counts the loaded paths with its pattern path. -/
  leaves : ∃ cs, mk.make h mcn = .ok cs ∧
    (∀ ks, ks ∈ T.2.paths.map (fun p => p.map (·.1)) ↔ ∃ q ∈ cs.flatMap (·.paths), q.map (fun kn => kn.2.pattern) = ks) ∧
    ∀ p ∈ T.2.paths, ∃ k d, p.getLast? = some (k, d) ∧
      d.count = ((cs.flatMap (·.paths)).filter (fun q => decide (q.map (fun kn => kn.2.pattern) = p.map (·.1)))).length

theorem combined_group {h : Runtime} {mcn : Int} (hm : 2 ≤ mcn) {hist : List (Str × Option Str)} (hh : NoHashClash h (UrlRow hist)) {g : List Rec}
    {m : URLMeta} {rules : List Str} (hne : g ≠ []) (hg : ∀ r ∈ g, r ∈ accepted hist) (hall : ∀ r ∈ g, r.m = m ∧ r.rules = rules) :
    ∃ T, MakerSt.makeCombined h mcn ⟨m, growTree m.depth (insOf g)⟩ = .ok T ∧ Combined h mcn ⟨m, growTree m.depth (insOf g)⟩ (m, T) := by
  obtain ⟨Cs, ⟨h1, h2⟩, -⟩ := make_group hm hh hne hg hall
  have hM : MadeOK h mcn hist ⟨g, m, Cs⟩ := ⟨hne, hg, ⟨_, hall⟩, h2⟩
  obtain ⟨r0, hr0⟩ := List.exists_mem_of_ne_nil _ hne
  obtain ⟨n, hn⟩ : ∃ n, m.depth = n + 1 := ⟨m.depth - 1, by
    have := (accepted_depth (hg r0 hr0)).2; rw [(hall r0 hr0).1] at this; omega⟩
  have hlen : ∀ i ∈ insOf g, i.path.length = m.depth := insOf_length (fun r hr => by rw [(accepted_depth (hg r hr)).1, (hall r hr).1])
  have hins : insOf g ≠ [] := by
    intro e
    have := insOf_keys g
    rw [e] at this
    have h2 := congrArg List.length this
    simp at h2
    exact hne (List.eq_nil_of_length_eq_zero h2.symm)
  have hlp : (growTree m.depth (insOf g)).paths.length = (norm (insOf g)).length := by
    have hN : Normal m.depth (norm (insOf g)) := norm_normal hlen
    rw [hn] at hlen hN ⊢
    rw [← growTree_norm n (insOf g) hlen, paths_growTree (norm_ne_nil hins), growPaths_count hN (norm_ne_nil hins)]
  have hK : ∀ C ∈ Cs, ClusterOK h mcn hist ⟨g, m, Cs⟩ C (doneTree m.depth C) := fun C hC => clusterOK hM hC
  have hfirst : ∀ C ∈ Cs, ∃ p rest, (doneTree m.depth C).paths = p :: rest ∧ p.length = m.depth := by
    intro C hC
    cases hp : (doneTree m.depth C).paths with
    | nil =>
      have := (hK C hC).rows.length_eq
      rw [hp] at this
      exact absurd (List.eq_nil_of_length_eq_zero this.symm) (hK C hC).final.ne
    | cons p rest => exact ⟨p, rest, rfl, path_length (hK C hC) (by rw [hp]; simp)⟩
  have h3 := combine_grow (n := m.depth) (Cs.map (doneTree m.depth)) [] (by simp) (by
    intro c hc
    obtain ⟨C, hC, rfl⟩ := List.mem_map.mp hc
    exact hfirst C hC)
  rw [List.nil_append] at h3
  have hinit : (growTree m.depth []).mapD NodeData.comb = ⟨⟨[], 0⟩, .nil⟩ := by
    unfold growTree Tree.mapD
    simp only
    rw [grow_nil]
    rfl
  rw [hinit] at h3
  -- the insertions
  have hI : ∀ i ∈ (Cs.map (doneTree m.depth)).map combIns, i.path.length = n + 1 := by
    intro i hi
    obtain ⟨c, hc, rfl⟩ := List.mem_map.mp hi
    obtain ⟨C, hC, rfl⟩ := List.mem_map.mp hc
    obtain ⟨p, rest, hp, hpl⟩ := hfirst C hC
    rw [← hn]
    unfold combIns
    rw [hp]
    simp [hpl]
  have hCs : Cs ≠ [] := by
    intro e
    have := h2.perm.length_eq
    rw [e] at this
    exact norm_ne_nil hins (List.eq_nil_of_length_eq_zero this.symm)
  have hne' : (Cs.map (doneTree m.depth)).map combIns ≠ [] := by simpa using hCs
  have hkeys : ∀ C ∈ Cs, ∀ q ∈ (doneTree m.depth C).paths, q.map (fun kn => kn.2.pattern) = (combIns (doneTree m.depth C)).keys := by
    intro C hC q hq
    obtain ⟨p, rest, hp, -⟩ := hfirst C hC
    rw [path_uniform (hK C hC) hq (show p ∈ _ by rw [hp]; simp)]
    simp [combIns, hp, Ins.keys, ParsedPiece.piece]
  have hcount : ∀ C ∈ Cs, (combIns (doneTree m.depth C)).count = (doneTree m.depth C).paths.length := by
    intro C hC
    have h4 := (hK C hC).count
    have h5 := (hK C hC).rows.length_eq
    rw [List.length_map] at h5
    rw [show (combIns (doneTree m.depth C)).count = (doneTree m.depth C).root.count from rfl, h4, h5]
  have htot : total ((Cs.map (doneTree m.depth)).map combIns) = (norm (insOf g)).length := by
    have h4 : ∀ Ds : List (List Ins), (∀ C ∈ Ds, C ∈ Cs) → total ((Ds.map (doneTree m.depth)).map combIns) = (Ds.flatten.map Ins.bare).length := by
      intro Ds
      induction Ds with
      | nil => intro _; rfl
      | cons C Ds ih =>
        intro hD
        rw [List.map_cons, List.map_cons, total_cons, ih (fun D hDD => hD D (by simp [hDD])), hcount C (hD C (by simp))]
        have h5 := (hK C (hD C (by simp))).rows.length_eq
        rw [List.length_map] at h5
        rw [h5]
        simp
    rw [h4 Cs (fun C hC => hC), h2.perm.length_eq]
  have hpaths : ((growTree m.depth ((Cs.map (doneTree m.depth)).map combIns)).mapD NodeData.comb).paths =
      (growPaths (n + 1) ((Cs.map (doneTree m.depth)).map combIns)).map (fun p => p.map (fun kn => (kn.1, kn.2.comb))) := by
    rw [treePaths_mapD, paths_growTree hne', hn]
  have hmapkeys : ((growTree m.depth ((Cs.map (doneTree m.depth)).map combIns)).mapD NodeData.comb).paths.map (fun p => p.map (·.1)) =
      (growPaths (n + 1) ((Cs.map (doneTree m.depth)).map combIns)).map (fun p => p.map (·.1)) := by
    rw [hpaths, List.map_map]
    apply List.map_congr_left
    intro p _
    simp [Function.comp_def]
  refine ⟨_, by unfold MakerSt.makeCombined; rw [h1]; exact h3, rfl, ?_, ?_, ?_, ?_, sibs_mapD _ _ (grow_distinct _ _), ?_, ?_, ?_⟩
  · exact foldl_piece _ _
  · show (growTree m.depth ((Cs.map (doneTree m.depth)).map combIns)).root.count = _
    rw [growTree_count]
    show total _ = _
    rw [htot, hlp]
  · show (growTree m.depth ((Cs.map (doneTree m.depth)).map combIns)).root.count = childSum ((grow m.depth _).mapD NodeData.comb)
    rw [growTree_count, hn, childSum_grow]
    rfl
  · exact summed_grow _ _
  · rw [hmapkeys]; exact growPaths_nodup
  · intro p hp kn hkn
    rw [hpaths] at hp
    obtain ⟨q, hq, rfl⟩ := List.mem_map.mp hp
    obtain ⟨x, hx, rfl⟩ := List.mem_map.mp hkn
    exact growPaths_piece hI hq x hx
  · refine ⟨_, h1, ?_, ?_⟩
    · intro ks
      rw [hmapkeys, growPaths_keys hI hne']
      constructor
      · intro hk
        obtain ⟨i, hi, rfl⟩ := List.mem_map.mp hk
        obtain ⟨c, hc, rfl⟩ := List.mem_map.mp hi
        obtain ⟨C, hC, rfl⟩ := List.mem_map.mp hc
        obtain ⟨p, rest, hp, -⟩ := hfirst C hC
        have hpm : p ∈ (doneTree m.depth C).paths := by rw [hp]; simp
        exact ⟨p, List.mem_flatMap.mpr ⟨_, hc, hpm⟩, hkeys C hC p hpm⟩
      · rintro ⟨q, hq, rfl⟩
        obtain ⟨c, hc, hq⟩ := List.mem_flatMap.mp hq
        obtain ⟨C, hC, rfl⟩ := List.mem_map.mp hc
        rw [hkeys C hC q hq]
        exact List.mem_map_of_mem (List.mem_map_of_mem hc)
    · intro p hp
      rw [hpaths] at hp
      obtain ⟨q, hq, rfl⟩ := List.mem_map.mp hp
      obtain ⟨k, d, h4, h5, -, -⟩ := growPaths_leaf hI hq
      refine ⟨k, d.comb, by rw [List.getLast?_map, h4]; rfl, ?_⟩
      show d.count = _
      rw [h5, filter_length_flatMap]
      have e : (q.map (fun kn => (kn.1, kn.2.comb))).map (·.1) = q.map (·.1) := by simp [Function.comp_def]
      rw [e]
      have : ∀ Ds : List (List Ins), (∀ C ∈ Ds, C ∈ Cs) →
          ((((Ds.map (doneTree m.depth)).map combIns).filter (fun i => decide (i.keys = q.map (·.1)))).map (·.count)).sum =
          ((Ds.map (doneTree m.depth)).map (fun a => ((a.paths.filter (fun q' => decide (q'.map (fun kn => kn.2.pattern) = q.map (·.1)))).length : Int))).sum := by
        intro Ds
        induction Ds with
        | nil => intro _; rfl
        | cons C Ds ih =>
          intro hD
          have ih := ih (fun D hDD => hD D (by simp [hDD]))
          have hC := hD C (by simp)
          rw [List.map_cons, List.map_cons, List.map_cons, List.sum_cons, ← ih]
          by_cases hk : (combIns (doneTree m.depth C)).keys = q.map (·.1)
          · rw [List.filter_cons_of_pos (by simp [hk]), List.map_cons, List.sum_cons, hcount C hC]
            congr 2
            rw [List.filter_eq_self.mpr]
            intro a ha
            rw [decide_eq_true_eq, hkeys C hC a ha, hk]
          · rw [List.filter_cons_of_neg (by simp [hk])]
            have : (doneTree m.depth C).paths.filter (fun q' => decide (q'.map (fun kn => kn.2.pattern) = q.map (·.1))) = [] := by
              rw [List.filter_eq_nil_iff]
              intro a ha
              rw [decide_eq_true_eq, hkeys C hC a ha]
              exact hk
            rw [this]
            simp
      exact this Cs (fun C hC => hC)

/-- **C33**: `make(combine=True)` yields one tree per sub-maker with these counts. -/
theorem C33_combined (md5 : Str → Str) (h : Runtime) (mcn : Int) (hm : 2 ≤ mcn) (hist : List (Str × Option Str))
    (hc : NoCollision md5 (accepted hist)) (hh : NoHashClash h (UrlRow hist)) :
    ∃ Ts, (loadAll md5 hist).makeCombined h mcn = .ok Ts ∧ Ts.length = (loadAll md5 hist).length ∧
      ∀ (i : Nat) (kv : Str × MakerSt) (T : URLMeta × Tree CNode), (loadAll md5 hist)[i]? = some kv → Ts[i]? = some T → Combined h mcn kv.2 T := by
  have key : ∀ kv : Str × MakerSt, kv ∈ loadAll md5 hist → ∃ T : URLMeta × Tree CNode,
      (do return (kv.2.urlMeta, ← kv.2.makeCombined h mcn) : Py (URLMeta × Tree CNode)) = .ok (id T) ∧ Combined h mcn kv.2 T := by
    intro kv hkv
    rw [loadAll_eq md5 hist hc] at hkv
    obtain ⟨⟨k, g⟩, hkg, rfl⟩ := List.mem_map.mp hkv
    have hne := groupBy_ne_nil hkg
    obtain ⟨-, hgf⟩ := mem_groupBy hkg
    have hg : ∀ r ∈ g, r ∈ accepted hist := fun r hr => by rw [hgf] at hr; exact (List.mem_filter.mp hr).1
    have hsid : ∀ r ∈ g, r.sid md5 = k := fun r hr => by
      rw [hgf] at hr; exact of_decide_eq_true (List.mem_filter.mp hr).2
    obtain ⟨r, g', rfl⟩ := List.exists_cons_of_ne_nil hne
    have hall : ∀ r' ∈ r :: g', r'.m = r.m ∧ r'.rules = r.rules := fun r' hr' =>
      (sid_eq_iff hc (hg r' hr') (hg r (by simp))).mp ((hsid r' hr').trans (hsid r (by simp)).symm)
    obtain ⟨T, e1, e2⟩ := combined_group hm hh hne hg hall
    refine ⟨(r.m, T), ?_, e2⟩
    simp only [makerOf, bind, Except.bind, pure, Except.pure]
    rw [e1]
    rfl
  obtain ⟨ps, e1, e2, e3⟩ := mapM_pairs (r := id) key
  refine ⟨_, e2, ?_, ?_⟩
  · rw [List.length_map, ← e1, List.length_map]
  · intro i kv T hkv hT
    replace hkv : (ps.map (·.1))[i]? = some kv := by rw [e1]; exact hkv
    rw [List.getElem?_map] at hkv
    rw [List.getElem?_map] at hT
    cases hp : ps[i]? with
    | none => rw [hp] at hkv; cases hkv
    | some p =>
      rw [hp] at hkv hT
      simp only [Option.map_some, Option.some.injEq, id] at hkv hT
      rw [← hkv, ← hT]
      exact e3 p (List.mem_of_getElem? hp)

/-- Six paths, one of them loaded twice, in three clusters. -/
def hist33 : List (Str × Option Str) :=
  [c!"http://h/a/x", c!"http://h/a/yy", c!"http://h/a/zzz", c!"http://h/a/uuuu", c!"http://h/b/x", c!"http://h/b/yy", c!"http://h/a/x"].map (fun u => (u, none))

example : ((loadAll id hist33).makeCombined codeHash 3).map (fun Ts => Ts.map (fun T => T.2.root.count)) = .ok [6] := by decide +kernel
example : ((loadAll id hist33).makeCombined codeHash 3).map (fun Ts => Ts.flatMap (fun T => T.2.paths.map (fun p => p.map (·.1)))) =
    .ok [[c!"a", c!"[a-z]+"], [c!"b", c!"x"], [c!"b", c!"yy"]] := by decide +kernel
example : ((loadAll id hist33).makeCombined codeHash 3).map (fun Ts => Ts.flatMap (fun T => T.2.paths.map (fun p => p.map (fun kn => kn.2.count)))) =
    .ok [[4, 4], [2, 1], [2, 1]] := by decide +kernel
example : ∃ Ts, (loadAll id hist33).makeCombined codeHash 3 = .ok Ts ∧ Ts.length = (loadAll id hist33).length ∧
      ∀ (i : Nat) (kv : Str × MakerSt) (T : URLMeta × Tree CNode), (loadAll id hist33)[i]? = some kv → Ts[i]? = some T → Combined codeHash 3 kv.2 T :=
  C33_combined id codeHash 3 (by decide) hist33 (id_ok _) (codeHash_ok _)
/-- A tree whose root count does not add up is not `Summed`. -/
example : ¬ Summed (.cons c!"x" ⟨c!"x", 3⟩ (.cons c!"y" ⟨c!"y", 2⟩ .nil .nil) .nil) := by
  intro h
  exact absurd (h.1 (by simp)) (by decide)

end OsUrl
