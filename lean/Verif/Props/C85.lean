import Verif.Proofs.Calls3
import Verif.Proofs.Calls4

/-! # C85: how often `process` is called, counting the calls inside the stages -/

namespace OsUrl
open Spec

/-- **C85**: listing the calls changes nothing: whatever was loaded and whatever `min_cluster_num` is, the clusters and the errors
are those of `make`. -/
theorem C85_same (h : Runtime) (mcn : Int) (st : PatternMakerSt) :
    PatternMakerSt.make h mcn st = (PatternMakerSt.makeC h mcn st).map (fun rs => rs.flatMap (fun r => r.1.2.map (fun t => (r.1.1, t)))) := by
  unfold PatternMakerSt.make PatternMakerSt.makeC
  have key := mapM_except_map (f := fun kv : Str × MakerSt => do
      let r ← kv.2.makeC h mcn
      return ((kv.2.urlMeta, r.1), r.2))
    (g := fun kv : Str × MakerSt => do
      let ts ← kv.2.make h mcn
      return ts.map (fun t => (kv.2.urlMeta, t)))
    (k := fun r : (URLMeta × List (Tree NodeData)) × List ProcCall => r.1.2.map (fun t => (r.1.1, t))) (by
      intro kv
      have e : Except.map Prod.fst (kv.2.makeC h mcn) = kv.2.make h mcn := clusterNestC_dr h 2 false mcn kv.2.urlMeta false kv.2.tree
      rw [← e]
      simp only [bind, Except.bind, pure, Except.pure]
      cases kv.2.makeC h mcn with
      | error e => rfl
      | ok r => simp [Except.map]) st
  rw [key]
  generalize List.mapM (m := Except PyErr) _ st = x
  cases x with
  | error e => rfl
  | ok rs => simp [Except.map, List.flatMap_def, bind, Except.bind, pure, Except.pure]

/-- The calls of all sub-makers. -/
theorem calls_all (md5 : Str → Str) {h : Runtime} {mcn : Int} (hm : 2 ≤ mcn) {hist : List (Str × Option Str)}
    (hc : NoCollision md5 (accepted hist)) (hh : NoHashClash h (UrlRow hist)) :
    ∃ rs : List (Str × ((URLMeta × List (Tree NodeData)) × List ProcCall) × List Pass),
      PatternMakerSt.makeC h mcn (loadAll md5 hist) = .ok (rs.map (·.2.1)) ∧
      PatternMakerSt.passes h mcn (loadAll md5 hist) = .ok (rs.map (fun r => (r.2.1.1.1, r.2.2))) ∧ rs.map (·.1) = structs md5 hist ∧
      ∀ r ∈ rs, CallsOK (different (ofStruct md5 r.1 hist)).length r.2.1.1.1.depth r.2.1.1.2 r.2.1.2 ∧
        (r.2.1.2.filter (fun c => !c.inner)).map ProcCall.tree = r.2.2.map Pass.before := by
  have key : ∀ kg ∈ groupBy (Rec.sid md5) (accepted hist), ∃ r : ((URLMeta × List (Tree NodeData)) × List ProcCall) × List Pass,
      (((makerOf kg.2).makeC h mcn >>= fun r => pure (((makerOf kg.2).urlMeta, r.1), r.2)) = .ok r.1 ∧
        ((makerOf kg.2).passes h mcn >>= fun ps => pure ((makerOf kg.2).urlMeta, ps)) = .ok (r.1.1.1, r.2)) ∧
      CallsOK (different (ofStruct md5 kg.1 hist)).length r.1.1.1.depth r.1.1.2 r.1.2 ∧
        (r.1.2.filter (fun c => !c.inner)).map ProcCall.tree = r.2.map Pass.before := by
    rintro ⟨k, g⟩ hkg
    have hne := groupBy_ne_nil hkg
    obtain ⟨-, hgf⟩ := mem_groupBy hkg
    have hg : ∀ r ∈ g, r ∈ accepted hist := fun r hr => by rw [hgf] at hr; exact (List.mem_filter.mp hr).1
    have hsid : ∀ r ∈ g, r.sid md5 = k := fun r hr => by
      rw [hgf] at hr; exact of_decide_eq_true (List.mem_filter.mp hr).2
    have hdiff : different (ofStruct md5 k hist) = uniq (g.map (fun r => (r.m, r.keys))) := by
      rw [different, accepted_read, accepted_ofStruct, ← hgf, firsts_eq_uniq]
    obtain ⟨r, g', rfl⟩ := List.exists_cons_of_ne_nil hne
    have hall : ∀ r' ∈ r :: g', r'.m = r.m ∧ r'.rules = r.rules := fun r' hr' =>
      (sid_eq_iff hc (hg r' hr') (hg r (by simp))).mp ((hsid r' hr').trans (hsid r (by simp)).symm)
    obtain ⟨ts, cs, ps, h1, h2, h3, h4⟩ := calls_group hm hh hne hg hall
    refine ⟨(((r.m, ts), cs), ps), ⟨?_, ?_⟩, ?_, h3⟩
    · simp only [makerOf, bind, Except.bind, pure, Except.pure]
      rw [h1]
    · simp only [makerOf, bind, Except.bind, pure, Except.pure]
      rw [h2]
    · simp only
      rw [hdiff, different_group (fun r' hr' => (hall r' hr').1)]
      exact h4
  have hex : ∀ kg : Str × List Rec, ∃ r : ((URLMeta × List (Tree NodeData)) × List ProcCall) × List Pass,
      kg ∈ groupBy (Rec.sid md5) (accepted hist) →
      ((((makerOf kg.2).makeC h mcn >>= fun r => pure (((makerOf kg.2).urlMeta, r.1), r.2)) = .ok r.1 ∧
        ((makerOf kg.2).passes h mcn >>= fun ps => pure ((makerOf kg.2).urlMeta, ps)) = .ok (r.1.1.1, r.2)) ∧
      CallsOK (different (ofStruct md5 kg.1 hist)).length r.1.1.1.depth r.1.1.2 r.1.2 ∧
        (r.1.2.filter (fun c => !c.inner)).map ProcCall.tree = r.2.map Pass.before) := by
    intro kg
    by_cases hk : kg ∈ groupBy (Rec.sid md5) (accepted hist)
    · obtain ⟨r, hr⟩ := key kg hk
      exact ⟨r, fun _ => hr⟩
    · exact ⟨(((⟨0, [], false⟩, []), []), []), fun h => absurd h hk⟩
  obtain ⟨F, hF⟩ := Classical.axiomOfChoice hex
  have hmap : ∀ {β : Type} (f : Str × List Rec → Py β) (v : Str × List Rec → β) (l : List (Str × List Rec)), (∀ a ∈ l, f a = .ok (v a)) →
      l.mapM f = .ok (l.map v) := by
    intro β f v l
    induction l with
    | nil => intro _; rfl
    | cons a l ih =>
      intro hl
      rw [List.mapM_cons, hl a (by simp), ih (fun a ha => hl a (by simp [ha]))]
      rfl
  refine ⟨(groupBy (Rec.sid md5) (accepted hist)).map (fun kg => (kg.1, F kg)), ?_, ?_, ?_, ?_⟩
  · unfold PatternMakerSt.makeC
    rw [loadAll_eq md5 hist hc, List.mapM_map, List.map_map]
    exact hmap _ _ _ (fun kg hk => (hF kg hk).1.1)
  · unfold PatternMakerSt.passes
    rw [loadAll_eq md5 hist hc, List.mapM_map, List.map_map]
    exact hmap _ _ _ (fun kg hk => (hF kg hk).1.2)
  · rw [structs_eq, List.map_map]; rfl
  · intro r hr
    obtain ⟨kg, hk, rfl⟩ := List.mem_map.mp hr
    exact (hF kg hk).2

/-- **C85**: the calls of `process`, structure by structure.  With `k` clusters, `N` different URLs and `D` pieces in each, at most `2k - 1` calls are made
by `make` itself, and they are those of C78; at most `6 (D + 1) N k` calls are made inside the stages; and all trees together have at most
`N k + 3 (D + 1) N² k` leaves. -/
theorem C85_calls (md5 : Str → Str) (h : Runtime) (mcn : Int) (hm : 2 ≤ mcn) (hist : List (Str × Option Str))
    (hc : NoCollision md5 (accepted hist)) (hh : NoHashClash h (UrlRow hist)) :
    ∃ rs ps, PatternMakerSt.makeC h mcn (loadAll md5 hist) = .ok rs ∧ PatternMakerSt.passes h mcn (loadAll md5 hist) = .ok ps ∧
      rs.length = (structs md5 hist).length ∧ ps.length = rs.length ∧
      ∀ (i : Nat) (s : Str) (m : URLMeta) (ts : List (Tree NodeData)) (cs : List ProcCall), (structs md5 hist)[i]? = some s →
        rs[i]? = some ((m, ts), cs) →
        (∃ p, ps[i]? = some (m, p) ∧ (cs.filter (fun c => !c.inner)).map ProcCall.tree = p.map Pass.before) ∧
        1 ≤ ts.length ∧ ts.length ≤ (different (ofStruct md5 s hist)).length ∧
        (cs.filter (fun c => !c.inner)).length ≤ 2 * ts.length - 1 ∧
        (cs.filter (fun c => c.inner)).length ≤ 6 * (m.depth + 1) * ((different (ofStruct md5 s hist)).length * ts.length) ∧
        (cs.map (fun c => c.tree.paths.length)).sum ≤ (different (ofStruct md5 s hist)).length * ts.length +
          3 * (m.depth + 1) * ((different (ofStruct md5 s hist)).length * ((different (ofStruct md5 s hist)).length * ts.length)) := by
  obtain ⟨rs, h1, h2, h3, h4⟩ := calls_all md5 hm hc hh
  refine ⟨_, _, h1, h2, by rw [← h3, List.length_map, List.length_map], by rw [List.length_map, List.length_map], ?_⟩
  intro i s m ts cs hs hr
  rw [← h3, List.getElem?_map] at hs
  rw [List.getElem?_map] at hr ⊢
  cases hi : rs[i]? with
  | none => rw [hi] at hs; simp at hs
  | some r =>
    rw [hi] at hs hr
    simp only [Option.map_some, Option.some.injEq] at hs hr ⊢
    obtain ⟨hK, ho⟩ := h4 r (List.mem_of_getElem? hi)
    rw [hs, hr] at hK
    rw [hr] at ho ⊢
    exact ⟨⟨r.2.2, rfl, ho⟩, hK.some, hK.clusters, hK.outer, hK.inner, hK.size⟩

/-- **C85**: nothing is missing from the list, whatever was loaded: for every structure it consists of the calls of C78, each followed by the
calls made inside it. -/
theorem C85_listed (h : Runtime) (mcn : Int) (st : PatternMakerSt) (rs : List ((URLMeta × List (Tree NodeData)) × List ProcCall))
    (hr : PatternMakerSt.makeC h mcn st = .ok rs) :
    ∃ ps, PatternMakerSt.passes h mcn st = .ok ps ∧ ps.length = rs.length ∧
      ∀ (i : Nat) (m : URLMeta) (ts : List (Tree NodeData)) (cs : List ProcCall), rs[i]? = some ((m, ts), cs) →
        ∃ p, ps[i]? = some (m, p) ∧ Nested h (clusterNestC h 1 true) false mcn m false p cs := by
  unfold PatternMakerSt.makeC at hr
  unfold PatternMakerSt.passes
  induction st generalizing rs with
  | nil =>
    rw [List.mapM_nil] at hr
    injection hr with hr
    subst hr
    exact ⟨[], rfl, rfl, by simp⟩
  | cons kv st ih =>
    rw [List.mapM_cons] at hr ⊢
    obtain ⟨a, ha, hr⟩ := bind_ok hr
    obtain ⟨b, hb, hr⟩ := bind_ok hr
    injection hr with hr
    subst hr
    obtain ⟨q, hq, ha⟩ := bind_ok ha
    injection ha with ha
    subst ha
    obtain ⟨ts, cs⟩ := q
    obtain ⟨ps, e1, e2, e3⟩ := ih b hb
    obtain ⟨p, e4, e5⟩ := passes_nested (fun mcn m kw t => clusterNestC_dr h 1 true mcn m kw t) 0 hq
    refine ⟨(kv.2.urlMeta, p) :: ps, ?_, by simp [e2], ?_⟩
    · have e6 : kv.2.passes h mcn = .ok p := e4
      simp only [bind, Except.bind, pure, Except.pure, e6] at e1 ⊢
      rw [e1]
    · intro i m ts' cs' hi
      cases i with
      | zero =>
        simp only [List.getElem?_cons_zero, Option.some.injEq, Prod.mk.injEq] at hi ⊢
        obtain ⟨⟨rfl, rfl⟩, rfl⟩ := hi
        exact ⟨p, ⟨rfl, rfl⟩, e5⟩
      | succ i =>
        simp only [List.getElem?_cons_succ] at hi ⊢
        exact e3 i m ts' cs' hi

/-- **C85**: the calls made inside one call of `process`, for every nested clustering and every tree.  When `process` succeeds there is a list of
trees it asks the nested clustering for.  Only these matter: a nested clustering that agrees on them gives the same result; all of them matter: one
that fails on one of them and is otherwise the same makes `process` fail; and the calls inside `process` are those of the nested clustering for
these trees, in this order. -/
theorem C85_asked (h : Runtime) (nested : NestedCluster) (mcn : Int) (m : URLMeta) (kw : Bool) (t : Tree NodeData) (r : Tree NodeData × Bool)
    (hr : process h nested mcn m kw t = .ok r) :
    ∃ cs, processC h (asked nested) mcn m kw t = .ok (r, cs) ∧
      (∀ nested' : NestedCluster, (∀ c ∈ cs, ∀ a m' k, nested' a m' k c.tree = nested a m' k c.tree) → process h nested' mcn m kw t = .ok r) ∧
      (∀ c ∈ cs, ∀ nested' : NestedCluster, (∀ a m' k t', t' ≠ c.tree → nested' a m' k t' = nested a m' k t') →
        (∀ a m' k, ∃ e, nested' a m' k c.tree = .error e) → ∃ e, process h nested' mcn m kw t = .error e) ∧
      (∀ nc : NestedCalls, (∀ a m' k t', Except.map Prod.fst (nc a m' k t') = nested a m' k t') →
        ∃ ls, processC h nc mcn m kw t = .ok (r, ls.flatten) ∧ Answered nc cs ls) := by
  have hdr : ∀ n : NestedCluster, ∀ a m' k t', Dr (asked n a m' k t') (n a m' k t') := by
    intro n a m' k t'
    unfold Dr asked
    cases n a m' k t' <;> rfl
  have h1 := processC_dr (hdr nested) h mcn m kw t
  unfold Dr at h1
  rw [hr] at h1
  cases hp : processC h (asked nested) mcn m kw t with
  | error e => rw [hp] at h1; cases h1
  | ok q =>
    obtain ⟨r', cs⟩ := q
    rw [hp] at h1
    obtain rfl : r' = r := Except.ok.inj h1
    -- agreeing means that the answers differ only by failing
    have hagree : ∀ n' : NestedCluster, (∀ c ∈ cs, ∀ a m' k, n' a m' k c.tree = nested a m' k c.tree ∨ ∃ e, n' a m' k c.tree = .error e) →
        Agrees nested (asked n') cs := by
      intro n' hn c hc a m' k
      unfold asked
      rcases hn c hc a m' k with he | ⟨e, he⟩
      · cases hx : nested a m' k c.tree with
        | error e => exact .inl ⟨e, by rw [he, hx]; rfl⟩
        | ok x => exact .inr ⟨x, _, by rw [he, hx]; rfl, rfl⟩
      · exact .inl ⟨e, by rw [he]; rfl⟩
    have hdrop : ∀ n' : NestedCluster, Except.map Prod.fst (processC h (asked n') mcn m kw t) = process h n' mcn m kw t :=
      fun n' => processC_dr (hdr n') h mcn m kw t
    refine ⟨cs, rfl, ?_, ?_, ?_⟩
    · intro n' hn
      rcases process_asked hp (hagree n' (fun c hc a m' k => .inl (hn c hc a m' k))) with ⟨ls, e, -⟩ | ⟨-, c, hc, a, m', k, e, x, he, hx⟩
      · rw [← hdrop, e]; rfl
      · unfold asked at he
        rw [hn c hc, hx] at he
        cases he
    · intro c hc n' hn hf
      have hag : Agrees nested (asked n') cs := hagree n' (fun d _ a m' k => by
        by_cases hd : d.tree = c.tree
        · rw [hd]; exact .inr (hf a m' k)
        · exact .inl (hn a m' k _ hd))
      rcases process_asked hp hag with ⟨ls, -, hl⟩ | ⟨⟨e, he⟩, -⟩
      · obtain ⟨a, m', k, x, l, hx⟩ := hl.mem c hc
        obtain ⟨e, he⟩ := hf a m' k
        unfold asked at hx
        rw [he] at hx
        cases hx
      · exact ⟨e, by rw [← hdrop, he]; rfl⟩
    · intro nc hnc
      have hag : Agrees nested nc cs := by
        intro c _ a m' k
        rw [← hnc]
        cases nc a m' k c.tree with
        | error e => exact .inl ⟨e, rfl⟩
        | ok x => exact .inr ⟨x.1, x.2, rfl, rfl⟩
      rcases process_asked hp hag with hl | ⟨-, c, hc, a, m', k, e, x, he, hx⟩
      · exact hl
      · rw [← hnc, he] at hx
        cases hx

/-- **C85**: the same one level deeper: the calls of a nested clustering are its own calls, each followed by those made inside it. -/
theorem C85_inner (h : Runtime) (k : Nat) (inner : Bool) (mcn : Int) (m : URLMeta) (kw : Bool) (t : Tree NodeData) (ts : List (Tree NodeData))
    (cs : List ProcCall) (hr : clusterNestC h (k + 1) inner mcn m kw t = .ok (ts, cs)) :
    ∃ ps, passesWith (clusterNest h k) h mcn m kw (t.paths.length + 1) 0 t = .ok ps ∧ Nested h (clusterNestC h k true) inner mcn m kw ps cs :=
  passes_nested (fun mcn m kw t => clusterNestC_dr h k true mcn m kw t) 0 hr

/-- Six URLs of two structures. -/
def loads85 : List (Str × Option Str) := [(c!"http://h/a.x", none), (c!"http://h/b.x", none), (c!"http://h/c.y", none), (c!"http://h/d.y", none),
  (c!"http://h/ab1.x", none), (c!"http://h/ab2.y", none)]

/-- The first structure: three calls by `make`, and inside the first of them three more, because the part after the dot differs;
one inside each of the other two. -/
example : (PatternMakerSt.makeC codeHash 2 (loadAll id loads85)).map (fun rs => rs.map (fun r => (r.1.2.length, r.2.map (fun c =>
      (c.inner, c.tree.paths.length))))) =
    .ok [(2, [(false, 4), (true, 4), (true, 2), (true, 2), (false, 2), (true, 2), (false, 2), (true, 2)]), (1, [(false, 2), (true, 2)])] := by
  decide +kernel
/-- What the inner calls are given: the parts of the last piece. -/
example : (PatternMakerSt.makeC codeHash 2 (loadAll id loads85)).map (fun rs => rs.map (fun r => (r.2.filter (fun c => c.inner)).map (fun c =>
      c.tree.paths.map (fun p => p.map (·.1))))) =
    .ok [[[[c!"a", c!"[\\.]", c!"x"], [c!"b", c!"[\\.]", c!"x"], [c!"c", c!"[\\.]", c!"y"], [c!"d", c!"[\\.]", c!"y"]], [[c!"a", c!"[\\.]", c!"x"], [c!"b", c!"[\\.]", c!"x"]], [[c!"c", c!"[\\.]", c!"y"], [c!"d", c!"[\\.]", c!"y"]],
      [[c!"a", c!"[\\.]", c!"x"], [c!"b", c!"[\\.]", c!"x"]], [[c!"c", c!"[\\.]", c!"y"], [c!"d", c!"[\\.]", c!"y"]]], [[[c!"ab", c!"1", c!"[\\.]", c!"x"], [c!"ab", c!"2", c!"[\\.]", c!"y"]]]] := by
  decide +kernel
example : (structs id loads85).map (fun s => (different (ofStruct id s loads85)).length) = [4, 2] := by decide +kernel
example : NoCollision id (accepted loads85) ∧ NoHashClash codeHash (UrlRow loads85) := ⟨id_ok _, codeHash_ok _⟩
/-- What the first call asks for: one tree, whose clustering makes the three inner calls above. -/
example : (structs id loads85).length = 2 ∧ ((loadAll id loads85).map (fun kv => (processC codeHash (asked (clusterNest codeHash 1)) 2 kv.2.urlMeta false kv.2.tree).map (fun r =>
      r.2.map (fun c => c.tree.paths.map (fun p => p.map (·.1)))))) =
    [.ok [[[c!"a", c!"[\\.]", c!"x"], [c!"b", c!"[\\.]", c!"x"], [c!"c", c!"[\\.]", c!"y"], [c!"d", c!"[\\.]", c!"y"]]],
      .ok [[[c!"ab", c!"1", c!"[\\.]", c!"x"], [c!"ab", c!"2", c!"[\\.]", c!"y"]]]] := by
  decide +kernel
/-- With a larger `min_cluster_num` the pieces are too few, and no stage calls `process`. -/
example : (PatternMakerSt.makeC codeHash 5 (loadAll id loads85)).map (fun rs => rs.map (fun r => (r.1.2.length, r.2.map (fun c =>
      (c.inner, c.tree.paths.length))))) =
    .ok [(4, [(false, 4), (false, 1), (false, 1), (false, 1), (false, 1)]), (2, [(false, 2), (false, 1), (false, 1)])] := by
  decide +kernel

end OsUrl
