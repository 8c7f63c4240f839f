import Verif.Proofs.Passes
import Verif.Spec.Passes
import Verif.Props.C27
import Verif.Props.C77

/-! # C78: how many rounds the clustering takes, and how much it prints -/

namespace OsUrl
open Spec

theorem mapM_except_map {α β γ : Type} {f : α → Py β} {g : α → Py γ} {k : β → γ} (h : ∀ a, g a = (f a).map k) :
    ∀ l : List α, l.mapM g = (l.mapM f).map (List.map k) := by
  intro l
  induction l with
  | nil => rfl
  | cons a l ih =>
    rw [List.mapM_cons, List.mapM_cons, h a, ih]
    simp only [bind, Except.bind, pure, Except.pure]
    cases f a with
    | error e => rfl
    | ok b =>
      simp only [Except.map]
      cases l.mapM f with
      | error e => rfl
      | ok c => rfl

/-- **C78**: whatever was loaded and whatever `min_cluster_num` is: the clusters are the trees of the calls of `process`
that return False, in this order; and `make()` raises exactly when one of the calls does. -/
theorem C78_yields (h : Runtime) (mcn : Int) (st : PatternMakerSt) :
    PatternMakerSt.make h mcn st = (PatternMakerSt.passes h mcn st).map
      (fun rs => rs.flatMap (fun r => (r.2.filter (fun p => !p.split)).map (fun p => (r.1, p.after)))) := by
  unfold PatternMakerSt.make PatternMakerSt.passes
  have key := mapM_except_map (f := fun kv : Str × MakerSt => do return (kv.2.urlMeta, ← kv.2.passes h mcn))
    (g := fun kv : Str × MakerSt => do
      let ts ← kv.2.make h mcn
      return ts.map (fun t => (kv.2.urlMeta, t)))
    (k := fun r : URLMeta × List Pass => (r.2.filter (fun p => !p.split)).map (fun p => (r.1, p.after))) (by
      intro kv
      have e : kv.2.make h mcn = (kv.2.passes h mcn).map (fun ps => (ps.filter (fun p => !p.split)).map Pass.after) :=
        passes_erase h _ 0 _
      rw [e]
      simp only [bind, Except.bind, pure, Except.pure]
      cases kv.2.passes h mcn with
      | error e => rfl
      | ok ps => simp [Except.map]) st
  rw [key]
  generalize List.mapM (m := Except PyErr) (fun kv : Str × MakerSt => do return (kv.2.urlMeta, ← kv.2.passes h mcn)) st = x
  cases x with
  | error e => rfl
  | ok rs => simp [Except.map, List.flatMap_def, bind, Except.bind, pure, Except.pure]

/-- **C78**: the list of calls is complete and has nothing else, whatever was loaded: see `Listed`. -/
theorem C78_listed (h : Runtime) (mcn : Int) (st : PatternMakerSt) (rs : List (URLMeta × List Pass))
    (hr : PatternMakerSt.passes h mcn st = .ok rs) :
    rs.length = st.length ∧ ∀ (i : Nat) (s : Str) (mk : MakerSt) (m : URLMeta) (ps : List Pass), st[i]? = some (s, mk) → rs[i]? = some (m, ps) →
      m = mk.urlMeta ∧ ((mk.tree.root.count ≤ 0 ∧ ps = []) ∨
        (0 < mk.tree.root.count ∧ Listed h (clusterNest h 1) mcn mk.urlMeta false 0 mk.tree ps)) := by
  unfold PatternMakerSt.passes at hr
  induction st generalizing rs with
  | nil =>
    rw [List.mapM_nil] at hr
    injection hr with hr
    subst hr
    simp
  | cons kv st ih =>
    rw [List.mapM_cons] at hr
    simp only [bind, Except.bind, pure, Except.pure] at hr ih
    cases hp : kv.2.passes h mcn with
    | error e => rw [hp] at hr; cases hr
    | ok ps0 =>
      rw [hp] at hr
      simp only at hr
      generalize hx : List.mapM (m := Except PyErr) _ st = x at hr
      cases x with
      | error e => cases hr
      | ok rs' =>
        simp only at hr
        injection hr with hr
        subst hr
        obtain ⟨a, b⟩ := ih rs' hx
        refine ⟨by simp [a], ?_⟩
        intro i s mk m ps h1 h2
        cases i with
        | zero =>
          simp only [List.getElem?_cons_zero, Option.some.injEq] at h1 h2
          injection h2 with h2 h3
          subst h1; subst h2; subst h3
          exact ⟨rfl, passes_listed h _ 0 _ _ hp⟩
        | succ i =>
          simp only [List.getElem?_cons_succ] at h1 h2
          exact b i s mk m ps h1 h2

theorem passes_group {h : Runtime} {mcn : Int} (hm : 2 ≤ mcn) {hist : List (Str × Option Str)} (hh : NoHashClash h (UrlRow hist)) {g : List Rec}
    {m : URLMeta} {rules : List Str} (hne : g ≠ []) (hg : ∀ r ∈ g, r ∈ accepted hist) (hall : ∀ r ∈ g, r.m = m ∧ r.rules = rules) :
    ∃ ps, MakerSt.passes h mcn ⟨m, growTree m.depth (insOf g)⟩ = .ok ps ∧ PassOK (uniq (g.map Rec.keys)).length 0 ps := by
  obtain ⟨r0, hr0⟩ := List.exists_mem_of_ne_nil _ hne
  obtain ⟨n, hn⟩ : ∃ n, m.depth = n + 1 := ⟨m.depth - 1, by
    have := (accepted_depth (hg r0 hr0)).2; rw [(hall r0 hr0).1] at this; omega⟩
  obtain ⟨hok, hrow⟩ := rows_ok hh hne hg hall
  have hlen : ∀ i ∈ insOf g, i.path.length = m.depth := insOf_length (fun r hr => by rw [(accepted_depth (hg r hr)).1, (hall r hr).1])
  have hN : Normal m.depth (norm (insOf g)) := norm_normal hlen
  have hins : insOf g ≠ [] := by
    intro e
    have := insOf_keys g
    rw [e] at this
    have h2 := congrArg List.length this
    simp at h2
    exact hne (List.eq_nil_of_length_eq_zero h2.symm)
  have hne' := norm_ne_nil hins
  have hlp : (growTree m.depth (insOf g)).paths.length = (norm (insOf g)).length := by
    rw [hn] at hlen hN ⊢
    rw [← growTree_norm n (insOf g) hlen, paths_growTree hne', growPaths_count hN hne']
  have hs := hashSep_of (kw := false) hm hh hok hrow
  rw [hn] at hN hok hs
  obtain ⟨ps, h1, h2⟩ := passes_spec h (top_level_ok (h := h) hm m false (n + 1)) hm hn ((norm (insOf g)).length + 1) 0 (norm (insOf g)) hN hok hne'
    (by omega) (by rw [norm_bare]; exact hs)
  refine ⟨ps, ?_, ?_⟩
  · unfold MakerSt.passes
    simp only
    rw [hlp, hn, ← h1]
    rw [hn] at hlen
    rw [growTree_norm n (insOf g) hlen]
  · have : (norm (insOf g)).length = (uniq (g.map Rec.keys)).length := by
      rw [← List.length_map (f := Ins.keys), norm_keys, insOf_keys]
    rwa [this] at h2

theorem accepted_read (H : List (Str × Option Str)) : H.filterMap (fun um => readAs um.1) = (accepted H).map (fun r => (r.m, r.keys)) := by
  induction H with
  | nil => rfl
  | cons um H ih =>
    obtain ⟨u, md⟩ := um
    rw [List.filterMap_cons]
    unfold accepted readAs
    cases parse u with
    | error e => exact ih
    | ok r =>
      obtain ⟨m, p⟩ := r
      cases p with
      | pieces pps => simp only [List.map_cons]; rw [← ih]; rfl
      | patterns ps => exact ih

theorem different_group {m : URLMeta} {g : List Rec} (hall : ∀ r ∈ g, r.m = m) :
    (uniq (g.map (fun r => (r.m, r.keys)))).length = (uniq (g.map Rec.keys)).length := by
  have e : g.map (fun r => (r.m, r.keys)) = (g.map Rec.keys).map (fun k => (m, k)) := by
    rw [List.map_map]
    exact List.map_congr_left (fun r hr => by rw [hall r hr]; rfl)
  rw [e, uniq_map_of_inj (f := fun k => (m, k)) (fun a _ b _ h => (Prod.mk.inj h).2), List.length_map]

/-- The calls of all sub-makers. -/
theorem passes_all (md5 : Str → Str) {h : Runtime} {mcn : Int} (hm : 2 ≤ mcn) {hist : List (Str × Option Str)}
    (hc : NoCollision md5 (accepted hist)) (hh : NoHashClash h (UrlRow hist)) :
    ∃ rs : List (Str × URLMeta × List Pass), PatternMakerSt.passes h mcn (loadAll md5 hist) = .ok (rs.map (·.2)) ∧ rs.map (·.1) = structs md5 hist ∧
      ∀ r ∈ rs, PassOK (different (ofStruct md5 r.1 hist)).length 0 r.2.2 := by
  have key : ∀ kg ∈ groupBy (Rec.sid md5) (accepted hist), ∃ r : URLMeta × List Pass,
      ((makerOf kg.2).passes h mcn >>= fun ps => pure ((makerOf kg.2).urlMeta, ps)) = .ok r ∧
      PassOK (different (ofStruct md5 kg.1 hist)).length 0 r.2 := by
    rintro ⟨k, g⟩ hkg
    have hne := groupBy_ne_nil hkg
    obtain ⟨-, hgf⟩ := mem_groupBy hkg
    have hg : ∀ r ∈ g, r ∈ accepted hist := fun r hr => by rw [hgf] at hr; exact (List.mem_filter.mp hr).1
    have hsid : ∀ r ∈ g, r.sid md5 = k := fun r hr => by
      rw [hgf] at hr; exact of_decide_eq_true (List.mem_filter.mp hr).2
    have hdiff : different (ofStruct md5 k hist) = uniq (g.map (fun r => (r.m, r.keys))) := by
      rw [different, accepted_read, accepted_ofStruct, ← hgf, firsts_eq_uniq]
    obtain ⟨r, g', rfl⟩ := List.exists_cons_of_ne_nil hne
    have hall : ∀ r' ∈ r :: g', r'.m = r.m ∧ r'.rules = r.rules := fun r' hr' =>
      (sid_eq_iff hc (hg r' hr') (hg r (by simp))).mp ((hsid r' hr').trans (hsid r (by simp)).symm)
    obtain ⟨ps, h1, h2⟩ := passes_group hm hh hne hg hall
    refine ⟨(r.m, ps), ?_, ?_⟩
    · simp only [makerOf, bind, Except.bind, pure, Except.pure]
      rw [h1]
    · simp only
      rw [hdiff, different_group (fun r' hr' => (hall r' hr').1)]
      exact h2
  obtain ⟨ps, e1, e2, e3⟩ := mapM_pairs (r := fun r : URLMeta × List Pass => r) key
  refine ⟨ps.map (fun p => (p.1.1, p.2)), ?_, ?_, ?_⟩
  · unfold PatternMakerSt.passes
    rw [loadAll_eq md5 hist hc, List.mapM_map, List.map_map]
    exact e2
  · rw [structs_eq, ← e1, List.map_map, List.map_map]; rfl
  · intro r hr
    obtain ⟨p, hp, rfl⟩ := List.mem_map.mp hr
    exact e3 p hp

theorem pass_split_length (ps : List Pass) : ps.length = (ps.filter (fun p => p.split)).length + (ps.filter (fun p => !p.split)).length := by
  induction ps with
  | nil => rfl
  | cons p ps ih =>
    rw [List.filter_cons, List.filter_cons]
    cases p.split <;> simp <;> omega

/-- **C78**: the calls of `process`, structure by structure.  With `k` clusters and `N` different URLs there are at most `2k - 1` calls,
at most `k` generators run inside each other, the calls see at most `N * k` URLs together, and `k` is at most `N`. -/
theorem C78_calls (md5 : Str → Str) (h : Runtime) (mcn : Int) (hm : 2 ≤ mcn) (hist : List (Str × Option Str))
    (hc : NoCollision md5 (accepted hist)) (hh : NoHashClash h (UrlRow hist)) :
    ∃ rs, PatternMakerSt.passes h mcn (loadAll md5 hist) = .ok rs ∧ rs.length = (structs md5 hist).length ∧
      ∀ (i : Nat) (s : Str) (m : URLMeta) (ps : List Pass), (structs md5 hist)[i]? = some s → rs[i]? = some (m, ps) → ∃ k, k = (ps.filter (fun p => !p.split)).length ∧
        1 ≤ k ∧ k ≤ (different (ofStruct md5 s hist)).length ∧ ps.length ≤ 2 * k - 1 ∧ (∀ p ∈ ps, p.depth < k) ∧
        (ps.map (fun p => p.before.paths.length)).sum ≤ (different (ofStruct md5 s hist)).length * k := by
  obtain ⟨rs, h1, h2, h3⟩ := passes_all md5 hm hc hh
  refine ⟨_, h1, by rw [← h2, List.length_map, List.length_map], ?_⟩
  intro i s m ps hs hp
  rw [← h2, List.getElem?_map] at hs
  rw [List.getElem?_map] at hp
  cases hr : rs[i]? with
  | none => rw [hr] at hs; simp at hs
  | some r =>
    rw [hr] at hs hp
    simp only [Option.map_some, Option.some.injEq] at hs hp
    have hK := h3 r (List.mem_of_getElem? hr)
    rw [hs, hp] at hK
    simp only at hK
    refine ⟨_, rfl, ?_, hK.clusters, ?_, fun p hp => by simpa using (hK.depth p hp).2, hK.work⟩
    · exact List.length_pos_iff.mpr hK.some
    · have := hK.few
      have := pass_split_length ps
      omega

/-- **C78**: for a structure with `k` clusters `k` generators `cluster` inside each other are enough: with a call stack that has
room for `k` of them there is no `RecursionError`. -/
theorem C78_nesting (md5 : Str → Str) (h : Runtime) (mcn : Int) (hm : 2 ≤ mcn) (hist : List (Str × Option Str))
    (hc : NoCollision md5 (accepted hist)) (hh : NoHashClash h (UrlRow hist)) :
    ∀ s mk, (s, mk) ∈ loadAll md5 hist → ∃ cs, mk.make h mcn = .ok cs ∧
      clusterWith (clusterNest h 1) h mcn mk.urlMeta false cs.length mk.tree = .ok cs := by
  intro s mk hk
  obtain ⟨rs, h1, h2, h3⟩ := passes_all md5 hm hc hh
  have hp : ∃ r ∈ rs, mk.passes h mcn = .ok r.2.2 := by
    clear h2 h3
    revert h1
    generalize loadAll md5 hist = st at hk
    unfold PatternMakerSt.passes
    induction st generalizing rs with
    | nil => simp at hk
    | cons kv st ih =>
      intro h1
      rw [List.mapM_cons] at h1
      simp only [bind, Except.bind, pure, Except.pure] at h1 ih
      cases hp : kv.2.passes h mcn with
      | error e => rw [hp] at h1; cases h1
      | ok ps0 =>
        rw [hp] at h1
        simp only at h1
        generalize hx : List.mapM (m := Except PyErr) _ st = x at h1
        cases x with
        | error e => cases h1
        | ok rs' =>
          simp only at h1
          injection h1 with h1
          cases rs with
          | nil => cases h1
          | cons r rs =>
            rw [List.map_cons] at h1
            injection h1 with e1 e2
            rw [List.mem_cons] at hk
            rcases hk with hk | hk
            · refine ⟨r, by simp, ?_⟩
              rw [← e1]
              rw [← hk] at hp
              exact hp
            · obtain ⟨r', hr', e⟩ := ih rs hk (by rw [hx, e2])
              exact ⟨r', by simp [hr'], e⟩
  obtain ⟨r, hr, hp⟩ := hp
  have hK := h3 r hr
  have e : mk.make h mcn = (mk.passes h mcn).map (fun ps => (ps.filter (fun p => !p.split)).map Pass.after) :=
    passes_erase h _ 0 _
  rw [hp] at e
  refine ⟨_, e, ?_⟩
  rw [passes_erase h _ 0, List.length_map]
  rw [passes_fuel h _ _ 0 mk.tree r.2.2 hp (fun p hp => by simpa using (hK.depth p hp).2)]
  rfl

theorem sum_le_sum_mem {α : Type} {f g : α → Nat} : ∀ {l : List α}, (∀ a ∈ l, f a ≤ g a) → (l.map f).sum ≤ (l.map g).sum
  | [], _ => Nat.le_refl _
  | a :: l, h => by
    simp only [List.map_cons, List.sum_cons]
    have := sum_le_sum_mem (l := l) (fun a ha => h a (by simp [ha]))
    have := h a (by simp)
    omega

theorem sum_ones {α : Type} (l : List α) : (l.map (fun _ => 1)).sum = l.length := by
  induction l with
  | nil => rfl
  | cons a l ih => simp only [List.map_cons, List.sum_cons, List.length_cons]; omega

/-- **C78**: all structures together: the calls of `process` and the structures are at most twice the clusters. -/
theorem C78_total (md5 : Str → Str) (h : Runtime) (mcn : Int) (hm : 2 ≤ mcn) (hist : List (Str × Option Str))
    (hc : NoCollision md5 (accepted hist)) (hh : NoHashClash h (UrlRow hist)) :
    ∃ rs cs, PatternMakerSt.passes h mcn (loadAll md5 hist) = .ok rs ∧ PatternMakerSt.make h mcn (loadAll md5 hist) = .ok cs ∧
      (rs.flatMap (·.2)).length + (structs md5 hist).length ≤ 2 * cs.length ∧ (structs md5 hist).length ≤ cs.length := by
  obtain ⟨rs, h1, h2, h3⟩ := passes_all md5 hm hc hh
  have hy := C78_yields h mcn (loadAll md5 hist)
  rw [h1] at hy
  refine ⟨_, _, h1, hy, ?_⟩
  rw [← h2]
  clear h1 h2 hy
  induction rs with
  | nil => simp
  | cons r rs ih =>
    obtain ⟨a, b⟩ := ih (fun r hr => h3 r (by simp [hr]))
    have hK := h3 r (by simp)
    have h4 := hK.few
    have h5 := pass_split_length r.2.2
    simp only [List.map_cons, List.flatMap_cons, List.length_append, List.length_cons, List.length_map] at a b ⊢
    omega

/-- **C78**: the number of clusters: those with one URL, and those with more, of which each needs `min_cluster_num` URLs,
do not exceed the number of different URLs. -/
theorem C78_size (md5 : Str → Str) (h : Runtime) (mcn : Int) (hm : 2 ≤ mcn) (hist : List (Str × Option Str))
    (hc : NoCollision md5 (accepted hist)) (hh : NoHashClash h (UrlRow hist)) :
    ∃ cs, PatternMakerSt.make h mcn (loadAll md5 hist) = .ok cs ∧ cs.length ≤ (different hist).length ∧
      ((cs.filter (fun c => decide (c.2.paths.length = 1))).length : Int) + mcn * (cs.filter (fun c => decide (c.2.paths.length ≠ 1))).length
        ≤ (different hist).length := by
  obtain ⟨cs, h1, h2, h3, h4⟩ := C24_partition md5 h mcn hm hist hc hh
  obtain ⟨cs', h5, h6⟩ := C27_size md5 h mcn hm hist hc hh
  rw [h1] at h5
  injection h5 with h5
  subst h5
  have hlen : (different hist).length = (cs.map (fun c => c.2.paths.length)).sum := by
    have hp : (different hist).Perm (cs.flatMap (fun c => c.2.paths.map (fun p => (c.1, p.map (·.1))))) := by
      rw [List.perm_ext_iff_of_nodup (by rw [different, firsts_eq_uniq]; exact nodup_uniq _) h2]
      rintro ⟨m, ks⟩
      rw [h3, different, firsts_eq_uniq, mem_uniq, List.mem_filterMap]
      constructor
      · rintro ⟨⟨u, md⟩, hu, e⟩
        unfold readAs at e
        split at e
        · rename_i m' pps hp
          injection e with e
          injection e with e4 e5
          subst e4; subst e5
          exact ⟨u, md, pps, hu, hp, rfl⟩
        · cases e
      · rintro ⟨u, md, pps, hu, hp, rfl⟩
        exact ⟨(u, md), hu, by unfold readAs; rw [hp]⟩
    rw [hp.length_eq, List.length_flatMap]
    simp
  refine ⟨cs, h1, ?_, ?_⟩
  · rw [hlen]
    have := sum_le_sum_mem (l := cs) (f := fun _ => 1) (g := fun c => c.2.paths.length)
      (fun c hc => List.length_pos_iff.mpr (h4 c hc).1)
    rw [sum_ones] at this
    exact this
  · rw [hlen]
    clear h1 h2 h3 hlen
    induction cs with
    | nil => simp
    | cons c cs ih =>
      have h7 := ih (fun c hc => h4 c (by simp [hc])) (fun c hc => h6 c (by simp [hc]))
      have h8 := h6 c (by simp)
      simp only [List.filter_cons, List.map_cons, List.sum_cons, ne_eq] at h7 ⊢
      by_cases h9 : c.2.paths.length = 1
      · simp only [h9, decide_true, if_true, not_true_eq_false, decide_false, Bool.false_eq_true, if_false, List.length_cons]
        omega
      · have h10 : mcn ≤ c.2.paths.length := by
          rcases h8 with ⟨p, hp, -⟩ | h8
          · exact absurd (by rw [hp]; rfl) h9
          · exact h8
        simp only [h9, decide_true, if_true, not_false_eq_true, decide_false, Bool.false_eq_true, if_false, List.length_cons]
        rw [Int.natCast_add, Int.natCast_add, Int.mul_add]
        simp only [Int.natCast_one, Int.mul_one]
        omega

/-- Seven loads, two structures; the second load of a URL only adds a meta. -/
def loads78 : List (Str × Option Str) := [(c!"http://h/b/c", none), (c!"http://h/b/ab", none), (c!"http://h/b/ab", some c!"m"),
  (c!"http://h/ab/ab", none), (c!"http://h/ab/bb", none), (c!"http://h/bb/aa", none), (c!"http://h/b/1", none)]

/-- Three clusters after five calls, three generators inside each other: the bounds are reached. -/
example : (PatternMakerSt.passes codeHash 3 (loadAll id loads78)).map (fun rs => rs.map (fun r => r.2.map (fun p =>
      (p.depth, p.split, p.before.paths.length)))) =
    .ok [[(0, true, 5), (1, false, 1), (1, true, 4), (2, false, 1), (2, false, 3)], [(0, false, 1)]] := by decide +kernel
/-- The patterns after the first call are not those of the clusters. -/
example : (PatternMakerSt.passes codeHash 3 (loadAll id loads78)).map (fun rs => (rs.flatMap (fun r => r.2)).map (fun p =>
      p.after.paths.map (fun q => q.map (fun kn => kn.2.pattern)))) =
    .ok [[[c!"[a-z]+", c!"c"], [c!"[a-z]+", c!"[a-z]{2}"], [c!"[a-z]+", c!"[a-z]{2}"], [c!"[a-z]+", c!"[a-z]{2}"], [c!"[a-z]+", c!"[a-z]{2}"]],
      [[c!"b", c!"c"]],
      [[c!"b", c!"ab"], [c!"[a-z]{2}", c!"[a-z]{2}"], [c!"[a-z]{2}", c!"[a-z]{2}"], [c!"[a-z]{2}", c!"[a-z]{2}"]],
      [[c!"b", c!"ab"]], [[c!"[a-z]{2}", c!"[a-z]{2}"], [c!"[a-z]{2}", c!"[a-z]{2}"], [c!"[a-z]{2}", c!"[a-z]{2}"]], [[c!"b", c!"1"]]] := by decide +kernel
example : (structs id loads78).length = 2 ∧ (different loads78).length = 6 ∧
    ((structs id loads78).map (fun s => (different (ofStruct id s loads78)).length)) = [5, 1] := by decide +kernel
example : NoCollision id (accepted loads78) ∧ NoHashClash codeHash (UrlRow loads78) := ⟨id_ok _, codeHash_ok _⟩
/-- Two generators are not enough for the first structure, three are. -/
example : (loadAll id loads78).map (fun kv => [2, 3].map (fun k =>
      (clusterWith (clusterNest codeHash 1) codeHash 3 kv.2.urlMeta false k kv.2.tree).map List.length)) =
    [[.error .recursionError, .ok 3], [.ok 1, .ok 1]] := by decide +kernel
/-- Nothing loaded: nothing called. -/
example : (PatternMakerSt.passes codeHash 3 (loadAll id [])).map List.length = .ok 0 := by decide +kernel

end OsUrl
