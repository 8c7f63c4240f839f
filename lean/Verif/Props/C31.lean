import Verif.Proofs.Make2
import Verif.Proofs.Unpat
import Verif.Proofs.Witness

/-! # C31: `make()` again -/

namespace OsUrl
open Spec

theorem paths_unpat_length : (f : Forest NodeData) → f.unpat.paths.length = f.paths.length
  | .nil => rfl
  | .cons k d .nil sibs => by
    simp only [Forest.unpat, Forest.paths, List.length_append, paths_unpat_length sibs]
    rfl
  | .cons k d (.cons k' d' kids' sibs') sibs => by
    have h1 := paths_unpat_length (.cons k' d' kids' sibs')
    have h2 := paths_unpat_length sibs
    rw [Forest.unpat] at h1
    simp only [Forest.unpat, Forest.paths, List.length_append, List.length_map] at h1 h2 ⊢
    omega

theorem tree_unpat_length (t : Tree NodeData) : t.unpat.paths.length = t.paths.length := by
  obtain ⟨d, f⟩ := t
  cases f with
  | nil => rfl
  | cons k d kids sibs => exact paths_unpat_length (.cons k d kids sibs)

/-- The patterns in the tree do not matter for a sub-maker with loads. -/
theorem maker_unpat {h : Runtime} {mcn : Int} (hm : 2 ≤ mcn) {hist : List (Str × Option Str)} (hh : NoHashClash h (UrlRow hist)) {g : List Rec}
    {m : URLMeta} {rules : List Str} (hne : g ≠ []) (hg : ∀ r ∈ g, r ∈ accepted hist) (hall : ∀ r ∈ g, r.m = m ∧ r.rules = rules)
    {st : MakerSt} (hst : st.unpat = ⟨m, growTree m.depth (insOf g)⟩) :
    st.make h mcn = st.unpat.make h mcn ∧ ∃ st', st.after h mcn = .ok st' ∧ st'.unpat = st.unpat := by
  obtain ⟨r0, hr0⟩ := List.exists_mem_of_ne_nil _ hne
  obtain ⟨n, hn⟩ : ∃ n, m.depth = n + 1 := ⟨m.depth - 1, by
    have := (accepted_depth (hg r0 hr0)).2; rw [(hall r0 hr0).1] at this; omega⟩
  obtain ⟨hok, -⟩ := rows_ok hh hne hg hall
  have hlen : ∀ i ∈ insOf g, i.path.length = m.depth := insOf_length (fun r hr => by rw [(accepted_depth (hg r hr)).1, (hall r hr).1])
  have hins : insOf g ≠ [] := by
    intro e
    have := insOf_keys g
    rw [e] at this
    have h2 := congrArg List.length this
    simp at h2
    exact hne (List.eq_nil_of_length_eq_zero h2.symm)
  have hne' := norm_ne_nil hins
  obtain ⟨m', t⟩ := st
  have hm' : m' = m := congrArg MakerSt.urlMeta hst
  subst hm'
  have ht : t.unpat = growTree (n + 1) (norm (insOf g)) := by
    have := congrArg MakerSt.tree hst
    rw [hn] at hlen this
    rw [growTree_norm n (insOf g) hlen]
    exact this
  rw [hn] at hok
  have hpos : 1 ≤ (growTree (n + 1) (norm (insOf g))).root.count := by
    rw [growTree_count]; exact total_pos hok.pos hne'
  have hpr : process h (clusterNest h 1) mcn m' false t = process h (clusterNest h 1) mcn m' false t.unpat := by
    obtain ⟨A, hA⟩ := grow_back hok.len (f := t.kids) (congrArg Tree.kids ht)
    have hroot : (growTree (n + 1) ((norm (insOf g)).map (Ins.repat A []))).root = (growTree (n + 1) (norm (insOf g))).root := by
      simp only [growTree]
      rw [foldl_act_same _ (Ins.repat A []) (fun x _ => ⟨rfl, rfl, same_path_nil (repat_same _ _ x)⟩)]
    have e : t = rootTree t.root.pat (n + 1) ((norm (insOf g)).map (Ins.repat A [])) := by
      have hr := congrArg Tree.root ht
      obtain ⟨d, f⟩ := t
      simp only at hA hr
      unfold rootTree
      rw [hroot, ← hr, ← hA]
      rfl
    rw [e, process_rootTree hm hn (by rw [hroot]; exact hpos), process_rows (top_level_ok (h := h) hm m' false (n + 1)) hm hn hok hne', ← e, ht]
  have hc : t.unpat.root.count = t.root.count := rfl
  have hl := tree_unpat_length t
  refine ⟨?_, ?_⟩
  · show clusterWith (clusterNest h 1) h mcn m' false (t.paths.length + 1) t =
      clusterWith (clusterNest h 1) h mcn m' false (t.unpat.paths.length + 1) t.unpat
    rw [hl]
    conv => lhs; rw [clusterWith]
    conv => rhs; rw [clusterWith]
    rw [hc, hpr]
  · obtain ⟨f, b, h1, -, -⟩ := process_spec (top_level_ok (h := h) hm m' false (n + 1)) hm hn hok hne'
    have e : (⟨m', t⟩ : MakerSt).after h mcn = .ok ⟨m', doneTree (n + 1) ((norm (insOf g)).map f)⟩ := by
      unfold MakerSt.after
      simp only
      rw [if_neg (by rw [← hc, ht]; omega), hpr, ht, h1]
      rfl
    exact ⟨_, e, makerAfter_unpat e⟩

theorem mapM_same {α β : Type} {f g : α → Py β} {l : List α} (h : ∀ x ∈ l, f x = g x) : l.mapM f = l.mapM g := by
  induction l with
  | nil => rfl
  | cons x xs ih =>
    rw [List.mapM_cons, List.mapM_cons, h x (by simp), ih (fun y hy => h y (by simp [hy]))]

/-- One of the sub-makers that are the loaded ones up to patterns. -/
theorem state_key (md5 : Str → Str) {h : Runtime} {mcn : Int} (hm : 2 ≤ mcn) {hist : List (Str × Option Str)}
    (hc : NoCollision md5 (accepted hist)) (hh : NoHashClash h (UrlRow hist)) {st : PatternMakerSt} (hst : st.unpat = loadAll md5 hist) :
    ∀ kv ∈ st, kv.2.make h mcn = kv.2.unpat.make h mcn ∧ ∃ mk, kv.2.after h mcn = .ok mk ∧ mk.unpat = kv.2.unpat := by
  intro kv hkv
  have h1 : (kv.1, kv.2.unpat) ∈ st.unpat := List.mem_map.mpr ⟨kv, hkv, rfl⟩
  rw [hst, loadAll_eq md5 hist hc] at h1
  obtain ⟨⟨k, g⟩, hkg, e⟩ := List.mem_map.mp h1
  injection e with e1 e2
  have hne := groupBy_ne_nil hkg
  obtain ⟨-, hgf⟩ := mem_groupBy hkg
  have hg : ∀ r ∈ g, r ∈ accepted hist := fun r hr => by rw [hgf] at hr; exact (List.mem_filter.mp hr).1
  have hsid : ∀ r ∈ g, r.sid md5 = k := fun r hr => by
    rw [hgf] at hr; exact of_decide_eq_true (List.mem_filter.mp hr).2
  obtain ⟨r, g', rfl⟩ := List.exists_cons_of_ne_nil hne
  have hall : ∀ r' ∈ r :: g', r'.m = r.m ∧ r'.rules = r.rules := fun r' hr' =>
    (sid_eq_iff hc (hg r' hr') (hg r (by simp))).mp ((hsid r' hr').trans (hsid r (by simp)).symm)
  exact maker_unpat hm hh hne hg hall e2.symm

/-- Sub-makers that are the loaded ones up to patterns. -/
theorem state_unpat (md5 : Str → Str) {h : Runtime} {mcn : Int} (hm : 2 ≤ mcn) {hist : List (Str × Option Str)}
    (hc : NoCollision md5 (accepted hist)) (hh : NoHashClash h (UrlRow hist)) {st : PatternMakerSt} (hst : st.unpat = loadAll md5 hist) :
    st.make h mcn = (loadAll md5 hist).make h mcn ∧ ∃ st', st.after h mcn = .ok st' ∧ st'.unpat = loadAll md5 hist := by
  have key := state_key md5 hm hc hh hst
  refine ⟨?_, ?_⟩
  · rw [← hst]
    unfold PatternMakerSt.make PatternMakerSt.unpat
    rw [List.mapM_map]
    rw [mapM_same (g := (fun kv : Str × MakerSt => do
      let ts ← kv.2.make h mcn
      return ts.map (fun t => (kv.2.urlMeta, t))) ∘ fun kv => (kv.1, kv.2.unpat))]
    intro kv hkv
    simp only [Function.comp_apply]
    rw [(key kv hkv).1]
    rfl
  · rw [← hst]
    clear hst
    unfold PatternMakerSt.after PatternMakerSt.unpat
    induction st with
    | nil => exact ⟨[], rfl, rfl⟩
    | cons kv st ih =>
      obtain ⟨st', e1, e2⟩ := ih (fun kv hkv => key kv (by simp [hkv]))
      obtain ⟨-, mk, e3, e4⟩ := key kv (by simp)
      refine ⟨(kv.1, mk) :: st', ?_, by rw [List.map_cons, List.map_cons, e2, e4]⟩
      rw [List.mapM_cons, e1, e3]
      rfl

/-- A use of the maker: a URL is loaded (a rejected one changes nothing), or `make()` runs to its end. -/
inductive Call where
  | load (url : Str) (md : Option Str)
  | make

/-- The sub-makers after these calls. -/
def runCalls (md5 : Str → Str) (h : Runtime) (mcn : Int) : List Call → PatternMakerSt → Py PatternMakerSt
  | [], st => .ok st
  | .load u md :: cs, st => runCalls md5 h mcn cs (match st.load md5 u md with | .ok (st', _) => st' | .error _ => st)
  | .make :: cs, st => do runCalls md5 h mcn cs (← st.after h mcn)

/-- The loads among the calls. -/
def loadsOf : List Call → List (Str × Option Str)
  | [] => []
  | .load u md :: cs => (u, md) :: loadsOf cs
  | .make :: cs => loadsOf cs

theorem urlRow_mono {hist hist' : List (Str × Option Str)} (hs : ∀ x ∈ hist, x ∈ hist') {h : Runtime} (hh : NoHashClash h (UrlRow hist')) :
    NoHashClash h (UrlRow hist) := by
  have hk : ∀ k, KeyIn (UrlRow hist) k → KeyIn (UrlRow hist') k := by
    rintro k ⟨row, ⟨u, md, m, hu, hp⟩, hrow⟩
    exact ⟨row, ⟨u, md, m, hs _ hu, hp⟩, hrow⟩
  exact fun k k' h1 h2 e => hh k k' (hk k h1) (hk k' h2) e

theorem calls_unpat (md5 : Str → Str) {h : Runtime} {mcn : Int} (hm : 2 ≤ mcn) (calls : List Call) :
    ∀ (hist : List (Str × Option Str)) (st : PatternMakerSt), st.unpat = loadAll md5 hist → NoCollision md5 (accepted (hist ++ loadsOf calls)) →
      NoHashClash h (UrlRow (hist ++ loadsOf calls)) →
      ∃ st', runCalls md5 h mcn calls st = .ok st' ∧ st'.unpat = loadAll md5 (hist ++ loadsOf calls) := by
  induction calls with
  | nil => intro hist st hst _ _; exact ⟨st, rfl, by simpa [loadsOf] using hst⟩
  | cons c calls ih =>
    intro hist st hst hc hh
    cases c with
    | load u md =>
      have e : hist ++ loadsOf (.load u md :: calls) = (hist ++ [(u, md)]) ++ loadsOf calls := by simp [loadsOf]
      rw [e] at hc hh ⊢
      refine ih _ _ ?_ hc hh
      have h1 := load_unpat md5 st u md
      rw [hst] at h1
      rw [loadAll_concat, h1]
      cases st.load md5 u md with
      | error e => exact hst
      | ok r => rfl
    | make =>
      simp only [loadsOf] at hc hh ⊢
      have hc1 : NoCollision md5 (accepted hist) := by rw [accepted_append] at hc; exact hc.of_append
      obtain ⟨-, st', e1, e2⟩ := state_unpat md5 hm hc1 (urlRow_mono (fun x hx => by simp [hx]) hh) hst
      obtain ⟨st2, e3, e4⟩ := ih hist st' e2 hc hh
      exact ⟨st2, by rw [runCalls, e1]; exact e3, e4⟩

theorem loadsOf_map (hist : List (Str × Option Str)) : loadsOf (hist.map (fun x => Call.load x.1 x.2)) = hist := by
  induction hist with
  | nil => rfl
  | cons x xs ih => simp only [List.map_cons, loadsOf, ih]

theorem forestUnpat_idem : (f : Forest NodeData) → f.unpat.unpat = f.unpat
  | .nil => rfl
  | .cons k d kids sibs => by rw [Forest.unpat, Forest.unpat, forestUnpat_idem kids, forestUnpat_idem sibs]; rfl

theorem makerUnpat_idem (st : MakerSt) : st.unpat.unpat = st.unpat := by
  unfold MakerSt.unpat Tree.unpat
  simp only
  rw [forestUnpat_idem]
  rfl

/-- **C31**: a `make()` in between is invisible. After any calls of `load` and `make` the next `make()` yields the same
clusters as after the loads alone, and without the patterns of its nodes the tree of every sub-maker is that of the loads. -/
theorem C31_calls (md5 : Str → Str) (h : Runtime) (mcn : Int) (hm : 2 ≤ mcn) (calls : List Call)
    (hc : NoCollision md5 (accepted (loadsOf calls))) (hh : NoHashClash h (UrlRow (loadsOf calls))) :
    ∃ st cs, runCalls md5 h mcn calls [] = .ok st ∧ (loadAll md5 (loadsOf calls)).make h mcn = .ok cs ∧ st.make h mcn = .ok cs ∧
      st.map (fun kv => (kv.1, kv.2.urlMeta, kv.2.tree.unpat)) = (loadAll md5 (loadsOf calls)).map (fun kv => (kv.1, kv.2.urlMeta, kv.2.tree)) := by
  obtain ⟨st, h1, h2⟩ := calls_unpat md5 hm calls [] [] rfl hc hh
  rw [List.nil_append] at h2
  obtain ⟨Ms, -, h3, -⟩ := make_all md5 hm hc hh
  refine ⟨st, _, h1, h3, ?_, ?_⟩
  · rw [(state_unpat md5 hm hc hh h2).1, h3]
  · rw [← h2]
    unfold PatternMakerSt.unpat
    rw [List.map_map]
    rfl

/-- **C31**, a second `make()`: the same clusters, and only the patterns in the trees have changed. -/
theorem C31_again (md5 : Str → Str) (h : Runtime) (mcn : Int) (hm : 2 ≤ mcn) (hist : List (Str × Option Str))
    (hc : NoCollision md5 (accepted hist)) (hh : NoHashClash h (UrlRow hist)) :
    ∃ st cs, (loadAll md5 hist).after h mcn = .ok st ∧ (loadAll md5 hist).make h mcn = .ok cs ∧ st.make h mcn = .ok cs ∧
      st.map (fun kv => (kv.1, kv.2.urlMeta, kv.2.tree.unpat)) = (loadAll md5 hist).map (fun kv => (kv.1, kv.2.urlMeta, kv.2.tree)) := by
  have e : (loadAll md5 hist).unpat = loadAll md5 hist := by
    obtain ⟨st, h1, h2⟩ := calls_unpat (h := h) md5 hm (hist.map (fun x => Call.load x.1 x.2)) [] [] rfl
      (by rw [List.nil_append]; rw [loadsOf_map]; exact hc) (by rw [List.nil_append]; rw [loadsOf_map]; exact hh)
    rw [List.nil_append, loadsOf_map] at h2
    rw [← h2]
    unfold PatternMakerSt.unpat
    rw [List.map_map]
    exact List.map_congr_left (fun kv _ => by simp only [Function.comp_apply, makerUnpat_idem])
  obtain ⟨h1, st, h2, h3⟩ := state_unpat (h := h) md5 hm hc hh e
  obtain ⟨Ms, -, h4, -⟩ := make_all md5 hm hc hh
  refine ⟨st, _, h2, h4, ?_, ?_⟩
  · rw [(state_unpat md5 hm hc hh h3).1, h4]
  · rw [← h3]
    unfold PatternMakerSt.unpat
    rw [List.map_map]
    rfl

/-- The patterns in the trees after `make()`, loading one more URL and `make()` again; the clusters are those of the three loads. -/
def calls31 : List Call := [.load c!"http://h/a1" none, .load c!"http://h/b2" none, .make, .load c!"http://h/c3" none]

example : (runCalls id codeHash 2 calls31 []).map (fun st => st.flatMap (fun kv => kv.2.tree.paths.flatMap (fun p => p.map (fun kn => kn.2.pat)))) =
    .ok [some c!"[a-z][0-9]", some c!"[a-z][0-9]", none] := by decide +kernel
example : (runCalls id codeHash 3 calls31 []).map (fun st => st.flatMap (fun kv => kv.2.tree.paths.flatMap (fun p => p.map (fun kn => kn.2.pat)))) =
    .ok [some c!"a1", some c!"b2", none] := by decide +kernel
example : (runCalls id codeHash 3 calls31 [] >>= fun st => st.make codeHash 3).map (fun cs => cs.map (fun c => c.2.paths.map (fun p => p.map (fun kn => (kn.1, kn.2.pattern))))) =
    .ok [[[(c!"a1", c!"[a-z][0-9]")], [(c!"b2", c!"[a-z][0-9]")], [(c!"c3", c!"[a-z][0-9]")]]] := by decide +kernel

end OsUrl
