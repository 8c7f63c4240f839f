import Verif.Proofs.Make

/-! All clusters of `PatternMaker.make`. -/

namespace OsUrl
open Spec

/-- The clusters of one sub-maker. -/
structure Made where
  g : List Rec
  m : URLMeta
  Cs : List (List Ins)

/-- What is yielded for them. -/
def Made.out (M : Made) : List (URLMeta × Tree NodeData) := M.Cs.map (fun C => (M.m, doneTree M.m.depth C))

/-- What is known about them. -/
structure MadeOK (h : Runtime) (mcn : Int) (hist : List (Str × Option Str)) (M : Made) : Prop where
  ne : M.g ≠ []
  acc : ∀ r ∈ M.g, r ∈ accepted hist
  all : ∃ rules, ∀ r ∈ M.g, r.m = M.m ∧ r.rules = rules
  cl : Clusters h mcn M.m M.g M.Cs

theorem make_all (md5 : Str → Str) {h : Runtime} {mcn : Int} (hm : 2 ≤ mcn) {hist : List (Str × Option Str)}
    (hc : NoCollision md5 (accepted hist)) (hh : NoHashClash h (UrlRow hist)) :
    ∃ Ms : List Made, Ms.map (·.g) = (groupBy (Rec.sid md5) (accepted hist)).map (·.2) ∧
      PatternMakerSt.make h mcn (loadAll md5 hist) = .ok (Ms.flatMap Made.out) ∧ ∀ M ∈ Ms, MadeOK h mcn hist M := by
  have key : ∀ kg ∈ groupBy (Rec.sid md5) (accepted hist), ∃ M : Made,
      ((makerOf kg.2).make h mcn >>= fun ts => pure (ts.map (fun t => ((makerOf kg.2).urlMeta, t)))) = .ok M.out ∧
      (M.g = kg.2 ∧ MadeOK h mcn hist M) := by
    rintro ⟨k, g⟩ hkg
    have hne := groupBy_ne_nil hkg
    obtain ⟨-, hgf⟩ := mem_groupBy hkg
    have hg : ∀ r ∈ g, r ∈ accepted hist := fun r hr => by rw [hgf] at hr; exact (List.mem_filter.mp hr).1
    have hsid : ∀ r ∈ g, r.sid md5 = k := fun r hr => by
      rw [hgf] at hr; exact of_decide_eq_true (List.mem_filter.mp hr).2
    obtain ⟨r, g', rfl⟩ := List.exists_cons_of_ne_nil hne
    have hall : ∀ r' ∈ r :: g', r'.m = r.m ∧ r'.rules = r.rules := fun r' hr' =>
      (sid_eq_iff hc (hg r' hr') (hg r (by simp))).mp ((hsid r' hr').trans (hsid r (by simp)).symm)
    obtain ⟨Cs, ⟨h1, h2⟩, -⟩ := make_group hm hh hne hg hall
    refine ⟨⟨r :: g', r.m, Cs⟩, ?_, rfl, hne, hg, ⟨_, hall⟩, h2⟩
    simp only [makerOf, bind, Except.bind, pure, Except.pure]
    rw [h1]
    simp [Made.out, Function.comp_def]
  obtain ⟨ps, e1, e2, e3⟩ := mapM_pairs (r := Made.out) key
  refine ⟨ps.map (·.2), ?_, ?_, ?_⟩
  · rw [← e1, List.map_map, List.map_map]
    exact List.map_congr_left (fun p hp => (e3 p hp).1)
  · unfold PatternMakerSt.make
    rw [loadAll_eq md5 hist hc, List.mapM_map]
    simp only [bind, Except.bind, pure, Except.pure] at e2 ⊢
    simp only [Function.comp_def]
    rw [e2]
    simp [List.flatMap, List.map_map, Function.comp_def]
  · intro M hM
    obtain ⟨p, hp, rfl⟩ := List.mem_map.mp hM
    exact (e3 p hp).2

variable {h : Runtime} {mcn : Int} {hist : List (Str × Option Str)}

/-- One cluster of `make()`. -/
structure ClusterOK (h : Runtime) (mcn : Int) (hist : List (Str × Option Str)) (M : Made) (C : List Ins) (t : Tree NodeData) : Prop where
  eq : t = doneTree M.m.depth C
  final : Final (topF mcn M.m false M.m.depth) M.m.depth ((norm (insOf M.g)).length + 1) (norm (insOf M.g)) C
  sub : ∀ x ∈ C, x.bare ∈ norm (insOf M.g)
  rows : (t.paths.map rowOf).Perm C
  keys : ∀ p ∈ t.paths, p.map (·.1) = (rowOf p).keys
  pos : ∃ n, M.m.depth = n + 1
  count : t.root.count = C.length

theorem clusterOK {M : Made} (hM : MadeOK h mcn hist M) {C : List Ins} (hC : C ∈ M.Cs) : ClusterOK h mcn hist M C (doneTree M.m.depth C) := by
  obtain ⟨r0, hr0⟩ := List.exists_mem_of_ne_nil _ hM.ne
  obtain ⟨rules, hall⟩ := hM.all
  obtain ⟨n, hn⟩ : ∃ n, M.m.depth = n + 1 := ⟨M.m.depth - 1, by
    have := (accepted_depth (hM.acc r0 hr0)).2; rw [(hall r0 hr0).1] at this; omega⟩
  have hF := hM.cl.final C hC
  have hsub : ∀ x ∈ C, x.bare ∈ norm (insOf M.g) := fun x hx =>
    hM.cl.perm.mem_iff.mp (List.mem_map_of_mem (List.mem_flatten.mpr ⟨C, hC, hx⟩))
  have hfull : ∀ x ∈ C, x.Full := by
    intro x hx a ha
    have h1 : a.2 ∈ x.path.map (·.2) := List.mem_map_of_mem ha
    rw [hF.pats x hx] at h1
    obtain ⟨s, -, e⟩ := List.mem_map.mp h1
    rw [← e]; rfl
  have hpaths : (doneTree M.m.depth C).paths = growPaths M.m.depth C := by rw [← paths_growTree hF.ne]; rfl
  refine ⟨rfl, hF, hsub, ?_, ?_, ⟨n, hn⟩, ?_⟩
  · rw [hpaths, hn]
    exact rows_of_paths (hn ▸ hF.normal) hF.coh hfull
  · rw [hpaths, hn]
    intro p hp
    obtain ⟨x, -, h1, h2⟩ := rowOf_path (hn ▸ hF.normal) hF.coh hfull hp
    rw [h1, h2]
  · show (growTree M.m.depth C).root.count = _
    rw [growTree_count]
    have : ∀ D : List Ins, (∀ x ∈ D, x ∈ C) → (D.map (·.count)).sum = D.length := by
      intro D
      induction D with
      | nil => intro _; rfl
      | cons x D ih =>
        intro hD
        have h1 : x.count = 1 := (norm_rows M.g _ (hsub x (hD x (by simp)))).count
        rw [List.map_cons, List.sum_cons, ih (fun y hy => hD y (by simp [hy])), h1, List.length_cons]
        push_cast; omega
    exact this C (fun x hx => hx)

theorem mem_out {Ms : List Made} (hMs : ∀ M ∈ Ms, MadeOK h mcn hist M) {c : URLMeta × Tree NodeData} (hc : c ∈ Ms.flatMap Made.out) :
    ∃ M ∈ Ms, MadeOK h mcn hist M ∧ ∃ C ∈ M.Cs, c.1 = M.m ∧ ClusterOK h mcn hist M C c.2 := by
  obtain ⟨M, hM, hcM⟩ := List.mem_flatMap.mp hc
  obtain ⟨C, hC, rfl⟩ := List.mem_map.mp hcM
  exact ⟨M, hM, hMs M hM, C, hC, rfl, clusterOK (hMs M hM) hC⟩

theorem row_of_path {M : Made} {C : List Ins} {t : Tree NodeData} (hC : ClusterOK h mcn hist M C t) {p : List (Str × NodeData)}
    (hp : p ∈ t.paths) : rowOf p ∈ C ∧ (rowOf p).bare ∈ norm (insOf M.g) := by
  have := hC.rows.mem_iff.mp (List.mem_map_of_mem hp)
  exact ⟨this, hC.sub _ this⟩

theorem path_of_row {M : Made} {C : List Ins} {t : Tree NodeData} (hC : ClusterOK h mcn hist M C t) {x : Ins}
    (hx : x ∈ C) : ∃ p ∈ t.paths, rowOf p = x := List.mem_map.mp (hC.rows.mem_iff.mpr hx)

theorem path_last {M : Made} {C : List Ins} {t : Tree NodeData} (hC : ClusterOK h mcn hist M C t) {p : List (Str × NodeData)}
    (hp : p ∈ t.paths) : ∃ k d, p.getLast? = some (k, d) ∧ (rowOf p).count = d.count ∧ (rowOf p).metas = d.metas.getD [] := by
  cases e : p.getLast? with
  | none =>
    rw [List.getLast?_eq_none_iff] at e
    subst e
    have h1 := hC.final.normal.len _ (row_of_path hC hp).1
    obtain ⟨n, hn⟩ := hC.pos
    rw [hn] at h1
    simp [rowOf] at h1
  | some kd =>
    refine ⟨kd.1, kd.2, rfl, ?_, ?_⟩ <;> simp [rowOf, e]

/-- Records with the same structure and pieces are in one sub-maker. -/
theorem same_pps {r r' : Rec} (hr : r ∈ accepted hist) (hr' : r' ∈ accepted hist) (e : r.keys = r'.keys) : r.pps = r'.pps := by
  obtain ⟨row, -, k1, e1, -⟩ := accepted_row hr
  obtain ⟨row', -, k2, e2, -⟩ := accepted_row hr'
  unfold Rec.keys at e
  rw [e1, e2] at e ⊢
  clear e1 e2 hr hr'
  induction row generalizing row' with
  | nil =>
    cases row' with
    | nil => rfl
    | cons s row' => simp at e
  | cons s row ih =>
    cases row' with
    | nil => simp at e
    | cons s' row' =>
      simp only [List.map_cons, List.cons.injEq] at e
      have := pieceOf_inj (runsOf_spec (k1 s (by simp))) (runsOf_spec (k2 s' (by simp))) e.1
      simp only [List.map_cons, List.cons.injEq]
      exact ⟨by rw [this], ih (fun s hs => k1 s (by simp [hs])) row' e.2 (fun s hs => k2 s (by simp [hs]))⟩

end OsUrl
