import Verif.Proofs.Make2
import Verif.Proofs.Witness

/-! # C24, C28: `make()` returns, and its clusters partition what was loaded -/

namespace OsUrl
open Spec

/-- The loaded URLs of a cluster: structure and pieces of every path. -/
def clusterRows (c : URLMeta × Tree NodeData) : List (URLMeta × List Str) := c.2.paths.map (fun p => (c.1, p.map (·.1)))

theorem made_rows {h : Runtime} {mcn : Int} {hist : List (Str × Option Str)} {M : Made} (hM : MadeOK h mcn hist M) :
    (M.out.flatMap clusterRows).Perm ((uniq (M.g.map Rec.keys)).map (fun k => (M.m, k))) := by
  have h1 : ∀ Cs : List (List Ins), (∀ C ∈ Cs, C ∈ M.Cs) →
      ((Cs.map (fun C => (M.m, doneTree M.m.depth C))).flatMap clusterRows).Perm ((Cs.flatten.map Ins.bare).map (fun x => (M.m, x.keys))) := by
    intro Cs
    induction Cs with
    | nil => intro _; exact .refl _
    | cons C Cs ih =>
      intro hC
      rw [List.map_cons, List.flatMap_cons, List.flatten_cons, List.map_append, List.map_append]
      refine List.Perm.append ?_ (ih (fun D hD => hC D (by simp [hD])))
      have hK := clusterOK hM (hC C (by simp))
      have e : clusterRows (M.m, doneTree M.m.depth C) = ((doneTree M.m.depth C).paths.map rowOf).map (fun x => (M.m, x.keys)) := by
        rw [clusterRows, List.map_map]
        exact List.map_congr_left (fun p hp => by simp [hK.keys p hp])
      rw [e, List.map_map (l := C)]
      have := hK.rows.map (fun x : Ins => (M.m, x.keys))
      simpa [Function.comp_def, bare_keys] using this
  refine (h1 M.Cs (fun C hC => hC)).trans ?_
  have h2 := hM.cl.perm.map (fun x : Ins => (M.m, x.keys))
  refine h2.trans ?_
  have e : (norm (insOf M.g)).map (fun x : Ins => (M.m, x.keys)) = ((norm (insOf M.g)).map Ins.keys).map (fun k => (M.m, k)) := by
    rw [List.map_map]; rfl
  rw [e, norm_keys, insOf_keys]

theorem made_nodup (md5 : Str → Str) {h : Runtime} {mcn : Int} {hist : List (Str × Option Str)} {Ms : List Made}
    (hg : Ms.map (·.g) = (groupBy (Rec.sid md5) (accepted hist)).map (·.2)) (hMs : ∀ M ∈ Ms, MadeOK h mcn hist M) :
    ((Ms.flatMap Made.out).flatMap clusterRows).Nodup := by
  have hp : ((Ms.flatMap Made.out).flatMap clusterRows).Perm (Ms.flatMap (fun M => (uniq (M.g.map Rec.keys)).map (fun k => (M.m, k)))) := by
    clear hg
    induction Ms with
    | nil => exact .refl _
    | cons M Ms ih =>
      rw [List.flatMap_cons, List.flatMap_append, List.flatMap_cons]
      exact (made_rows (hMs M (by simp))).append (ih (fun M hM => hMs M (by simp [hM])))
  refine hp.nodup_iff.mpr ?_
  have hd : Ms.Pairwise (fun M M' => ∀ r ∈ M.g, ∀ r' ∈ M'.g, r.sid md5 ≠ r'.sid md5) := by
    have h1 : (Ms.map (·.g)).Pairwise (fun g g' : List Rec => ∀ r ∈ g, ∀ r' ∈ g', r.sid md5 ≠ r'.sid md5) := by
      rw [hg, groupBy_eq, List.map_map, List.pairwise_map]
      refine (nodup_uniq _).imp ?_
      intro k k' hk r hr r' hr'
      simp only [Function.comp_apply] at hr hr'
      have e1 := of_decide_eq_true (List.mem_filter.mp hr).2
      have e2 := of_decide_eq_true (List.mem_filter.mp hr').2
      rw [e1, e2]; exact hk
    rwa [List.pairwise_map] at h1
  rw [List.Nodup, List.pairwise_flatMap]
  refine ⟨?_, ?_⟩
  · intro M hM
    have := (nodup_uniq (M.g.map Rec.keys)).map (fun k => (M.m, k)) (S := (· ≠ ·)) (fun a b hab e => hab (by simpa using e))
    exact this
  · refine List.Pairwise.imp_of_mem ?_ hd
    intro M M' hM hM' hsep x hx y hy hxy
    subst hxy
    obtain ⟨k, hk, rfl⟩ := List.mem_map.mp hx
    obtain ⟨k', hk', e⟩ := List.mem_map.mp hy
    injection e with e1 e2
    subst e2
    rw [mem_uniq, List.mem_map] at hk hk'
    obtain ⟨r, hr, er⟩ := hk
    obtain ⟨r', hr', er'⟩ := hk'
    have e3 := same_pps ((hMs M hM).acc r hr) ((hMs M' hM').acc r' hr') (er.trans er'.symm)
    obtain ⟨_, a1⟩ := (hMs M hM).all
    obtain ⟨_, a2⟩ := (hMs M' hM').all
    refine hsep r hr r' hr' ?_
    unfold Rec.sid
    rw [e3, (a1 r hr).1, (a2 r' hr').1, e1]

/-- **C28**: for `min_cluster_num ≥ 2` `make()` returns, whatever was loaded. -/
theorem C28_total (md5 : Str → Str) (h : Runtime) (mcn : Int) (hm : 2 ≤ mcn) (hist : List (Str × Option Str))
    (hc : NoCollision md5 (accepted hist)) (hh : NoHashClash h (UrlRow hist)) :
    ∃ cs, PatternMakerSt.make h mcn (loadAll md5 hist) = .ok cs := by
  obtain ⟨Ms, -, h2, -⟩ := make_all md5 hm hc hh
  exact ⟨_, h2⟩

/-- **C24**: no path occurs twice in the clusters, the paths are exactly the loaded URLs, no cluster is empty,
the count of a cluster is its number of paths, every leaf counts one and has exactly the metas loaded with its path. -/
theorem C24_partition (md5 : Str → Str) (h : Runtime) (mcn : Int) (hm : 2 ≤ mcn) (hist : List (Str × Option Str))
    (hc : NoCollision md5 (accepted hist)) (hh : NoHashClash h (UrlRow hist)) :
    ∃ cs, PatternMakerSt.make h mcn (loadAll md5 hist) = .ok cs ∧
      (cs.flatMap (fun c => c.2.paths.map (fun p => (c.1, p.map (·.1))))).Nodup ∧
      (∀ m ks, (m, ks) ∈ cs.flatMap (fun c => c.2.paths.map (fun p => (c.1, p.map (·.1)))) ↔
        ∃ u md pps, (u, md) ∈ hist ∧ parse u = .ok (m, .pieces pps) ∧ ks = pps.map (·.piece)) ∧
      ∀ c ∈ cs, c.2.paths ≠ [] ∧ c.2.root.count = c.2.paths.length ∧
        ∀ p ∈ c.2.paths, ∃ k leaf, p.getLast? = some (k, leaf) ∧ leaf.count = 1 ∧ (leaf.metas.getD []).Nodup ∧
          ∀ x, x ∈ leaf.metas.getD [] ↔
            ∃ u pps, (u, some x) ∈ hist ∧ parse u = .ok (c.1, .pieces pps) ∧ pps.map (·.piece) = p.map (·.1) := by
  obtain ⟨Ms, h1, h2, h3⟩ := make_all md5 hm hc hh
  have hgm : ∀ r, r ∈ accepted hist ↔ ∃ M ∈ Ms, r ∈ M.g := by
    intro r
    constructor
    · intro hr
      have : (r.sid md5, (accepted hist).filter (fun x => decide (x.sid md5 = r.sid md5))) ∈ groupBy (Rec.sid md5) (accepted hist) := by
        rw [groupBy_eq, List.mem_map]
        exact ⟨_, mem_uniq.mpr (List.mem_map_of_mem hr), rfl⟩
      have h4 := List.mem_map_of_mem (f := (·.2)) this
      rw [← h1] at h4
      obtain ⟨M, hM, e⟩ := List.mem_map.mp h4
      refine ⟨M, hM, ?_⟩
      rw [e]
      exact List.mem_filter.mpr ⟨hr, by simp⟩
    · rintro ⟨M, hM, hr⟩
      exact (h3 M hM).acc r hr
  refine ⟨_, h2, made_nodup md5 h1 h3, ?_, ?_⟩
  · intro m ks
    constructor
    · intro hx
      obtain ⟨c, hcm, hx⟩ := List.mem_flatMap.mp hx
      obtain ⟨M, hM, hcM⟩ := List.mem_flatMap.mp hcm
      have hx' : (m, ks) ∈ M.out.flatMap clusterRows := List.mem_flatMap.mpr ⟨c, hcM, hx⟩
      rw [(made_rows (h3 M hM)).mem_iff, List.mem_map] at hx'
      obtain ⟨k, hk, e⟩ := hx'
      injection e with e1 e2
      subst e1; subst e2
      rw [mem_uniq, List.mem_map] at hk
      obtain ⟨r, hr, er⟩ := hk
      obtain ⟨u, hu, hp⟩ := mem_accepted.mp ((h3 M hM).acc r hr)
      obtain ⟨_, hall⟩ := (h3 M hM).all
      exact ⟨u, r.md, r.pps, hu, by rw [hp, (hall r hr).1], er.symm⟩
    · rintro ⟨u, md, pps, hu, hp, rfl⟩
      have hr : (⟨m, pps, md⟩ : Rec) ∈ accepted hist := mem_accepted.mpr ⟨u, hu, hp⟩
      obtain ⟨M, hM, hrM⟩ := (hgm _).mp hr
      obtain ⟨_, hall⟩ := (h3 M hM).all
      have hx : (m, pps.map (·.piece)) ∈ M.out.flatMap clusterRows := by
        rw [(made_rows (h3 M hM)).mem_iff, List.mem_map]
        exact ⟨_, mem_uniq.mpr (List.mem_map_of_mem hrM), by rw [← (hall _ hrM).1]; rfl⟩
      obtain ⟨c, hcM, hx⟩ := List.mem_flatMap.mp hx
      exact List.mem_flatMap.mpr ⟨c, List.mem_flatMap.mpr ⟨M, hM, hcM⟩, hx⟩
  · intro c hcm
    obtain ⟨M, hM, hMok, C, hC, e1, hK⟩ := mem_out h3 hcm
    have hl := hK.rows.length_eq
    rw [List.length_map] at hl
    refine ⟨?_, by rw [hK.count, hl], ?_⟩
    · intro e
      rw [e] at hl
      exact hK.final.ne (List.eq_nil_of_length_eq_zero hl.symm)
    · intro p hp
      obtain ⟨k, d, h4, h5, h6⟩ := path_last hK hp
      obtain ⟨h7, h8⟩ := row_of_path hK hp
      have h9 := norm_rows _ _ h8
      refine ⟨k, d, h4, by rw [← h5]; exact h9.count, by rw [← h6]; exact hK.final.normal.metas _ h7, ?_⟩
      intro x
      have hk : p.map (·.1) = (rowOf p).bare.keys := by rw [hK.keys p hp, bare_keys]
      rw [← h6, hk, e1]
      refine (h9.metas x).trans ?_
      obtain ⟨_, hall⟩ := hMok.all
      constructor
      · rintro ⟨r, hr, e2, e3⟩
        obtain ⟨u, hu, hp'⟩ := mem_accepted.mp (hMok.acc r hr)
        exact ⟨u, r.pps, by rw [← e3]; exact hu, by rw [hp', (hall r hr).1], e2⟩
      · rintro ⟨u, pps, hu, hp', e2⟩
        have hr : (⟨M.m, pps, some x⟩ : Rec) ∈ accepted hist := mem_accepted.mpr ⟨u, hu, hp'⟩
        refine ⟨⟨M.m, pps, some x⟩, ?_, e2, rfl⟩
        obtain ⟨r0, hr0, hp0⟩ := h9.path
        have hk0 : r0.keys = (rowOf p).bare.keys := by
          rw [Ins.keys, hp0]; simp [Rec.keys, Function.comp_def]
        have e4 := same_pps hr (hMok.acc r0 hr0) (Eq.trans e2 hk0.symm)
        have hsid : Rec.sid md5 (⟨M.m, pps, some x⟩ : Rec) = r0.sid md5 := by
          unfold Rec.sid
          rw [(hall r0 hr0).1]
          simp only at e4
          rw [e4]
        have h4 : M.g ∈ Ms.map (·.g) := List.mem_map_of_mem hM
        rw [h1] at h4
        obtain ⟨⟨k', g'⟩, hkg, eg⟩ := List.mem_map.mp h4
        simp only at eg
        subst eg
        obtain ⟨-, hgf⟩ := mem_groupBy hkg
        rw [hgf] at hr0 ⊢
        have h5 := of_decide_eq_true (List.mem_filter.mp hr0).2
        exact List.mem_filter.mpr ⟨hr, by rw [hsid, h5]; simp⟩

/-- The hypotheses hold for real functions: the identity as digest, an injective hash. -/
example (hist : List (Str × Option Str)) : NoCollision id (accepted hist) ∧ NoHashClash codeHash (UrlRow hist) :=
  ⟨id_ok _, codeHash_ok _⟩

/-- Repeated loads, a query and a URL that is rejected. -/
def loads24 : List (Str × Option Str) := [(c!"http://h/a1", some c!"m"), (c!"http://h/b2", some c!"n"), (c!"http://h/a1", some c!"o"),
  (c!"http://h/a?k=v", none), (c!"", some c!"x"), (c!"http://h/b/c", some c!"p")]

/-- The clusters: the pieces of every path and its metas. -/
example : (PatternMakerSt.make codeHash 2 (loadAll id loads24)).map (fun cs => cs.map (fun c =>
        c.2.paths.map (fun p => (p.map (·.1), ((p.getLast?.map (·.2)).getD c.2.root).metas.getD [])))) =
    .ok [[([c!"a1"], [c!"m", c!"o"]), ([c!"b2"], [c!"n"])], [([c!"a", c!"v"], [])], [([c!"b", c!"c"], [c!"p"])]] := by decide +kernel
example : (PatternMakerSt.make codeHash 2 (loadAll id loads24)).map (fun cs => cs.map (fun c => (c.1.depth, c.2.root.count))) =
    .ok [(1, 2), (2, 1), (2, 1)] := by decide +kernel

end OsUrl
