import Verif.Props.C24
import Verif.Props.C25
import Verif.Props.C35

/-! # C34, C35: what is printed for the clusters of `make()` -/

namespace OsUrl
open Spec

/-- **C34**: for every cluster with common patterns `pats` there is a list of metas, the metas of its paths one
after the other; `CLUSTER` prints the pattern and then a line with a tab for each of them, `INLINE` one line each with
the pattern before the tab.  A meta is in the list exactly when it was loaded with a URL of the cluster. -/
theorem C34_lines (md5 : Str → Str) (h : Runtime) (mcn : Int) (hm : 2 ≤ mcn) (hist : List (Str × Option Str))
    (hc : NoCollision md5 (accepted hist)) (hh : NoHashClash h (UrlRow hist)) :
    ∃ cs, PatternMakerSt.make h mcn (loadAll md5 hist) = .ok cs ∧
      ∀ c ∈ cs, ∃ (pats : List Str) (pms : List (List (Str × NodeData) × List Str)),
        (∀ p ∈ c.2.paths, p.map (fun kn => kn.2.pattern) = pats) ∧
        pms.map (·.1) = c.2.paths ∧
        formatCluster h c.1 c.2 = pack c.1 pats :: (pms.flatMap (·.2)).map (fun x => '\t' :: x) ∧
        formatInline h c.1 c.2 = (pms.flatMap (·.2)).map (fun x => pack c.1 pats ++ '\t' :: x) ∧
        ∀ pm ∈ pms, pm.2.Nodup ∧ ∀ x, x ∈ pm.2 ↔
          ∃ u pps, (u, some x) ∈ hist ∧ parse u = .ok (c.1, .pieces pps) ∧ pps.map (·.piece) = pm.1.map (·.1) := by
  obtain ⟨cs, h1, -, -, h2⟩ := C24_partition md5 h mcn hm hist hc hh
  obtain ⟨cs', h1', h3⟩ := C25_uniform md5 h mcn hm hist hc hh
  rw [h1] at h1'
  injection h1' with e
  subst e
  refine ⟨cs, h1, ?_⟩
  intro c hcm
  obtain ⟨pats, -, p1, p2⟩ := h3 c hcm
  obtain ⟨-, -, q⟩ := h2 c hcm
  refine ⟨pats, c.2.paths.map (fun p => (p, h.metas (((p.getLast?.map (·.2)).getD c.2.root).metas.getD []))), p1, ?_, ?_, ?_, ?_⟩
  · rw [List.map_map]; simp [Function.comp_def]
  · unfold formatCluster pathMetas
    rw [p2]
    simp [List.flatMap_map]
  · unfold formatInline pathMetas
    rw [p2]
    simp [List.flatMap_map]
  · intro pm hpm
    obtain ⟨p, hp, rfl⟩ := List.mem_map.mp hpm
    obtain ⟨k, leaf, e1, -, e3, e4⟩ := q p hp
    simp only [e1, Option.map_some, Option.getD_some]
    exact ⟨(h.metas_perm _).nodup_iff.mpr e3, fun x => (h.metas_perm _).mem_iff.trans (e4 x)⟩

/-- **C34**: every loaded meta is printed under the pattern of the cluster of its URL, by `CLUSTER` and by `INLINE`. -/
theorem C34_all (md5 : Str → Str) (h : Runtime) (mcn : Int) (hm : 2 ≤ mcn) (hist : List (Str × Option Str))
    (hc : NoCollision md5 (accepted hist)) (hh : NoHashClash h (UrlRow hist)) :
    ∃ cs, PatternMakerSt.make h mcn (loadAll md5 hist) = .ok cs ∧
      ∀ u x m pps, (u, some x) ∈ hist → parse u = .ok (m, .pieces pps) → ∃ c ∈ cs, c.1 = m ∧
        pps.map (·.piece) ∈ c.2.paths.map (fun p => p.map (·.1)) ∧ '\t' :: x ∈ formatCluster h c.1 c.2 ∧
        ∃ line, formatPattern c.1 c.2 = [line] ∧ line ++ '\t' :: x ∈ formatInline h c.1 c.2 := by
  obtain ⟨cs, h1, -, h2, -⟩ := C24_partition md5 h mcn hm hist hc hh
  obtain ⟨cs', h1', h3⟩ := C34_lines md5 h mcn hm hist hc hh
  rw [h1] at h1'
  injection h1' with e
  subst e
  obtain ⟨cs', h1', h4⟩ := C25_uniform md5 h mcn hm hist hc hh
  rw [h1] at h1'
  injection h1' with e
  subst e
  refine ⟨cs, h1, ?_⟩
  intro u x m pps hu hp
  obtain ⟨c, hcm, hin⟩ := List.mem_flatMap.mp ((h2 m (pps.map (·.piece))).mpr ⟨u, some x, pps, hu, hp, rfl⟩)
  obtain ⟨p, hpm, e⟩ := List.mem_map.mp hin
  injection e with e1 e2
  obtain ⟨pats, pms, a1, a2, a3, a4, a5⟩ := h3 c hcm
  obtain ⟨pats', -, b1, b2⟩ := h4 c hcm
  have hpp : pats = pats' := by rw [← a1 p hpm, ← b1 p hpm]
  subst hpp
  rw [← a2] at hpm
  obtain ⟨pm, hpm', rfl⟩ := List.mem_map.mp hpm
  have hx : x ∈ pms.flatMap (·.2) := List.mem_flatMap.mpr ⟨pm, hpm', ((a5 pm hpm').2 x).mpr ⟨u, pps, hu, by rw [e1]; exact hp, e2.symm⟩⟩
  refine ⟨c, hcm, e1, ?_, ?_, _, b2, ?_⟩
  · rw [← a2, List.map_map]
    exact List.mem_map.mpr ⟨pm, hpm', by simp [e2]⟩
  · rw [a3]
    exact List.mem_cons_of_mem _ (List.mem_map_of_mem (f := fun x => '\t' :: x) hx)
  · rw [a4]
    exact List.mem_map_of_mem (f := fun x => pack c.1 pats ++ '\t' :: x) hx

/-- **C35**: the record of a cluster of `make()` decodes to the packed patterns of its paths and the number of its paths,
all of them different loaded URLs. -/
theorem C35_cluster (md5 : Str → Str) (h : Runtime) (mcn : Int) (hm : 2 ≤ mcn) (hist : List (Str × Option Str))
    (hc : NoCollision md5 (accepted hist)) (hh : NoHashClash h (UrlRow hist)) :
    ∃ cs, PatternMakerSt.make h mcn (loadAll md5 hist) = .ok cs ∧
      ∀ c ∈ cs, ∃ line pats, formatJson c.1 c.2 = [line] ∧ (∀ p ∈ c.2.paths, p.map (fun kn => kn.2.pattern) = pats) ∧
        (c.2.paths.map (fun p => p.map (·.1))).Nodup ∧
        readObject line = some [(c!"ptn".map Char.toNat, .str ((pack c.1 pats).flatMap utf16)),
          (c!"cnt".map Char.toNat, .int c.2.paths.length)] := by
  obtain ⟨cs, h1, h0, -, h2⟩ := C24_partition md5 h mcn hm hist hc hh
  obtain ⟨cs', h1', h4⟩ := C25_uniform md5 h mcn hm hist hc hh
  rw [h1] at h1'
  injection h1' with e
  subst e
  refine ⟨cs, h1, ?_⟩
  intro c hcm
  obtain ⟨a1, a2, -⟩ := h2 c hcm
  obtain ⟨pats, -, b1, -⟩ := h4 c hcm
  obtain ⟨p, ps, e⟩ := List.exists_cons_of_ne_nil a1
  obtain ⟨line, c1, c2⟩ := C35_record c.1 c.2 p ps e
  refine ⟨line, pats, c1, b1, ?_, ?_⟩
  · rw [List.Nodup, List.pairwise_flatMap] at h0
    have h5 := h0.1 c hcm
    rw [List.pairwise_map] at h5
    rw [List.Nodup, List.pairwise_map]
    exact h5.imp (fun hne e => hne (by rw [e]))
  · rw [c2, b1 p (by rw [e]; simp), a2]

/-- The output for two clusters.  The first URL has two metas; they are printed in the order of their set. -/
example : (PatternMakerSt.make codeHash 2 (loadAll id loads24)).map (fun cs => cs.flatMap (fun c => formatCluster codeHash c.1 c.2)) =
    .ok [c!"/[a-z][0-9]", c!"\to", c!"\tm", c!"\tn", c!"/a[\\?]k=v", c!"/b/c", c!"\tp"] := by decide +kernel
example : (PatternMakerSt.make codeHash 2 (loadAll id loads24)).map (fun cs => cs.flatMap (fun c => formatCluster (inserted codeNum) c.1 c.2)) =
    .ok [c!"/[a-z][0-9]", c!"\tm", c!"\to", c!"\tn", c!"/a[\\?]k=v", c!"/b/c", c!"\tp"] := by decide +kernel
example : (PatternMakerSt.make codeHash 2 (loadAll id loads24)).map (fun cs => cs.flatMap (fun c => formatInline (inserted codeNum) c.1 c.2)) =
    .ok [c!"/[a-z][0-9]\tm", c!"/[a-z][0-9]\to", c!"/[a-z][0-9]\tn", c!"/b/c\tp"] := by decide +kernel
example : (PatternMakerSt.make codeHash 2 (loadAll id loads24)).map (fun cs => cs.flatMap (fun c => formatJson c.1 c.2)) =
    .ok [c!"{\"ptn\": \"/[a-z][0-9]\", \"cnt\": 2}", c!"{\"ptn\": \"/a[\\\\?]k=v\", \"cnt\": 1}", c!"{\"ptn\": \"/b/c\", \"cnt\": 1}"] := by
  decide +kernel

end OsUrl
