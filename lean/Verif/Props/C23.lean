import Verif.Proofs.Load2

/-! # C23: every meta ends up on the path of its URL -/

namespace OsUrl
open Spec

/-- **C23**: after any history every path of every sub-maker ends in a leaf whose metas are, without
repetition, exactly the metas loaded with a URL of the same structure and pieces. -/
theorem C23_metas (md5 : Str → Str) (hist : List (Str × Option Str)) (hc : NoCollision md5 (accepted hist))
    (sid : Str) (mk : MakerSt) (h : (sid, mk) ∈ loadAll md5 hist) (p : List (Str × NodeData)) (hp : p ∈ mk.tree.paths) :
    ∃ r ∈ accepted hist, r.sid md5 = sid ∧ r.keys = p.map (·.1) ∧ ∃ k leaf, p.getLast? = some (k, leaf) ∧
      (leaf.metas.getD []).Nodup ∧
      ∀ x, x ∈ leaf.metas.getD [] ↔ ∃ u m pps, (u, some x) ∈ hist ∧ parse u = .ok (m, .pieces pps) ∧
        m = r.m ∧ pps.map (·.fuzzyRule) = r.pps.map (·.fuzzyRule) ∧ pps.map (·.piece) = r.pps.map (·.piece) := by
  obtain ⟨r, hr, hs, rfl, hall, hlen⟩ := mem_loadAll hc h
  have hne := insOf_ne hr hs
  simp only at hp
  rw [paths_growTree hne] at hp
  obtain ⟨n, hn⟩ : ∃ n, r.m.depth = n + 1 := ⟨r.m.depth - 1, by have := (accepted_depth hr).2; omega⟩
  have hk := (growPaths_keys hlen hne (p.map (·.1))).mp (List.mem_map_of_mem hp)
  rw [hn] at hp hlen
  obtain ⟨k, d, h1, _, h3, h4⟩ := growPaths_leaf hlen hp
  rw [insOf_keys, List.mem_map] at hk
  obtain ⟨r0, hr0, e0⟩ := hk
  have hr0' := List.mem_filter.mp hr0
  rw [decide_eq_true_eq] at hr0'
  refine ⟨r0, hr0'.1, hr0'.2, e0, k, d, h1, h4, fun x => ?_⟩
  rw [h3, insOf_metas]
  constructor
  · rintro ⟨r', hr', e1, e2⟩
    obtain ⟨u, hu, hp'⟩ := mem_accepted.mp (List.mem_filter.mp hr').1
    rw [e2] at hu
    refine ⟨u, r'.m, r'.pps, hu, hp', ?_, ?_, e1.trans e0.symm⟩
    · rw [(hall r' hr').1, (hall r0 hr0).1]
    · exact (hall r' hr').2.trans (hall r0 hr0).2.symm
  · rintro ⟨u, m, pps, hu, hp', e1, e2, e3⟩
    have hr' : (⟨m, pps, some x⟩ : Rec) ∈ accepted hist := mem_accepted.mpr ⟨u, hu, hp'⟩
    refine ⟨⟨m, pps, some x⟩, ?_, e3.trans e0, rfl⟩
    rw [List.mem_filter, decide_eq_true_eq]
    exact ⟨hr', ((sid_eq_iff hc hr' hr0'.1).mpr ⟨e1, e2⟩).trans hr0'.2⟩

/-- Three loads of one path with two metas, one of another path. -/
example : (loadAll id [(c!"http://h/a", some c!"m"), (c!"http://x/a", some c!"n"), (c!"http://h/b", none),
      (c!"http://y/a", some c!"m")]).map (fun km => km.2.tree.paths.map (fun p =>
        (p.map (·.1), p.getLast?.bind (fun kn => kn.2.metas)))) =
    [[([c!"a"], some [c!"m", c!"n"]), ([c!"b"], none)]] := by decide +kernel

end OsUrl
