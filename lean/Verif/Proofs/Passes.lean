import Verif.Proofs.Make
import Verif.Spec.Passes

/-! One round of `cluster`, and the number of rounds. -/

namespace OsUrl
open Spec

variable {rt : Runtime} {nested : NestedCluster} {mcn : Int} {m : URLMeta} {kw : Bool} {n : Nat}
  {OK : Nat → List ParsedPiece → Prop} {F : LevelFn}

/-- One round of `cluster` on distinct rows: all rows stay, or at least two smaller parts. -/
theorem cluster_step (h : Runtime) (hL : LevelOK h nested mcn m kw (n + 1) OK F) (hmcn : 2 ≤ mcn) (hd : m.depth = n + 1)
    (L : List Ins) (hN : Normal (n + 1) L) (hS : RowsOK OK (n + 1) L) (hne : L ≠ [])
    (hh : HashSep h F (n + 1) (L.map Ins.bare)) :
    ∃ t' split, process h nested mcn m kw (growTree (n + 1) L) = .ok (t', split) ∧ 0 < (growTree (n + 1) L).root.count ∧
      (∀ p ∈ t'.paths, ∃ x ∈ L, p.map (·.1) = x.keys ∧ p.map (fun kn => kn.2.pattern) = labs F (n + 1) 0 (L.map Ins.bare) x.bare) ∧
      (split = true → ∃ gs : List (List Ins), splitByPattern h t' = .ok (gs.map (growTree (n + 1))) ∧
        (gs.flatten.map Ins.bare).Perm (L.map Ins.bare) ∧
        ∀ g ∈ gs, Normal (n + 1) g ∧ RowsOK OK (n + 1) g ∧ g ≠ [] ∧ g.length < L.length ∧ HashSep h F (n + 1) (g.map Ins.bare) ∧
          ∃ x0 ∈ L.map Ins.bare, (g.map Ins.bare).Perm ((L.map Ins.bare).filter (fun y =>
            decide (labs F (n + 1) 0 (L.map Ins.bare) y = labs F (n + 1) 0 (L.map Ins.bare) x0)))) := by
  obtain ⟨f, split, hp1, hp2, hp3⟩ := process_spec hL hmcn hd hS hne
  have hcnt : ¬ (growTree (n + 1) L).root.count ≤ 0 := by
    have := total_pos hS.pos hne
    have e : (growTree (n + 1) L).root.count = total L := growTree_count _ _
    omega
  have hbare : ∀ x ∈ L, (f x).bare = x.bare := fun x hx => bare_of_same (hp2 x hx).1 (hp2 x hx).2.1
  have hbm : (L.map f).map Ins.bare = L.map Ins.bare := by
    rw [List.map_map]; exact List.map_congr_left hbare
  have hkeys : (L.map f).map Ins.keys = L.map Ins.keys := by
    rw [List.map_map]; exact List.map_congr_left (fun x hx => (hp2 x hx).1.keys)
  have hNM : Normal (n + 1) (L.map f) := by
    refine ⟨?_, by rw [hkeys]; exact hN.nodup, ?_⟩
    · intro y hy
      obtain ⟨x, hx, rfl⟩ := List.mem_map.mp hy
      have := congrArg List.length (hp2 x hx).1.1
      simp only [List.length_map] at this
      rw [this, hN.len x hx]
    · intro y hy
      obtain ⟨x, hx, rfl⟩ := List.mem_map.mp hy
      rw [(hp2 x hx).2.1]; exact hN.metas x hx
  have hpatsM : ∀ x ∈ L, (f x).path.map (·.2) = (labs F (n + 1) 0 (L.map Ins.bare) x.bare).map some := by
    intro x hx; rw [labs_bare]; exact (hp2 x hx).2.2
  have hfull : ∀ y ∈ L.map f, y.Full := by
    intro y hy a ha
    obtain ⟨x, hx, rfl⟩ := List.mem_map.mp hy
    have : a.2 ∈ (f x).path.map (·.2) := List.mem_map.mpr ⟨a, ha, rfl⟩
    rw [hpatsM x hx] at this
    obtain ⟨q, _, e⟩ := List.mem_map.mp this
    rw [← e]; rfl
  have hcoh : PathCoh (L.map f) := by
    intro y hy z hz j e
    obtain ⟨x, hx, rfl⟩ := List.mem_map.mp hy
    obtain ⟨w, hw, rfl⟩ := List.mem_map.mp hz
    rw [(hp2 x hx).1.keys, (hp2 w hw).1.keys] at e
    have hxl := hNM.len _ (List.mem_map.mpr ⟨x, hx, rfl⟩)
    have hwl := hNM.len _ (List.mem_map.mpr ⟨w, hw, rfl⟩)
    by_cases hj : j < n + 1
    · have hpp := (take_pp hS hx hw (show j + 1 ≤ n + 1 by omega)).mp e
      have e1 : ((f x).path.map (·.1))[j]? = ((f w).path.map (·.1))[j]? := by
        rw [(hp2 x hx).1.1, (hp2 w hw).1.1]
        have := hpp j (by omega)
        unfold Ins.pp at this
        have h1 := hN.len x hx
        have h2 := hN.len w hw
        rw [List.getElem?_map, List.getElem?_map]
        rw [List.getElem?_eq_getElem (by omega), List.getElem?_eq_getElem (by omega)] at this ⊢
        simpa using this
      have e2 : ((f x).path.map (·.2))[j]? = ((f w).path.map (·.2))[j]? := by
        rw [(hp2 x hx).2.2, (hp2 w hw).2.2, List.getElem?_map, List.getElem?_map,
          labs_prefix (x := x) (y := w) (fun l hl => by rw [Nat.zero_add]; exact hpp l (by omega))]
      rw [List.getElem?_map, List.getElem?_map] at e1 e2
      rw [List.getElem?_eq_getElem (by omega), List.getElem?_eq_getElem (by omega)] at e1 e2 ⊢
      simp only [Option.map_some, Option.some.injEq] at e1 e2 ⊢
      exact Prod.ext e1 e2
    · rw [List.getElem?_eq_none (by omega), List.getElem?_eq_none (by omega)]
  have hMne : L.map f ≠ [] := by simpa using hne
  have hpaths : (doneTree (n + 1) (L.map f)).paths = growPaths (n + 1) (L.map f) := by
    rw [← paths_growTree hMne]; rfl
  have hpl : ∀ p ∈ growPaths (n + 1) (L.map f), p.length = n + 1 := growPaths_length
  have hroot : (doneTree (n + 1) (L.map f)).root.pattern = [] := rfl
  have hsp := splitLoop_grow (n := n) h [] (growPaths (n + 1) (L.map f)) hpl [] (by simp)
  simp only [groupBy, List.foldl_nil, List.map_nil, List.nil_append] at hsp
  have hsplit : splitByPattern h (doneTree (n + 1) (L.map f)) =
      .ok ((groupBy (fun p : List (Str × NodeData) => h (join ['/'] ([] :: p.map (fun kn => kn.2.pattern))))
        (growPaths (n + 1) (L.map f))).map (fun kg => growTree (n + 1) (kg.2.map rowOf))) := by
    unfold splitByPattern
    rw [hroot, hpaths, hsp]
    simp only [bind, Except.bind, pure, Except.pure, List.map_map]
    rfl
  -- the rows of the groups
  have hrows := rows_of_paths hNM hcoh hfull
  have htext : ∀ p ∈ growPaths (n + 1) (L.map f), ∃ x ∈ L, p.map (·.1) = x.keys ∧ rowOf p = f x ∧
      p.map (fun kn => kn.2.pattern) = labs F (n + 1) 0 (L.map Ins.bare) x.bare := by
    intro p hp
    obtain ⟨y, hy, ek, e⟩ := rowOf_path hNM hcoh hfull hp
    obtain ⟨x, hx, rfl⟩ := List.mem_map.mp hy
    refine ⟨x, hx, ek.trans (hp2 x hx).1.keys, e, ?_⟩
    have h1 := hpatsM x hx
    rw [← e] at h1
    simp only [rowOf, List.map_map] at h1
    have h2 := congrArg (List.map (fun o : Option Str => o.getD [])) h1
    rw [List.map_map, List.map_map] at h2
    simpa [Function.comp_def] using h2
  have hpid : ∀ p ∈ growPaths (n + 1) (L.map f), ∃ x ∈ L, rowOf p = f x ∧
      join ['/'] ([] :: p.map (fun kn => kn.2.pattern)) = pidText (labs F (n + 1) 0 (L.map Ins.bare) x.bare) := by
    intro p hp
    obtain ⟨x, hx, _, e, e2⟩ := htext p hp
    refine ⟨x, hx, e, ?_⟩
    unfold pidText
    rw [e2]
  -- each group
  have hgrp : ∀ kg ∈ groupBy (fun p : List (Str × NodeData) => h (join ['/'] ([] :: p.map (fun kn => kn.2.pattern))))
      (growPaths (n + 1) (L.map f)), ∃ x0 ∈ L, ((kg.2.map rowOf).map Ins.bare).Perm
        ((L.map Ins.bare).filter (fun y => decide (labs F (n + 1) 0 (L.map Ins.bare) y =
          labs F (n + 1) 0 (L.map Ins.bare) x0.bare))) ∧ (∀ y ∈ kg.2.map rowOf, y ∈ L.map f) ∧
        ((kg.2.map rowOf).map Ins.keys).Nodup := by
    rintro ⟨k, g⟩ hkg
    obtain ⟨hk, hg⟩ := mem_groupBy hkg
    obtain ⟨p0, hp0, hk0⟩ := List.mem_map.mp hk
    obtain ⟨x0, hx0, e0, t0⟩ := hpid p0 hp0
    rw [t0] at hk0
    have hsubL : ∀ y ∈ g.map rowOf, y ∈ L.map f := by
      intro y hy
      obtain ⟨p, hp, rfl⟩ := List.mem_map.mp hy
      rw [hg, List.mem_filter] at hp
      exact hrows.mem_iff.mp (List.mem_map.mpr ⟨p, hp.1, rfl⟩)
    have hkeysnd : ((g.map rowOf).map Ins.keys).Nodup := by
      have h1 : (((growPaths (n + 1) (L.map f)).map rowOf).map Ins.keys).Nodup :=
        (hrows.map Ins.keys).nodup_iff.mpr hNM.nodup
      rw [hg]
      exact h1.sublist ((List.filter_sublist.map _).map _)
    refine ⟨x0, hx0, ?_, hsubL, hkeysnd⟩
    simp only
    rw [List.perm_ext_iff_of_nodup]
    · intro b
      rw [List.mem_filter, decide_eq_true_eq]
      constructor
      · intro hb
        obtain ⟨y, hy, rfl⟩ := List.mem_map.mp hb
        obtain ⟨p, hp, rfl⟩ := List.mem_map.mp hy
        rw [hg, List.mem_filter, decide_eq_true_eq] at hp
        obtain ⟨x, hx, e, t⟩ := hpid p hp.1
        rw [e, hbare x hx]
        refine ⟨List.mem_map.mpr ⟨x, hx, rfl⟩, ?_⟩
        apply hh (L.map Ins.bare) (nodup_bare hN) (fun _ h => h) _ (List.mem_map.mpr ⟨x, hx, rfl⟩) _
          (List.mem_map.mpr ⟨x0, hx0, rfl⟩)
        rw [hk0, ← hp.2, t]
      · rintro ⟨hb, hl⟩
        obtain ⟨x, hx, rfl⟩ := List.mem_map.mp hb
        have hm : f x ∈ (growPaths (n + 1) (L.map f)).map rowOf := hrows.mem_iff.mpr (List.mem_map.mpr ⟨x, hx, rfl⟩)
        obtain ⟨p, hp, e⟩ := List.mem_map.mp hm
        obtain ⟨x', hx', e', t⟩ := hpid p hp
        have hb' : x'.bare = x.bare := by
          rw [← hbare x' hx', ← hbare x hx, ← e, ← e']
        refine List.mem_map.mpr ⟨f x, List.mem_map.mpr ⟨p, ?_, e⟩, hbare x hx⟩
        rw [hg, List.mem_filter, decide_eq_true_eq]
        refine ⟨hp, ?_⟩
        rw [t, hb', hl, hk0]
    · have : ((g.map rowOf).map Ins.bare).map Ins.keys = (g.map rowOf).map Ins.keys := by
        rw [List.map_map, List.map_map, List.map_map]
        apply List.map_congr_left; intro y _; exact bare_keys _
      rw [← this] at hkeysnd
      exact nodup_of_map hkeysnd
    · exact (nodup_bare hN).sublist List.filter_sublist
  refine ⟨doneTree (n + 1) (L.map f), split, hp1, by omega, ?_, ?_⟩
  · intro p hp
    rw [hpaths] at hp
    obtain ⟨x, hx, e1, -, e2⟩ := htext p hp
    exact ⟨x, hx, e1, e2⟩
  intro hs
  refine ⟨(groupBy (fun p : List (Str × NodeData) => h (join ['/'] ([] :: p.map (fun kn => kn.2.pattern))))
      (growPaths (n + 1) (L.map f))).map (fun kg => kg.2.map rowOf), ?_, ?_, ?_⟩
  · rw [hsplit, List.map_map]; rfl
  · have hperm2 : (((groupBy (fun p : List (Str × NodeData) => h (join ['/'] ([] :: p.map (fun kn => kn.2.pattern))))
        (growPaths (n + 1) (L.map f))).map (fun kg => kg.2.map rowOf)).flatten).map Ins.bare =
        ((groupBy (fun p : List (Str × NodeData) => h (join ['/'] ([] :: p.map (fun kn => kn.2.pattern))))
        (growPaths (n + 1) (L.map f))).flatMap (fun kg => kg.2)).map (fun p => (rowOf p).bare) := by
      rw [← List.flatMap_def, List.map_flatMap, List.map_flatMap]
      simp only [List.map_map]; rfl
    rw [hperm2, groupBy_eq, List.flatMap_map]
    refine ((perm_partition _ _ _ (nodup_uniq _) (fun x hx => mem_uniq.mpr (List.mem_map.mpr ⟨x, hx, rfl⟩))).map _).trans ?_
    rw [← hbm]
    have := hrows.map Ins.bare
    rwa [List.map_map] at this
  · intro g0 hg0
    obtain ⟨kg, hkg, rfl⟩ := List.mem_map.mp hg0
    obtain ⟨x0, hx0, hperm, hsub, hnd⟩ := hgrp kg hkg
    have hgN : Normal (n + 1) (kg.2.map rowOf) :=
      ⟨fun x hx => hNM.len x (hsub x hx), hnd, fun x hx => hNM.metas x (hsub x hx)⟩
    have hMS : ∀ {OK : Nat → List ParsedPiece → Prop}, RowsOK OK (n + 1) L → RowsOK OK (n + 1) (L.map f) := by
      intro OK hS
      refine ⟨hNM.len, ?_, ?_, ?_⟩
      · intro y hy
        obtain ⟨x, hx, rfl⟩ := List.mem_map.mp hy
        rw [(hp2 x hx).1.2]; exact hS.pos x hx
      · intro j hj
        have : (L.map f).map (Ins.pp j) = L.map (Ins.pp j) := by
          rw [List.map_map]; exact List.map_congr_left (fun x hx => (hp2 x hx).1.pp j)
        rw [this]; exact hS.ok j hj
      · intro j hj y hy z hz e
        obtain ⟨x, hx, rfl⟩ := List.mem_map.mp hy
        obtain ⟨w, hw, rfl⟩ := List.mem_map.mp hz
        rw [(hp2 x hx).1.pp j, (hp2 w hw).1.pp j] at e ⊢
        exact hS.inj j hj x hx w hw e
    have hx0m : x0.bare ∈ (L.map Ins.bare).filter (fun y => decide (labs F (n + 1) 0 (L.map Ins.bare) y =
          labs F (n + 1) 0 (L.map Ins.bare) x0.bare)) :=
      List.mem_filter.mpr ⟨List.mem_map.mpr ⟨x0, hx0, rfl⟩, by simp⟩
    have hgne : kg.2.map rowOf ≠ [] := by
      intro e
      have := hperm.mem_iff.mpr hx0m
      rw [e] at this; simp at this
    have hglen : (kg.2.map rowOf).length < L.length := by
      have h1 := hperm.length_eq
      rw [List.length_map] at h1
      obtain ⟨x, hx, y, hy, hxy⟩ := hp3.mp hs
      have : ∃ z ∈ L.map Ins.bare, ¬ (labs F (n + 1) 0 (L.map Ins.bare) z = labs F (n + 1) 0 (L.map Ins.bare) x0.bare) := by
        apply Classical.byContradiction
        intro hno
        have hall : ∀ z ∈ L, labs F (n + 1) 0 L z = labs F (n + 1) 0 L x0 := by
          intro z hz
          apply Classical.byContradiction
          intro hz'
          exact hno ⟨z.bare, List.mem_map.mpr ⟨z, hz, rfl⟩, by rw [labs_bare, labs_bare]; exact hz'⟩
        exact hxy (by rw [hall x hx, hall y hy])
      obtain ⟨z, hz, hz'⟩ := this
      have hlt : ((L.map Ins.bare).filter (fun y => decide (labs F (n + 1) 0 (L.map Ins.bare) y =
          labs F (n + 1) 0 (L.map Ins.bare) x0.bare))).length < (L.map Ins.bare).length := by
        have hle := List.length_filter_le (fun y => decide (labs F (n + 1) 0 (L.map Ins.bare) y =
          labs F (n + 1) 0 (L.map Ins.bare) x0.bare)) (L.map Ins.bare)
        rcases Nat.lt_or_eq_of_le hle with h2 | h2
        · exact h2
        · exfalso
          rw [List.length_filter_eq_length_iff] at h2
          exact hz' (of_decide_eq_true (h2 z hz))
      rw [List.length_map] at hlt
      omega
    have hgsub : ∀ x ∈ (kg.2.map rowOf).map Ins.bare, x ∈ L.map Ins.bare := by
      intro x hx
      exact (List.mem_filter.mp (hperm.mem_iff.mp hx)).1
    exact ⟨hgN, (hMS hS).sub hL.mono hsub, hgne, hglen, hh.sub hgsub, x0.bare, List.mem_map.mpr ⟨x0, hx0, rfl⟩, hperm⟩

/-- The clusters are the trees of the calls that did not split. -/
theorem passes_erase (h : Runtime) (fuel : Nat) : ∀ (d : Nat) (t : Tree NodeData),
    clusterWith nested h mcn m kw fuel t =
      (passesWith nested h mcn m kw fuel d t).map (fun ps => (ps.filter (fun p => !p.split)).map Pass.after) := by
  induction fuel with
  | zero =>
    intro d t
    by_cases hc : t.root.count ≤ 0
    · simp [clusterWith, passesWith, hc, Except.map]
    · simp [clusterWith, passesWith, hc, Except.map]
  | succ fuel ih =>
    intro d t
    by_cases hc : t.root.count ≤ 0
    · simp [clusterWith, passesWith, hc, Except.map]
    · rw [clusterWith, passesWith, if_neg hc, if_neg hc]
      simp only [bind, Except.bind, pure, Except.pure]
      cases hp : process h nested mcn m kw t with
      | error e => rfl
      | ok r =>
        obtain ⟨t', split⟩ := r
        simp only
        cases split with
        | false => rfl
        | true =>
          simp only [if_true]
          cases hs : splitByPattern h t' with
          | error e => rfl
          | ok subs =>
            simp only
            have key : ∀ subs : List (Tree NodeData), subs.mapM (clusterWith nested h mcn m kw fuel) =
                (subs.mapM (passesWith nested h mcn m kw fuel (d + 1))).map
                  (List.map (fun ps => (ps.filter (fun p => !p.split)).map Pass.after)) := by
              intro subs
              induction subs with
              | nil => rfl
              | cons s subs ihs =>
                rw [List.mapM_cons, List.mapM_cons, ih (d + 1) s, ihs]
                simp only [bind, Except.bind, pure, Except.pure]
                cases passesWith nested h mcn m kw fuel (d + 1) s with
                | error e => rfl
                | ok a =>
                  simp only [Except.map]
                  cases subs.mapM (passesWith nested h mcn m kw fuel (d + 1)) with
                  | error e => rfl
                  | ok b => rfl
            rw [key subs]
            cases subs.mapM (passesWith nested h mcn m kw fuel (d + 1)) with
            | error e => rfl
            | ok rs =>
              simp only [Except.map, List.filter_cons, Bool.not_true, Bool.false_eq_true, if_false]
              congr 1
              rw [List.filter_flatten, List.map_flatten, List.map_map]
              rfl

/-- What the calls of one `cluster` promise: `N` rows, starting at depth `d`. -/
structure PassOK (N d : Nat) (ps : List Pass) : Prop where
  some : (ps.filter (fun p => !p.split)) ≠ []
  few : (ps.filter (fun p => p.split)).length < (ps.filter (fun p => !p.split)).length
  depth : ∀ p ∈ ps, d ≤ p.depth ∧ p.depth < d + (ps.filter (fun p => !p.split)).length
  work : (ps.map (fun p => p.before.paths.length)).sum ≤ N * (ps.filter (fun p => !p.split)).length
  clusters : (ps.filter (fun p => !p.split)).length ≤ N
  le : ∀ p ∈ ps, p.before.paths.length ≤ N

theorem PassOK.join {N d : Nat} {gs : List (Nat × List Pass)} (h : ∀ g ∈ gs, PassOK g.1 (d + 1) g.2 ∧ g.1 < N)
    (hN : (gs.map (·.1)).sum = N) (hpos : 0 < N) {p : Pass} (hd : p.depth = d) (hs : p.split = true) (hb : p.before.paths.length = N) :
    PassOK N d (p :: (gs.map (·.2)).flatten) := by
  -- leaves and splits of the parts
  have hlen : 2 ≤ gs.length := by
    match gs, hN, h with
    | [], hN, _ => simp at hN; omega
    | [g], hN, h => simp at hN; have := (h g (by simp)).2; omega
    | _ :: _ :: _, _, _ => simp
  have hsum : ∀ gs : List (Nat × List Pass), (∀ g ∈ gs, PassOK g.1 (d + 1) g.2 ∧ g.1 < N) →
      (((gs.map (·.2)).flatten).filter (fun p => p.split)).length + gs.length ≤ (((gs.map (·.2)).flatten).filter (fun p => !p.split)).length ∧
      (((gs.map (·.2)).flatten).filter (fun p => !p.split)).length ≤ (gs.map (·.1)).sum := by
    intro gs
    induction gs with
    | nil => intro _; simp
    | cons g gs ih =>
      intro h
      obtain ⟨h1, h2⟩ := ih (fun g hg => h g (by simp [hg]))
      have hg := (h g (by simp)).1
      simp only [List.map_cons, List.flatten_cons, List.filter_append, List.length_append, List.length_cons, List.sum_cons]
      have := hg.few
      have := hg.clusters
      omega
  obtain ⟨h1, h2⟩ := hsum gs h
  -- every part misses a cluster of the others
  have hpart : ∀ gs : List (Nat × List Pass), (∀ g ∈ gs, PassOK g.1 (d + 1) g.2 ∧ g.1 < N) → ∀ g ∈ gs,
      (g.2.filter (fun p => !p.split)).length + gs.length ≤ (((gs.map (·.2)).flatten).filter (fun p => !p.split)).length + 1 := by
    intro gs
    induction gs with
    | nil => intro _ g hg; simp at hg
    | cons g0 gs ih =>
      intro h g hg
      have h' : ∀ g ∈ gs, PassOK g.1 (d + 1) g.2 ∧ g.1 < N := fun g hg => h g (by simp [hg])
      simp only [List.map_cons, List.flatten_cons, List.filter_append, List.length_append, List.length_cons]
      rw [List.mem_cons] at hg
      rcases hg with rfl | hg
      · have := (hsum gs h').1
        omega
      · have := ih h' g hg
        have := (h g0 (by simp)).1.few
        omega
  have hwork : ∀ (K : Nat) (gs : List (Nat × List Pass)), (∀ g ∈ gs, PassOK g.1 (d + 1) g.2 ∧ (g.2.filter (fun p => !p.split)).length ≤ K) →
      (((gs.map (·.2)).flatten).map (fun p => p.before.paths.length)).sum ≤ (gs.map (·.1)).sum * K := by
    intro K gs
    induction gs with
    | nil => intro _; simp
    | cons g gs ih =>
      intro h
      have h1 := ih (fun g hg => h g (by simp [hg]))
      obtain ⟨hg, hk⟩ := h g (by simp)
      simp only [List.map_cons, List.flatten_cons, List.map_append, List.sum_append, List.sum_cons, Nat.add_mul]
      have := hg.work
      have := Nat.mul_le_mul_left g.1 hk
      omega
  have ef : (p :: (gs.map (·.2)).flatten).filter (fun p => !p.split) = ((gs.map (·.2)).flatten).filter (fun p => !p.split) := by
    rw [List.filter_cons, hs]; rfl
  have et : (p :: (gs.map (·.2)).flatten).filter (fun p => p.split) = p :: ((gs.map (·.2)).flatten).filter (fun p => p.split) := by
    rw [List.filter_cons, hs]; rfl
  refine ⟨?_, ?_, ?_, ?_, ?_, ?_⟩
  · rw [ef]; intro e; rw [e] at h1; simp only [List.length_nil] at h1; omega
  · rw [ef, et, List.length_cons]; omega
  · intro q hq
    rw [ef]
    rw [List.mem_cons] at hq
    rcases hq with rfl | hq
    · omega
    · obtain ⟨l, hl, hq⟩ := List.mem_flatten.mp hq
      obtain ⟨g, hg, rfl⟩ := List.mem_map.mp hl
      have h3 := (h g hg).1.depth q hq
      have h4 := hpart gs h g hg
      omega
  · rw [ef]
    have h3 := hwork ((((gs.map (·.2)).flatten).filter (fun p => !p.split)).length - 1) gs (fun g hg => ⟨(h g hg).1, by
      have := hpart gs h g hg; omega⟩)
    rw [hN] at h3
    simp only [List.map_cons, List.sum_cons, hb]
    obtain ⟨k, hk⟩ : ∃ k, (((gs.map (·.2)).flatten).filter (fun p => !p.split)).length = k + 1 := Nat.exists_eq_succ_of_ne_zero (by omega)
    rw [hk] at h3 ⊢
    simp only [Nat.add_sub_cancel] at h3
    rw [Nat.mul_succ]
    omega
  · rw [ef]; omega
  · intro q hq
    rw [List.mem_cons] at hq
    rcases hq with rfl | hq
    · omega
    · obtain ⟨l, hl, hq⟩ := List.mem_flatten.mp hq
      obtain ⟨g, hg, rfl⟩ := List.mem_map.mp hl
      have h3 := (h g hg).1.le q hq
      have h4 := (h g hg).2
      omega

/-- **The calls of `process`**, for a tree of distinct rows. -/
theorem passes_spec (h : Runtime) (hL : LevelOK h nested mcn m kw (n + 1) OK F) (hmcn : 2 ≤ mcn) (hd : m.depth = n + 1) :
    ∀ (fuel d : Nat) (L : List Ins), Normal (n + 1) L → RowsOK OK (n + 1) L → L ≠ [] → L.length ≤ fuel →
    HashSep h F (n + 1) (L.map Ins.bare) →
    ∃ ps, passesWith nested h mcn m kw fuel d (growTree (n + 1) L) = .ok ps ∧ PassOK L.length d ps := by
  intro fuel
  induction fuel with
  | zero =>
    intro d L _ _ hne hlen
    have := List.length_pos_iff.mpr hne
    omega
  | succ fuel ih =>
    intro d L hN hS hne hlen hh
    obtain ⟨t', split, h1, h2, -, h3⟩ := cluster_step h hL hmcn hd L hN hS hne hh
    have hpl : (growTree (n + 1) L).paths.length = L.length := by rw [paths_growTree hne, growPaths_count hN hne]
    have hpos := List.length_pos_iff.mpr hne
    rw [passesWith, if_neg (by omega), h1]
    simp only [bind, Except.bind, pure, Except.pure]
    cases split with
    | false =>
      refine ⟨_, rfl, ?_, ?_, ?_, ?_, ?_, ?_⟩
      · simp
      · simp
      · simp
      · simp [hpl]
      · simp; omega
      · simp [hpl]
    | true =>
      obtain ⟨gs, h4, h5, h6⟩ := h3 rfl
      simp only [if_true, h4]
      obtain ⟨ps, e1, e2, e3⟩ := mapM_pairs (f := fun g : List Ins => passesWith nested h mcn m kw fuel (d + 1) (growTree (n + 1) g))
        (r := fun ps : List Pass => ps) (l := gs) (P := fun g ps => PassOK g.length (d + 1) ps) (by
          intro g hg
          obtain ⟨a1, a2, a3, a4, a5, -⟩ := h6 g hg
          exact ih (d + 1) g a1 a2 a3 (by omega) a5)
      have e4 : (gs.map (growTree (n + 1))).mapM (passesWith nested h mcn m kw fuel (d + 1)) = .ok (ps.map (·.2)) := by
        rw [List.mapM_map]; exact e2
      rw [e4]
      refine ⟨_, rfl, ?_⟩
      have hj := PassOK.join (gs := ps.map (fun q => (q.1.length, q.2))) (N := L.length) (d := d) (p := ⟨d, growTree (n + 1) L, t', true⟩) (by
        intro g hg
        obtain ⟨q, hq, rfl⟩ := List.mem_map.mp hg
        exact ⟨e3 q hq, (h6 q.1 (by rw [← e1]; exact List.mem_map.mpr ⟨q, hq, rfl⟩)).2.2.2.1⟩) (by
        have := h5.length_eq
        rw [List.length_map, List.length_map, List.length_flatten, ← e1, List.map_map] at this
        rw [List.map_map]; exact this) hpos rfl rfl hpl
      rw [List.map_map] at hj
      exact hj

theorem passes_listed (h : Runtime) (fuel : Nat) : ∀ (d : Nat) (t : Tree NodeData) (ps : List Pass),
    passesWith nested h mcn m kw fuel d t = .ok ps →
    (t.root.count ≤ 0 ∧ ps = []) ∨ (0 < t.root.count ∧ Listed h nested mcn m kw d t ps) := by
  induction fuel with
  | zero =>
    intro d t ps hp
    by_cases hc : t.root.count ≤ 0
    · left
      rw [passesWith, if_pos hc] at hp
      injection hp with hp
      exact ⟨hc, hp.symm⟩
    · rw [passesWith, if_neg hc] at hp
      cases hp
  | succ fuel ih =>
    intro d t ps hp
    by_cases hc : t.root.count ≤ 0
    · left
      rw [passesWith, if_pos hc] at hp
      injection hp with hp
      exact ⟨hc, hp.symm⟩
    · right
      refine ⟨by omega, ?_⟩
      rw [passesWith, if_neg hc] at hp
      simp only [bind, Except.bind, pure, Except.pure] at hp
      cases hpr : process h nested mcn m kw t with
      | error e => rw [hpr] at hp; cases hp
      | ok r =>
        obtain ⟨t', split⟩ := r
        rw [hpr] at hp
        simp only at hp
        cases split with
        | false =>
          simp only [Bool.false_eq_true, if_false] at hp
          injection hp with hp
          subst hp
          refine ⟨⟨_, rfl, rfl, rfl⟩, ?_, ?_, ?_⟩
          · intro p hp; rw [List.mem_singleton] at hp; subst hp; exact hpr
          · intro p hp hs; rw [List.mem_singleton] at hp; subst hp; cases hs
          · intro p hp; rw [List.mem_singleton] at hp; subst hp; exact .inl ⟨rfl, rfl⟩
        | true =>
          simp only [if_true] at hp
          cases hsp : splitByPattern h t' with
          | error e => rw [hsp] at hp; cases hp
          | ok subs =>
            rw [hsp] at hp
            simp only at hp
            cases hrs : subs.mapM (passesWith nested h mcn m kw fuel (d + 1)) with
            | error e => rw [hrs] at hp; cases hp
            | ok rs =>
              rw [hrs] at hp
              simp only at hp
              injection hp with hp
              subst hp
              -- the lists of the parts
              have key : ∀ (subs : List (Tree NodeData)) (rs : List (List Pass)), subs.mapM (passesWith nested h mcn m kw fuel (d + 1)) = .ok rs →
                  (∀ r ∈ rs, ∃ s ∈ subs, passesWith nested h mcn m kw fuel (d + 1) s = .ok r) ∧
                  (∀ s ∈ subs, ∃ r ∈ rs, passesWith nested h mcn m kw fuel (d + 1) s = .ok r) := by
                intro subs
                induction subs with
                | nil =>
                  intro rs hrs
                  rw [List.mapM_nil] at hrs
                  injection hrs with hrs
                  subst hrs
                  simp
                | cons s subs ihs =>
                  intro rs hrs
                  rw [List.mapM_cons] at hrs
                  simp only [bind, Except.bind, pure, Except.pure] at hrs
                  cases hs : passesWith nested h mcn m kw fuel (d + 1) s with
                  | error e => rw [hs] at hrs; cases hrs
                  | ok r =>
                    rw [hs] at hrs
                    simp only at hrs
                    cases hr : subs.mapM (passesWith nested h mcn m kw fuel (d + 1)) with
                    | error e => rw [hr] at hrs; cases hrs
                    | ok rs' =>
                      rw [hr] at hrs
                      simp only at hrs
                      injection hrs with hrs
                      subst hrs
                      obtain ⟨a, b⟩ := ihs rs' hr
                      constructor
                      · intro x hx
                        rw [List.mem_cons] at hx
                        rcases hx with rfl | hx
                        · exact ⟨s, by simp, hs⟩
                        · obtain ⟨s', hs', e⟩ := a x hx
                          exact ⟨s', by simp [hs'], e⟩
                      · intro x hx
                        rw [List.mem_cons] at hx
                        rcases hx with rfl | hx
                        · exact ⟨r, by simp, hs⟩
                        · obtain ⟨r', hr', e⟩ := b x hx
                          exact ⟨r', by simp [hr'], e⟩
              obtain ⟨k1, k2⟩ := key subs rs hrs
              have part : ∀ q ∈ rs.flatten, ∃ r ∈ rs, ∃ s ∈ subs, q ∈ r ∧ Listed h nested mcn m kw (d + 1) s r := by
                intro q hq
                obtain ⟨r, hr, hq⟩ := List.mem_flatten.mp hq
                obtain ⟨s, hs, e⟩ := k1 r hr
                rcases ih (d + 1) s r e with ⟨_, e2⟩ | ⟨_, e2⟩
                · subst e2; simp at hq
                · exact ⟨r, hr, s, hs, hq, e2⟩
              refine ⟨⟨_, rfl, rfl, rfl⟩, ?_, ?_, ?_⟩
              · intro p hp
                rw [List.mem_cons] at hp
                rcases hp with rfl | hp
                · exact hpr
                · obtain ⟨r, hr, s, hs, hq, hL⟩ := part p hp
                  exact hL.call p hq
              · intro p hp hs
                rw [List.mem_cons] at hp
                rcases hp with rfl | hp
                · refine ⟨subs, hsp, ?_⟩
                  intro s hs hpos
                  obtain ⟨r, hr, e⟩ := k2 s hs
                  rcases ih (d + 1) s r e with ⟨e1, _⟩ | ⟨_, e2⟩
                  · omega
                  · obtain ⟨q, hq, hq1, hq2⟩ := e2.first
                    exact ⟨q, List.mem_cons_of_mem _ (List.mem_flatten.mpr ⟨r, hr, List.mem_of_head? hq⟩), hq2, hq1⟩
                · obtain ⟨r, hr, s, hs', hq, hL⟩ := part p hp
                  obtain ⟨subs', a, b⟩ := hL.down p hq hs
                  refine ⟨subs', a, fun s hs hpos => ?_⟩
                  obtain ⟨q, hq, e⟩ := b s hs hpos
                  exact ⟨q, List.mem_cons_of_mem _ (List.mem_flatten.mpr ⟨r, hr, hq⟩), e⟩
              · intro p hp
                rw [List.mem_cons] at hp
                rcases hp with rfl | hp
                · exact .inl ⟨rfl, rfl⟩
                · right
                  obtain ⟨r, hr, s, hs', hq, hL⟩ := part p hp
                  rcases hL.up p hq with ⟨a, b⟩ | ⟨q, hq, a, b, c⟩
                  · exact ⟨_, List.mem_cons_self, rfl, a, subs, hsp, by rw [b]; exact hs'⟩
                  · exact ⟨q, List.mem_cons_of_mem _ (List.mem_flatten.mpr ⟨r, hr, hq⟩), a, b, c⟩

/-- Generators that are never reached are not needed. -/
theorem passes_fuel (h : Runtime) (fuel : Nat) : ∀ (f d : Nat) (t : Tree NodeData) (ps : List Pass),
    passesWith nested h mcn m kw fuel d t = .ok ps → (∀ p ∈ ps, p.depth < d + f) → passesWith nested h mcn m kw f d t = .ok ps := by
  induction fuel with
  | zero =>
    intro f d t ps hp _
    by_cases hc : t.root.count ≤ 0
    · rw [passesWith, if_pos hc] at hp
      cases f with
      | zero => rw [passesWith, if_pos hc]; exact hp
      | succ f => rw [passesWith, if_pos hc]; exact hp
    · rw [passesWith, if_neg hc] at hp
      cases hp
  | succ fuel ih =>
    intro f d t ps hp hd
    by_cases hc : t.root.count ≤ 0
    · rw [passesWith, if_pos hc] at hp
      cases f with
      | zero => rw [passesWith, if_pos hc]; exact hp
      | succ f => rw [passesWith, if_pos hc]; exact hp
    · rw [passesWith, if_neg hc] at hp
      simp only [bind, Except.bind, pure, Except.pure] at hp
      cases hpr : process h nested mcn m kw t with
      | error e => rw [hpr] at hp; cases hp
      | ok r =>
        obtain ⟨t', split⟩ := r
        rw [hpr] at hp
        simp only at hp
        cases split with
        | false =>
          simp only [Bool.false_eq_true, if_false] at hp
          injection hp with hp
          subst hp
          have := hd _ List.mem_cons_self
          simp only at this
          obtain ⟨f', rfl⟩ : ∃ f', f = f' + 1 := ⟨f - 1, by omega⟩
          rw [passesWith, if_neg hc, hpr]
          rfl
        | true =>
          simp only [if_true] at hp
          cases hsp : splitByPattern h t' with
          | error e => rw [hsp] at hp; cases hp
          | ok subs =>
            rw [hsp] at hp
            simp only at hp
            cases hrs : subs.mapM (passesWith nested h mcn m kw fuel (d + 1)) with
            | error e => rw [hrs] at hp; cases hp
            | ok rs =>
              rw [hrs] at hp
              simp only at hp
              injection hp with hp
              subst hp
              have h0 := hd _ List.mem_cons_self
              simp only at h0
              obtain ⟨f', rfl⟩ : ∃ f', f = f' + 1 := ⟨f - 1, by omega⟩
              have key : ∀ (subs : List (Tree NodeData)) (rs : List (List Pass)), subs.mapM (passesWith nested h mcn m kw fuel (d + 1)) = .ok rs →
                  (∀ r ∈ rs, ∀ p ∈ r, p.depth < d + 1 + f') → subs.mapM (passesWith nested h mcn m kw f' (d + 1)) = .ok rs := by
                intro subs
                induction subs with
                | nil => intro rs hrs _; exact hrs
                | cons s subs ihs =>
                  intro rs hrs hd
                  rw [List.mapM_cons] at hrs ⊢
                  simp only [bind, Except.bind, pure, Except.pure] at hrs ⊢
                  cases hs : passesWith nested h mcn m kw fuel (d + 1) s with
                  | error e => rw [hs] at hrs; cases hrs
                  | ok r =>
                    rw [hs] at hrs
                    simp only at hrs
                    cases hr : subs.mapM (passesWith nested h mcn m kw fuel (d + 1)) with
                    | error e => rw [hr] at hrs; cases hrs
                    | ok rs' =>
                      rw [hr] at hrs
                      simp only at hrs
                      injection hrs with hrs
                      subst hrs
                      rw [ih f' (d + 1) s r hs (hd r (by simp)), ihs rs' hr (fun r hr => hd r (by simp [hr]))]
              have hk := key subs rs hrs (by
                intro r hr p hp
                have := hd p (List.mem_cons_of_mem _ (List.mem_flatten.mpr ⟨r, hr, hp⟩))
                omega)
              rw [passesWith, if_neg hc, hpr]
              simp only [bind, Except.bind, pure, Except.pure, if_true, hsp, hk]

end OsUrl
