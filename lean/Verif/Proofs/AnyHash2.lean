import Verif.Proofs.AnyHash

/-! Dividing a tree with an arbitrary `hash`. -/

namespace OsUrl

section
variable {rt : Runtime} {nested : NestedCluster} {mcn : Int} {m : URLMeta} {kw : Bool} {n : Nat}
  {OK : Nat → List ParsedPiece → Prop}

theorem process_any (hL : LevelAny rt nested mcn m kw (n + 1) OK) (hmcn : 2 ≤ mcn) (hd : m.depth = n + 1)
    {L : List Ins} (hS : RowsOK OK (n + 1) L) (hne : L ≠ []) :
    RecOr (process rt nested mcn m kw (growTree (n + 1) L)) (fun r => ∃ f : Ins → Ins, r.1 = doneTree (n + 1) (L.map f) ∧
      (∀ x ∈ L, SameRow (f x) x ∧ (f x).metas = x.metas ∧ (f x).Full) ∧ PathCoh (L.map f) ∧
      (r.2 = false → ∃ qs : List Str, ∀ x ∈ L, (f x).path.map (·.2) = qs.map some)) := by
  have hcount : (growTree (n + 1) L).root.count = total L := growTree_count _ _
  have hpos := total_pos hS.pos hne
  have hb : rt.bucket [rootNode (n + 1) L] = [⟨rootNode (n + 1) L, []⟩] := rtBucket_one rt _
  have hpc : (rootNode (n + 1) L).data.pp.piece = [] := by
    show (growTree (n + 1) L).root.pp.piece = []
    rw [growTree_root_pp]; rfl
  have hbc : (⟨rootNode (n + 1) L, []⟩ : PieceBag).count = total L := by
    simp only [PieceBag.count, PieceBag.nodes, List.map_cons, List.map_nil, List.sum_cons, List.sum_nil]
    show (growTree (n + 1) L).root.count + 0 = total L
    rw [hcount]; omega
  have hstage : processStages rt nested ⟨mcn, 0, false, m.pathDepth == 0, kw⟩ [⟨rootNode (n + 1) L, []⟩] =
      .ok (literalAll [⟨rootNode (n + 1) L, []⟩] ⟨[], 0, [], [], [], []⟩) := by
    apply stages_literal (by show 1 ≤ mcn; omega)
    unfold pieceStage
    simp only [List.isEmpty_cons, Bool.false_eq_true, if_false, false_and, List.length_cons, List.length_nil]
    rw [if_pos (by show ((0 + 1 : Nat) : Int) < mcn; omega)]
    simp only [List.map_cons, List.map_nil, maxCount, List.foldl_nil, bind, Except.bind, pure, Except.pure, Bucket.count,
      List.sum_cons, List.sum_nil, hbc, Int.add_zero]
    rw [confused_self _ _ hpos hmcn]
    rfl
  have hpat : (literalAll [⟨rootNode (n + 1) L, []⟩] ⟨[], 0, [], [], [], []⟩).assign.pattern [] = [] := by
    unfold literalAll
    exact set_pattern_self _ _ _ rfl
  have hnum : ¬ (literalAll [⟨rootNode (n + 1) L, []⟩] ⟨[], 0, [], [], [], []⟩).patternNum > 1 := by
    simp [literalAll, patternSet, setAdd]
  have hproc : RecOr (procLevel rt nested mcn m kw (n + 1) 0 [rootNode (n + 1) L])
      (fun r => ∃ asg, r.1 = ([], []) :: asg ∧ ProcAny L n 0 (asg, r.2)) := by
    have hp1 := proc_any hL n 0 L (childNodes (rootNode (n + 1) L)) (by omega) hS (root_children hS) hne
    rcases hp1 with hp1 | ⟨⟨asg, split⟩, hp1, hp2⟩
    · left
      unfold procLevel
      simp only [hb, hstage, bind, Except.bind, pure, Except.pure, List.flatMap_cons, List.flatMap_nil, PieceBag.nodes,
        List.append_nil, List.map_cons, List.map_nil, groupBy, List.foldl_cons, List.foldl_nil, Dict.upd,
        Option.getD_none, List.nil_append, List.mapM_cons, List.mapM_nil, Nat.zero_add] at hp1 ⊢
      rw [hp1]
    · right
      refine ⟨(([], []) :: asg, split), ?_, asg, rfl, hp2⟩
      unfold procLevel
      simp only [hb, hstage, bind, Except.bind, pure, Except.pure, List.flatMap_cons, List.flatMap_nil, PieceBag.nodes,
        List.append_nil, List.map_cons, List.map_nil, groupBy, List.foldl_cons, List.foldl_nil, Dict.upd,
        Option.getD_none, List.nil_append, List.mapM_cons, List.mapM_nil, Nat.zero_add] at hp1 ⊢
      rw [hp1]
      simp only [List.flatMap_cons, List.flatMap_nil, List.append_nil, hnum, if_false, hpc, hpat]
      rfl
  unfold process
  rw [hd]
  refine RecOr.bind hproc ?_
  rintro ⟨asg', split⟩ ⟨asg, e, hpr⟩
  simp only at e
  subst e
  -- looking up the patterns
  have hsome : ∀ x ∈ L, ∀ k, k ≤ n → ∃ q, Dict.get? (x.keys.take (k + 1)) (([], []) :: asg) = some q ∧
      (x.keys.take (k + 1), q) ∈ asg := by
    intro x hx k hk
    have hxl : x.keys.length = n + 1 := by simp [Ins.keys, hS.len x hx]
    have hne' : x.keys.take (k + 1) ≠ [] := by
      intro e
      have := congrArg List.length e
      rw [List.length_take, hxl, List.length_nil] at this
      omega
    rw [show Dict.get? (x.keys.take (k + 1)) (([], []) :: asg) = Dict.get? (x.keys.take (k + 1)) asg by
      simp only [Dict.get?]; rw [if_neg (fun e => hne' e.symm)]]
    cases hg : Dict.get? (x.keys.take (k + 1)) asg with
    | none =>
      rw [Dict.get?_none] at hg
      obtain ⟨q, hq⟩ := hpr.all x hx k hk
      rw [show 0 + 1 + k = k + 1 by omega] at hq
      exact absurd (List.mem_map.mpr ⟨_, hq, rfl⟩) hg
    | some q => exact ⟨q, rfl, Dict.get?_mem hg⟩
  have hpath : ∀ x ∈ L, ∀ j, (repat (fun p => Dict.get? p (([], []) :: asg)) [] x.path)[j]? =
      x.path[j]?.map (fun a => (a.1, (Dict.get? (x.keys.take (j + 1)) (([], []) :: asg)).or a.2)) := by
    intro x _ j
    rw [repat_getElem]
    rfl
  refine .inr ⟨_, rfl, Ins.repat (fun p => Dict.get? p (([], []) :: asg)) [], ?_, ?_, ?_, ?_⟩
  · simp only
    unfold doneTree
    congr 1
    · simp only [growTree]
      rw [foldl_act_same L (Ins.repat (fun p => Dict.get? p (([], []) :: asg)) []) (fun x _ => ⟨rfl, rfl, same_path_nil (repat_same _ _ x)⟩)]
      rfl
    · exact annotate_grow _ _ _ _ hS.len
  · intro x hx
    refine ⟨repat_same _ _ x, rfl, ?_⟩
    intro a ha
    obtain ⟨j, hj⟩ := List.getElem?_of_mem ha
    have h1 := hpath x hx j
    rw [show (repat (fun p => Dict.get? p (([], []) :: asg)) [] x.path)[j]? = some a from hj] at h1
    have hjn : j < x.path.length := by
      apply Classical.byContradiction
      intro hge
      rw [List.getElem?_eq_none (by omega)] at h1
      cases h1
    rw [List.getElem?_eq_getElem hjn] at h1
    obtain ⟨q, hq, _⟩ := hsome x hx j (by have := hS.len x hx; omega)
    rw [hq] at h1
    simp only [Option.map_some, Option.some.injEq] at h1
    rw [h1]; rfl
  · intro y hy z hz j e
    obtain ⟨x, hx, rfl⟩ := List.mem_map.mp hy
    obtain ⟨w, hw, rfl⟩ := List.mem_map.mp hz
    rw [(repat_same _ _ x).keys, (repat_same _ _ w).keys] at e
    show (repat _ [] x.path)[j]? = (repat _ [] w.path)[j]?
    rw [hpath x hx, hpath w hw]
    have hxl := hS.len x hx
    have hwl := hS.len w hw
    by_cases hj : j < n + 1
    · have hpp := (take_pp hS hx hw (show j + 1 ≤ n + 1 by omega)).mp e j (by omega)
      obtain ⟨q, hq, _⟩ := hsome x hx j (by omega)
      rw [← e, hq]
      unfold Ins.pp at hpp
      rw [List.getElem?_eq_getElem (by omega), List.getElem?_eq_getElem (by omega)] at hpp ⊢
      simp only [Option.map_some, Option.getD_some] at hpp ⊢
      rw [hpp]; rfl
    · rw [List.getElem?_eq_none (by omega), List.getElem?_eq_none (by omega)]; rfl
  · intro hs
    obtain ⟨qs, hl, hq⟩ := hpr.unif hs
    refine ⟨qs, ?_⟩
    intro x hx
    apply List.ext_getElem?
    intro j
    rw [List.getElem?_map, List.getElem?_map]
    show ((repat _ [] x.path)[j]?).map _ = _
    rw [hpath x hx]
    have hxl := hS.len x hx
    by_cases hj : j < n + 1
    · obtain ⟨q, hq1, hq2⟩ := hsome x hx j (by omega)
      have hkl : (x.keys.take (j + 1)).length = 0 + 1 + j := by
        rw [List.length_take]; simp [Ins.keys, hxl]; omega
      rw [hq1, hq _ hq2 j hkl, List.getElem?_eq_getElem (by omega)]
      rfl
    · rw [List.getElem?_eq_none (by omega), List.getElem?_eq_none (by omega)]; rfl

/-- A finished cluster: its rows are written into a tree with one pattern list. -/
structure Done (n : Nat) (C : List Ins) : Prop where
  ne : C ≠ []
  normal : Normal n C
  coh : PathCoh C
  unif : ∃ qs : List Str, ∀ x ∈ C, x.path.map (·.2) = qs.map some

theorem Done.full {C : List Ins} (h : Done n C) : ∀ x ∈ C, x.Full := by
  intro x hx a ha
  obtain ⟨qs, hq⟩ := h.unif
  have : a.2 ∈ x.path.map (·.2) := List.mem_map.mpr ⟨a, ha, rfl⟩
  rw [hq x hx] at this
  obtain ⟨q, _, e⟩ := List.mem_map.mp this
  rw [← e]; rfl

/-- **Any hash**: the clustering of rows ends in a `RecursionError`, or its clusters divide the rows and each of them
has one pattern list. -/
theorem cluster_any (h : Runtime) (hL : LevelAny h nested mcn m kw (n + 1) OK) (hmcn : 2 ≤ mcn) (hd : m.depth = n + 1) :
    ∀ (fuel : Nat) (L : List Ins), Normal (n + 1) L → RowsOK OK (n + 1) L → L ≠ [] →
    RecOr (clusterWith nested h mcn m kw fuel (growTree (n + 1) L)) (fun ts => ∃ Cs : List (List Ins),
      ts = Cs.map (doneTree (n + 1)) ∧ (Cs.flatten.map Ins.bare).Perm (L.map Ins.bare) ∧ ∀ C ∈ Cs, Done (n + 1) C) := by
  intro fuel
  induction fuel with
  | zero =>
    intro L hN hS hne
    left
    have hcount : (growTree (n + 1) L).root.count = total L := growTree_count _ _
    have hpos := total_pos hS.pos hne
    unfold clusterWith
    rw [if_neg (by omega)]
  | succ fuel ih =>
    intro L hN hS hne
    have hcount : (growTree (n + 1) L).root.count = total L := growTree_count _ _
    have hpos := total_pos hS.pos hne
    unfold clusterWith
    rw [if_neg (by omega)]
    refine RecOr.bind (process_any hL hmcn hd hS hne) ?_
    rintro ⟨t', split⟩ ⟨f, ht, hp2, hcoh, hun⟩
    simp only at ht hun
    subst ht
    have hkeys : (L.map f).map Ins.keys = L.map Ins.keys := by
      rw [List.map_map]; exact List.map_congr_left (fun x hx => (hp2 x hx).1.keys)
    have hbare : ∀ x ∈ L, (f x).bare = x.bare := fun x hx => bare_of_same (hp2 x hx).1 (hp2 x hx).2.1
    have hbm : (L.map f).map Ins.bare = L.map Ins.bare := by
      rw [List.map_map]; exact List.map_congr_left hbare
    have hNM : Normal (n + 1) (L.map f) := by
      refine ⟨?_, by rw [hkeys]; exact hN.nodup, ?_⟩
      · intro y hy
        obtain ⟨x, hx, rfl⟩ := List.mem_map.mp hy
        have := congrArg List.length (hp2 x hx).1.1
        simp only [List.length_map] at this
        rw [this, hN.len x hx]
      · intro y hy
        obtain ⟨x, hx, rfl⟩ := List.mem_map.mp hy
        rw [(hp2 x hx).2.1]; exact hN.metas x hx
    have hfull : ∀ y ∈ L.map f, y.Full := by
      intro y hy
      obtain ⟨x, hx, rfl⟩ := List.mem_map.mp hy
      exact (hp2 x hx).2.2
    have hMne : L.map f ≠ [] := by simpa using hne
    cases split with
    | false =>
      simp only [Bool.false_eq_true, if_false]
      refine .inr ⟨_, rfl, [L.map f], rfl, by
        simp only [List.flatten_cons, List.flatten_nil, List.append_nil]; rw [hbm], ?_⟩
      intro C hC
      rw [List.mem_singleton] at hC
      subst hC
      refine ⟨hMne, hNM, hcoh, ?_⟩
      obtain ⟨qs, hq⟩ := hun rfl
      refine ⟨qs, ?_⟩
      intro y hy
      obtain ⟨x, hx, rfl⟩ := List.mem_map.mp hy
      exact hq x hx
    | true =>
      simp only [if_true]
      have hpaths : (doneTree (n + 1) (L.map f)).paths = growPaths (n + 1) (L.map f) := by
        rw [← paths_growTree hMne]; rfl
      have hpl : ∀ p ∈ growPaths (n + 1) (L.map f), p.length = n + 1 := growPaths_length
      have hroot : (doneTree (n + 1) (L.map f)).root.pattern = [] := rfl
      have hsp := splitLoop_grow (n := n) h [] (growPaths (n + 1) (L.map f)) hpl [] (by simp)
      simp only [groupBy, List.foldl_nil, List.map_nil, List.nil_append] at hsp
      have hsplit : splitByPattern h (doneTree (n + 1) (L.map f)) =
          .ok ((groupBy (fun p : List (Str × NodeData) => h (join ['/'] ([] :: p.map (fun kn => kn.2.pattern))))
            (growPaths (n + 1) (L.map f))).map (fun kg => growTree (n + 1) (kg.2.map rowOf))) := by
        unfold splitByPattern
        rw [hroot, hpaths, hsp]
        simp only [bind, Except.bind, pure, Except.pure, List.map_map]
        rfl
      rw [hsplit]
      have hrows := rows_of_paths hNM hcoh hfull
      have hMS : RowsOK OK (n + 1) (L.map f) := by
        refine ⟨hNM.len, ?_, ?_, ?_⟩
        · intro y hy
          obtain ⟨x, hx, rfl⟩ := List.mem_map.mp hy
          rw [(hp2 x hx).1.2]; exact hS.pos x hx
        · intro j hj
          have : (L.map f).map (Ins.pp j) = L.map (Ins.pp j) := by
            rw [List.map_map]; exact List.map_congr_left (fun x hx => (hp2 x hx).1.pp j)
          rw [this]; exact hS.ok j hj
        · intro j hj y hy z hz e
          obtain ⟨x, hx, rfl⟩ := List.mem_map.mp hy
          obtain ⟨w, hw, rfl⟩ := List.mem_map.mp hz
          rw [(hp2 x hx).1.pp j, (hp2 w hw).1.pp j] at e ⊢
          exact hS.inj j hj x hx w hw e
      have hrec : ∀ kg ∈ groupBy (fun p : List (Str × NodeData) => h (join ['/'] ([] :: p.map (fun kn => kn.2.pattern))))
          (growPaths (n + 1) (L.map f)),
          RecOr (clusterWith nested h mcn m kw fuel (growTree (n + 1) (kg.2.map rowOf))) (fun ts => ∃ Cs : List (List Ins),
            ts = Cs.map (doneTree (n + 1)) ∧
            ((Cs.flatten.map Ins.bare).Perm ((kg.2.map rowOf).map Ins.bare) ∧ ∀ C ∈ Cs, Done (n + 1) C)) := by
        rintro ⟨k, g⟩ hkg
        obtain ⟨hk, hg⟩ := mem_groupBy hkg
        obtain ⟨p0, hp0, hk0⟩ := List.mem_map.mp hk
        have hsubL : ∀ y ∈ g.map rowOf, y ∈ L.map f := by
          intro y hy
          obtain ⟨p, hp, rfl⟩ := List.mem_map.mp hy
          rw [hg, List.mem_filter] at hp
          exact hrows.mem_iff.mp (List.mem_map.mpr ⟨p, hp.1, rfl⟩)
        have hkeysnd : ((g.map rowOf).map Ins.keys).Nodup := by
          have h1 : (((growPaths (n + 1) (L.map f)).map rowOf).map Ins.keys).Nodup :=
            (hrows.map Ins.keys).nodup_iff.mpr hNM.nodup
          rw [hg]
          exact h1.sublist ((List.filter_sublist.map _).map _)
        refine ih (g.map rowOf) ⟨fun x hx => hNM.len x (hsubL x hx), hkeysnd, fun x hx => hNM.metas x (hsubL x hx)⟩
          (hMS.sub hL.mono hsubL) ?_
        have : p0 ∈ g := by rw [hg, List.mem_filter]; exact ⟨hp0, decide_eq_true hk0⟩
        exact List.ne_nil_of_mem (List.mem_map.mpr ⟨p0, this, rfl⟩)
      show RecOr (((groupBy _ _).map _).mapM (clusterWith nested h mcn m kw fuel) >>= _) _
      rw [List.mapM_map]
      refine RecOr.bind (RecOr.mapM (f := fun kg : Nat × List (List (Str × NodeData)) =>
        clusterWith nested h mcn m kw fuel (growTree (n + 1) (kg.2.map rowOf)))
        (r := fun Cs : List (List Ins) => Cs.map (doneTree (n + 1))) hrec) ?_
      rintro rs ⟨ps, e1, rfl, e3⟩
      refine .inr ⟨_, rfl, (ps.map (·.2)).flatten, ?_, ?_, ?_⟩
      · simp only [List.map_flatten, List.map_map, Function.comp_def]
      · have ht : (ps.map (·.2)).flatten.flatten.map Ins.bare = ps.flatMap (fun p => p.2.flatten.map Ins.bare) := by
          clear e1 e3
          induction ps with
          | nil => rfl
          | cons p ps ih' => simp [ih']
        rw [ht]
        refine (perm_flatMap (fun p hp => (e3 p hp).1)).trans ?_
        have hperm2 : (ps.flatMap (fun p => (p.1.2.map rowOf).map Ins.bare)) =
            ((groupBy (fun p : List (Str × NodeData) => h (join ['/'] ([] :: p.map (fun kn => kn.2.pattern))))
            (growPaths (n + 1) (L.map f))).flatMap (fun kg => kg.2)).map (fun p => (rowOf p).bare) := by
          rw [← e1, List.flatMap_map, List.map_flatMap]
          simp only [List.map_map]; rfl
        rw [hperm2, groupBy_eq, List.flatMap_map]
        refine ((perm_partition _ _ _ (nodup_uniq _) (fun x hx => mem_uniq.mpr (List.mem_map.mpr ⟨x, hx, rfl⟩))).map _).trans ?_
        rw [← hbm]
        have := hrows.map Ins.bare
        rwa [List.map_map] at this
      · intro C hC
        rw [List.mem_flatten] at hC
        obtain ⟨l, hl, hC⟩ := hC
        obtain ⟨p, hp, rfl⟩ := List.mem_map.mp hl
        exact (e3 p hp).2 C hC

end

end OsUrl
