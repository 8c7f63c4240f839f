import Verif.Proofs.Clu

/-! `cluster` on rows. -/

namespace OsUrl

theorem mapM_pairs {α β γ : Type} {f : α → Py γ} {r : β → γ} {l : List α} {P : α → β → Prop}
    (h : ∀ a ∈ l, ∃ b, f a = .ok (r b) ∧ P a b) :
    ∃ ps : List (α × β), ps.map (·.1) = l ∧ l.mapM f = .ok (ps.map (fun p => r p.2)) ∧ ∀ p ∈ ps, P p.1 p.2 := by
  induction l with
  | nil => exact ⟨[], rfl, rfl, by simp⟩
  | cons a l ih =>
    obtain ⟨b, h1, h2⟩ := h a (by simp)
    obtain ⟨ps, e1, e2, e3⟩ := ih (fun a ha => h a (by simp [ha]))
    refine ⟨(a, b) :: ps, by simp [e1], ?_, ?_⟩
    · rw [List.mapM_cons, h1, e2]; rfl
    · intro p hp
      rw [List.mem_cons] at hp
      rcases hp with rfl | hp
      · exact h2
      · exact e3 p hp

/-- All rows have the same patterns. -/
def unif (F : LevelFn) (n : Nat) (S : List Ins) : Bool :=
  S.all (fun x => S.all (fun y => decide (labs F n 0 S x = labs F n 0 S y)))

theorem unif_iff {F : LevelFn} {n : Nat} {S : List Ins} :
    unif F n S = true ↔ ∀ x ∈ S, ∀ y ∈ S, labs F n 0 S x = labs F n 0 S y := by
  simp [unif]

/-- The rows that end in one cluster with `x`. -/
def famN (F : LevelFn) (n : Nat) : Nat → List Ins → Ins → List Ins
  | 0, S, _ => S
  | f + 1, S, x =>
    if unif F n S then S
    else famN F n f (S.filter (fun y => decide (labs F n 0 S y = labs F n 0 S x))) x

theorem unif_perm {F : LevelFn} (hF : PermInv F) {n : Nat} {S S' : List Ins} (h : S.Perm S') : unif F n S = unif F n S' := by
  rw [Bool.eq_iff_iff, unif_iff, unif_iff]
  constructor
  · intro H x hx y hy
    rw [← labs_perm hF h x, ← labs_perm hF h y]
    exact H x (h.mem_iff.mpr hx) y (h.mem_iff.mpr hy)
  · intro H x hx y hy
    rw [labs_perm hF h x, labs_perm hF h y]
    exact H x (h.mem_iff.mp hx) y (h.mem_iff.mp hy)

theorem famN_perm {F : LevelFn} (hF : PermInv F) {n : Nat} (f : Nat) {S S' : List Ins} (h : S.Perm S') (x : Ins) :
    (famN F n f S x).Perm (famN F n f S' x) := by
  induction f generalizing S S' with
  | zero => exact h
  | succ f ih =>
    rw [famN, famN, unif_perm hF h]
    split
    · exact h
    · apply ih
      have : (fun y => decide (labs F n 0 S y = labs F n 0 S x)) = (fun y => decide (labs F n 0 S' y = labs F n 0 S' x)) := by
        funext y; rw [labs_perm hF h y, labs_perm hF h x]
      rw [this]
      exact h.filter _

theorem famN_sub {F : LevelFn} {n : Nat} (f : Nat) (S : List Ins) (x : Ins) : ∀ y ∈ famN F n f S x, y ∈ S := by
  induction f generalizing S with
  | zero => intro y hy; exact hy
  | succ f ih =>
    intro y hy
    rw [famN] at hy
    split at hy
    · exact hy
    · exact (List.mem_filter.mp (ih _ y hy)).1

theorem famN_self {F : LevelFn} {n : Nat} (f : Nat) (S : List Ins) (x : Ins) (hx : x ∈ S) : x ∈ famN F n f S x := by
  induction f generalizing S with
  | zero => exact hx
  | succ f ih =>
    rw [famN]
    split
    · exact hx
    · exact ih _ (List.mem_filter.mpr ⟨hx, by simp⟩)

/-- The text that is hashed to divide a tree. -/
def pidText (pats : List Str) : Str := join ['/'] ([] :: pats)

/-- The hash tells the pattern paths apart that occur for parts of these rows. -/
def HashSep (h : Runtime) (F : LevelFn) (n : Nat) (R : List Ins) : Prop :=
  ∀ S : List Ins, S.Nodup → (∀ x ∈ S, x ∈ R) → ∀ x ∈ S, ∀ y ∈ S,
    h (pidText (labs F n 0 S x)) = h (pidText (labs F n 0 S y)) → labs F n 0 S x = labs F n 0 S y

theorem HashSep.sub {h : Runtime} {F : LevelFn} {n : Nat} {R R' : List Ins} (hs : HashSep h F n R)
    (hr : ∀ x ∈ R', x ∈ R) : HashSep h F n R' :=
  fun S hn hS => hs S hn (fun x hx => hr x (hS x hx))

theorem perm_flatMap {α β : Type} {l : List α} {f g : α → List β} (h : ∀ a ∈ l, (f a).Perm (g a)) :
    (l.flatMap f).Perm (l.flatMap g) := by
  induction l with
  | nil => exact .nil
  | cons x xs ih =>
    rw [List.flatMap_cons, List.flatMap_cons]
    exact (h x (by simp)).append (ih (fun a ha => h a (by simp [ha])))

theorem bare_keys (x : Ins) : x.bare.keys = x.keys := (bare_same x).keys

theorem bare_of_same {x y : Ins} (h : SameRow x y) (hm : x.metas = y.metas) : x.bare = y.bare := by
  obtain ⟨p, c, ms⟩ := x
  obtain ⟨p', c', ms'⟩ := y
  obtain ⟨h1, h2⟩ := h
  simp only at h1 h2 hm
  subst h2; subst hm
  unfold Ins.bare
  congr 1
  have := congrArg (List.map (fun a : ParsedPiece => (a, (none : Option Str)))) h1
  rw [List.map_map, List.map_map] at this
  exact this

theorem labs_bare {F : LevelFn} {n j : Nat} (S : List Ins) (x : Ins) :
    labs F n j (S.map Ins.bare) x.bare = labs F n j S x :=
  labs_map (fun x _ => bare_same x) (bare_same x)

theorem nodup_bare {n : Nat} {L : List Ins} (h : Normal n L) : (L.map Ins.bare).Nodup := by
  have : (L.map Ins.bare).map Ins.keys = L.map Ins.keys := by
    rw [List.map_map]; apply List.map_congr_left; intro x _; exact bare_keys x
  have hn := h.nodup
  rw [← this] at hn
  exact nodup_of_map hn

/-- What `cluster` promises about a resulting cluster with the rows `C`. -/
structure Final (F : LevelFn) (n : Nat) (fuel : Nat) (R : List Ins) (C : List Ins) : Prop where
  ne : C ≠ []
  normal : Normal n C
  coh : PathCoh C
  pats : ∀ x ∈ C, x.path.map (·.2) = (labs F n 0 (C.map Ins.bare) x.bare).map some
  unif : unif F n (C.map Ins.bare) = true
  fam : ∀ x ∈ C, (C.map Ins.bare).Perm (famN F n fuel R x.bare)

variable {rt : Runtime} {nested : NestedCluster} {mcn : Int} {m : URLMeta} {kw : Bool} {n : Nat}
  {OK : Nat → List ParsedPiece → Prop} {F : LevelFn}

theorem clusterWith_nonpos {h : Runtime} (fuel : Nat) (t : Tree NodeData) (ht : t.root.count ≤ 0) :
    clusterWith nested h mcn m kw fuel t = .ok [] := by
  cases fuel <;> simp [clusterWith, ht]

theorem ins_same {x y : Ins} (h1 : x.path.map (·.1) = y.path.map (·.1)) (h2 : x.path.map (·.2) = y.path.map (·.2))
    (h3 : x.count = y.count) (h4 : x.metas = y.metas) : x = y := by
  obtain ⟨p, c, ms⟩ := x
  obtain ⟨p', c', ms'⟩ := y
  simp only at h1 h2 h3 h4
  subst h3 h4
  congr 1
  rw [← List.zip_unzip p, ← List.zip_unzip p', List.unzip_eq_map, List.unzip_eq_map, h1, h2]

/-- Grouping by two keys that tell the same elements apart. -/
theorem groupBy_same {α κ κ' : Type} [DecidableEq κ] [DecidableEq κ'] (k : α → κ) (k' : α → κ') (l : List α)
    (h : ∀ a ∈ l, ∀ b ∈ l, k a = k b ↔ k' a = k' b) : (groupBy k l).map (·.2) = (groupBy k' l).map (·.2) := by
  have key : ∀ l0 : List α, (∀ a ∈ l0, a ∈ l) → ∃ R : List α, (∀ r ∈ R, r ∈ l) ∧ uniq (l0.map k) = R.map k ∧ uniq (l0.map k') = R.map k' := by
    intro l0
    refine snoc_ind (P := fun l0 => (∀ a ∈ l0, a ∈ l) → ∃ R : List α, (∀ r ∈ R, r ∈ l) ∧ uniq (l0.map k) = R.map k ∧ uniq (l0.map k') = R.map k') ?_ ?_ l0
    · intro _; exact ⟨[], by simp, rfl, rfl⟩
    · intro xs x ih hx
      obtain ⟨R, h1, h2, h3⟩ := ih (fun a ha => hx a (by simp [ha]))
      have hxl := hx x (by simp)
      rw [List.map_append, List.map_append, List.map_singleton, List.map_singleton, uniq_concat, uniq_concat, h2, h3]
      have hiff : k x ∈ R.map k ↔ k' x ∈ R.map k' := by
        rw [List.mem_map, List.mem_map]
        constructor
        · rintro ⟨r, hr, e⟩; exact ⟨r, hr, (h r (h1 r hr) x hxl).mp e⟩
        · rintro ⟨r, hr, e⟩; exact ⟨r, hr, (h r (h1 r hr) x hxl).mpr e⟩
      by_cases hm : k x ∈ R.map k
      · refine ⟨R, h1, ?_, ?_⟩
        · unfold setAdd; rw [if_pos hm]
        · unfold setAdd; rw [if_pos (hiff.mp hm)]
      · refine ⟨R ++ [x], ?_, ?_, ?_⟩
        · intro r hr
          rw [List.mem_append, List.mem_singleton] at hr
          rcases hr with hr | rfl
          · exact h1 r hr
          · exact hxl
        · unfold setAdd; rw [if_neg hm]; simp
        · unfold setAdd; rw [if_neg (fun h => hm (hiff.mpr h))]; simp
  obtain ⟨R, h1, h2, h3⟩ := key l (fun _ h => h)
  rw [groupBy_eq, groupBy_eq, h2, h3]
  simp only [List.map_map]
  apply List.map_congr_left
  intro r hr
  simp only [Function.comp]
  apply List.filter_congr
  intro x hx
  exact decide_eq_decide.mpr (h x hx r (h1 r hr))

theorem mapM_const {α β : Type} {f : α → Py β} {g : α → β} {l : List α} (h : ∀ a ∈ l, f a = .ok (g a)) : l.mapM f = .ok (l.map g) := by
  induction l with
  | nil => rfl
  | cons a l ih =>
    rw [List.mapM_cons, h a (by simp), ih (fun b hb => h b (by simp [hb]))]
    rfl

/-- **`cluster`**, for a tree of distinct rows. -/
theorem cluster_spec (h : Runtime) (hL : LevelOK h nested mcn m kw (n + 1) OK F) (hmcn : 2 ≤ mcn) (hd : m.depth = n + 1) : ∀ (fuel : Nat) (L : List Ins), Normal (n + 1) L → RowsOK OK (n + 1) L → L ≠ [] → L.length ≤ fuel →
    HashSep h F (n + 1) (L.map Ins.bare) →
    ∃ Cs : List (List Ins), clusterWith nested h mcn m kw fuel (growTree (n + 1) L) = .ok (Cs.map (doneTree (n + 1))) ∧
      (Cs.flatten.map Ins.bare).Perm (L.map Ins.bare) ∧
      (∀ C ∈ Cs, Final F (n + 1) fuel (L.map Ins.bare) C) ∧
      -- every other runtime gives the same clusters
      ∀ (h' : Runtime) (nested' : NestedCluster) (OK' : Nat → List ParsedPiece → Prop), LevelOK h' nested' mcn m kw (n + 1) OK' F →
        RowsOK OK' (n + 1) L → HashSep h' F (n + 1) (L.map Ins.bare) →
        clusterWith nested' h' mcn m kw fuel (growTree (n + 1) L) = .ok (Cs.map (doneTree (n + 1))) := by
  intro fuel
  induction fuel with
  | zero =>
    intro L _ _ hne hlen
    have := List.length_pos_iff.mpr hne
    omega
  | succ fuel ih =>
    intro L hN hS hne hlen hh
    obtain ⟨f, split, hp1, hp2, hp3⟩ := process_spec hL hmcn hd hS hne
    have hcnt : ¬ (growTree (n + 1) L).root.count ≤ 0 := by
      have := total_pos hS.pos hne
      have e : (growTree (n + 1) L).root.count = total L := growTree_count _ _
      omega
    have hbare : ∀ x ∈ L, (f x).bare = x.bare := fun x hx => bare_of_same (hp2 x hx).1 (hp2 x hx).2.1
    have hbm : (L.map f).map Ins.bare = L.map Ins.bare := by
      rw [List.map_map]; exact List.map_congr_left hbare
    have hkeys : (L.map f).map Ins.keys = L.map Ins.keys := by
      rw [List.map_map]; exact List.map_congr_left (fun x hx => (hp2 x hx).1.keys)
    have hNM : Normal (n + 1) (L.map f) := by
      refine ⟨?_, by rw [hkeys]; exact hN.nodup, ?_⟩
      · intro y hy
        obtain ⟨x, hx, rfl⟩ := List.mem_map.mp hy
        have := congrArg List.length (hp2 x hx).1.1
        simp only [List.length_map] at this
        rw [this, hN.len x hx]
      · intro y hy
        obtain ⟨x, hx, rfl⟩ := List.mem_map.mp hy
        rw [(hp2 x hx).2.1]; exact hN.metas x hx
    have hpatsM : ∀ x ∈ L, (f x).path.map (·.2) = (labs F (n + 1) 0 (L.map Ins.bare) x.bare).map some := by
      intro x hx; rw [labs_bare]; exact (hp2 x hx).2.2
    have hfull : ∀ y ∈ L.map f, y.Full := by
      intro y hy a ha
      obtain ⟨x, hx, rfl⟩ := List.mem_map.mp hy
      have : a.2 ∈ (f x).path.map (·.2) := List.mem_map.mpr ⟨a, ha, rfl⟩
      rw [hpatsM x hx] at this
      obtain ⟨q, _, e⟩ := List.mem_map.mp this
      rw [← e]; rfl
    have hcoh : PathCoh (L.map f) := by
      intro y hy z hz j e
      obtain ⟨x, hx, rfl⟩ := List.mem_map.mp hy
      obtain ⟨w, hw, rfl⟩ := List.mem_map.mp hz
      rw [(hp2 x hx).1.keys, (hp2 w hw).1.keys] at e
      have hxl := hNM.len _ (List.mem_map.mpr ⟨x, hx, rfl⟩)
      have hwl := hNM.len _ (List.mem_map.mpr ⟨w, hw, rfl⟩)
      by_cases hj : j < n + 1
      · have hpp := (take_pp hS hx hw (show j + 1 ≤ n + 1 by omega)).mp e
        have e1 : ((f x).path.map (·.1))[j]? = ((f w).path.map (·.1))[j]? := by
          rw [(hp2 x hx).1.1, (hp2 w hw).1.1]
          have := hpp j (by omega)
          unfold Ins.pp at this
          have h1 := hN.len x hx
          have h2 := hN.len w hw
          rw [List.getElem?_map, List.getElem?_map]
          rw [List.getElem?_eq_getElem (by omega), List.getElem?_eq_getElem (by omega)] at this ⊢
          simpa using this
        have e2 : ((f x).path.map (·.2))[j]? = ((f w).path.map (·.2))[j]? := by
          rw [(hp2 x hx).2.2, (hp2 w hw).2.2, List.getElem?_map, List.getElem?_map,
            labs_prefix (x := x) (y := w) (fun l hl => by rw [Nat.zero_add]; exact hpp l (by omega))]
        rw [List.getElem?_map, List.getElem?_map] at e1 e2
        rw [List.getElem?_eq_getElem (by omega), List.getElem?_eq_getElem (by omega)] at e1 e2 ⊢
        simp only [Option.map_some, Option.some.injEq] at e1 e2 ⊢
        exact Prod.ext e1 e2
      · rw [List.getElem?_eq_none (by omega), List.getElem?_eq_none (by omega)]
    have hMne : L.map f ≠ [] := by simpa using hne
    have hother : ∀ (h' : Runtime) (nested' : NestedCluster) (OK' : Nat → List ParsedPiece → Prop),
        LevelOK h' nested' mcn m kw (n + 1) OK' F → RowsOK OK' (n + 1) L →
        process h' nested' mcn m kw (growTree (n + 1) L) = .ok (doneTree (n + 1) (L.map f), split) := by
      intro h' nested' OK' hL' hS'
      obtain ⟨f', split', hq1, hq2, hq3⟩ := process_spec hL' hmcn hd hS' hne
      rw [hq1]
      have e1 : L.map f' = L.map f := by
        apply List.map_congr_left
        intro x hx
        obtain ⟨a1, a2, a3⟩ := hp2 x hx
        obtain ⟨b1, b2, b3⟩ := hq2 x hx
        exact ins_same (a1.1.trans b1.1.symm) (a3.trans b3.symm) (a1.2.trans b1.2.symm) (a2.trans b2.symm) |>.symm
      have e2 : split' = split := by
        rw [Bool.eq_iff_iff, hq3, hp3]
      rw [e1, e2]
    unfold clusterWith
    rw [if_neg hcnt, hp1]
    simp only [bind, Except.bind, pure, Except.pure]
    by_cases hs : split = true
    · -- dividing
      rw [if_pos hs]
      have hpaths : (doneTree (n + 1) (L.map f)).paths = growPaths (n + 1) (L.map f) := by
        rw [← paths_growTree hMne]; rfl
      have hpl : ∀ p ∈ growPaths (n + 1) (L.map f), p.length = n + 1 := growPaths_length
      have hroot : (doneTree (n + 1) (L.map f)).root.pattern = [] := rfl
      have hsp := splitLoop_grow (n := n) h [] (growPaths (n + 1) (L.map f)) hpl [] (by simp)
      simp only [groupBy, List.foldl_nil, List.map_nil, List.nil_append] at hsp
      have hsplit : splitByPattern h (doneTree (n + 1) (L.map f)) =
          .ok ((groupBy (fun p : List (Str × NodeData) => h (join ['/'] ([] :: p.map (fun kn => kn.2.pattern))))
            (growPaths (n + 1) (L.map f))).map (fun kg => growTree (n + 1) (kg.2.map rowOf))) := by
        unfold splitByPattern
        rw [hroot, hpaths, hsp]
        simp only [bind, Except.bind, pure, Except.pure, List.map_map]
        rfl
      rw [hsplit]
      simp only
      -- the rows of the groups
      have hrows := rows_of_paths hNM hcoh hfull
      have hpid : ∀ p ∈ growPaths (n + 1) (L.map f), ∃ x ∈ L, rowOf p = f x ∧
          join ['/'] ([] :: p.map (fun kn => kn.2.pattern)) = pidText (labs F (n + 1) 0 (L.map Ins.bare) x.bare) := by
        intro p hp
        obtain ⟨y, hy, _, e⟩ := rowOf_path hNM hcoh hfull hp
        obtain ⟨x, hx, rfl⟩ := List.mem_map.mp hy
        refine ⟨x, hx, e, ?_⟩
        unfold pidText
        congr 2
        have h1 := hpatsM x hx
        rw [← e] at h1
        simp only [rowOf, List.map_map] at h1
        have h2 := congrArg (List.map (fun o : Option Str => o.getD [])) h1
        rw [List.map_map, List.map_map] at h2
        simpa [Function.comp_def] using h2
      -- each group
      have hgrp : ∀ kg ∈ groupBy (fun p : List (Str × NodeData) => h (join ['/'] ([] :: p.map (fun kn => kn.2.pattern))))
          (growPaths (n + 1) (L.map f)), ∃ x0 ∈ L, ((kg.2.map rowOf).map Ins.bare).Perm
            ((L.map Ins.bare).filter (fun y => decide (labs F (n + 1) 0 (L.map Ins.bare) y =
              labs F (n + 1) 0 (L.map Ins.bare) x0.bare))) ∧ (∀ y ∈ kg.2.map rowOf, y ∈ L.map f) ∧
            ((kg.2.map rowOf).map Ins.keys).Nodup := by
        rintro ⟨k, g⟩ hkg
        obtain ⟨hk, hg⟩ := mem_groupBy hkg
        obtain ⟨p0, hp0, hk0⟩ := List.mem_map.mp hk
        obtain ⟨x0, hx0, e0, t0⟩ := hpid p0 hp0
        rw [t0] at hk0
        have hsubL : ∀ y ∈ g.map rowOf, y ∈ L.map f := by
          intro y hy
          obtain ⟨p, hp, rfl⟩ := List.mem_map.mp hy
          rw [hg, List.mem_filter] at hp
          exact hrows.mem_iff.mp (List.mem_map.mpr ⟨p, hp.1, rfl⟩)
        have hkeysnd : ((g.map rowOf).map Ins.keys).Nodup := by
          have h1 : (((growPaths (n + 1) (L.map f)).map rowOf).map Ins.keys).Nodup :=
            (hrows.map Ins.keys).nodup_iff.mpr hNM.nodup
          rw [hg]
          exact h1.sublist ((List.filter_sublist.map _).map _)
        refine ⟨x0, hx0, ?_, hsubL, hkeysnd⟩
        simp only
        rw [List.perm_ext_iff_of_nodup]
        · intro b
          rw [List.mem_filter, decide_eq_true_eq]
          constructor
          · intro hb
            obtain ⟨y, hy, rfl⟩ := List.mem_map.mp hb
            obtain ⟨p, hp, rfl⟩ := List.mem_map.mp hy
            rw [hg, List.mem_filter, decide_eq_true_eq] at hp
            obtain ⟨x, hx, e, t⟩ := hpid p hp.1
            rw [e, hbare x hx]
            refine ⟨List.mem_map.mpr ⟨x, hx, rfl⟩, ?_⟩
            apply hh (L.map Ins.bare) (nodup_bare hN) (fun _ h => h) _ (List.mem_map.mpr ⟨x, hx, rfl⟩) _
              (List.mem_map.mpr ⟨x0, hx0, rfl⟩)
            rw [hk0, ← hp.2, t]
          · rintro ⟨hb, hl⟩
            obtain ⟨x, hx, rfl⟩ := List.mem_map.mp hb
            have hm : f x ∈ (growPaths (n + 1) (L.map f)).map rowOf := hrows.mem_iff.mpr (List.mem_map.mpr ⟨x, hx, rfl⟩)
            obtain ⟨p, hp, e⟩ := List.mem_map.mp hm
            obtain ⟨x', hx', e', t⟩ := hpid p hp
            have hb' : x'.bare = x.bare := by
              rw [← hbare x' hx', ← hbare x hx, ← e, ← e']
            refine List.mem_map.mpr ⟨f x, List.mem_map.mpr ⟨p, ?_, e⟩, hbare x hx⟩
            rw [hg, List.mem_filter, decide_eq_true_eq]
            refine ⟨hp, ?_⟩
            rw [t, hb', hl, hk0]
        · have : ((g.map rowOf).map Ins.bare).map Ins.keys = (g.map rowOf).map Ins.keys := by
            rw [List.map_map, List.map_map, List.map_map]
            apply List.map_congr_left; intro y _; exact bare_keys _
          rw [← this] at hkeysnd
          exact nodup_of_map hkeysnd
        · exact (nodup_bare hN).sublist List.filter_sublist
      -- the recursion
      have hrec : ∀ kg ∈ groupBy (fun p : List (Str × NodeData) => h (join ['/'] ([] :: p.map (fun kn => kn.2.pattern))))
          (growPaths (n + 1) (L.map f)), ∃ Cs : List (List Ins),
          clusterWith nested h mcn m kw fuel (growTree (n + 1) (kg.2.map rowOf)) = .ok (Cs.map (doneTree (n + 1))) ∧
          ((Cs.flatten.map Ins.bare).Perm ((kg.2.map rowOf).map Ins.bare) ∧
            (∀ C ∈ Cs, Final F (n + 1) (fuel + 1) (L.map Ins.bare) C) ∧
            ∀ (h' : Runtime) (nested' : NestedCluster) (OK' : Nat → List ParsedPiece → Prop), LevelOK h' nested' mcn m kw (n + 1) OK' F →
              RowsOK OK' (n + 1) L → HashSep h' F (n + 1) (L.map Ins.bare) →
              clusterWith nested' h' mcn m kw fuel (growTree (n + 1) (kg.2.map rowOf)) = .ok (Cs.map (doneTree (n + 1)))) := by
        intro kg hkg
        obtain ⟨x0, hx0, hperm, hsub, hnd⟩ := hgrp kg hkg
        have hgN : Normal (n + 1) (kg.2.map rowOf) :=
          ⟨fun x hx => hNM.len x (hsub x hx), hnd, fun x hx => hNM.metas x (hsub x hx)⟩
        have hMS : ∀ {OK : Nat → List ParsedPiece → Prop}, RowsOK OK (n + 1) L → RowsOK OK (n + 1) (L.map f) := by
          intro OK hS
          refine ⟨hNM.len, ?_, ?_, ?_⟩
          · intro y hy
            obtain ⟨x, hx, rfl⟩ := List.mem_map.mp hy
            rw [(hp2 x hx).1.2]; exact hS.pos x hx
          · intro j hj
            have : (L.map f).map (Ins.pp j) = L.map (Ins.pp j) := by
              rw [List.map_map]; exact List.map_congr_left (fun x hx => (hp2 x hx).1.pp j)
            rw [this]; exact hS.ok j hj
          · intro j hj y hy z hz e
            obtain ⟨x, hx, rfl⟩ := List.mem_map.mp hy
            obtain ⟨w, hw, rfl⟩ := List.mem_map.mp hz
            rw [(hp2 x hx).1.pp j, (hp2 w hw).1.pp j] at e ⊢
            exact hS.inj j hj x hx w hw e
        have hx0m : x0.bare ∈ (L.map Ins.bare).filter (fun y => decide (labs F (n + 1) 0 (L.map Ins.bare) y =
              labs F (n + 1) 0 (L.map Ins.bare) x0.bare)) :=
          List.mem_filter.mpr ⟨List.mem_map.mpr ⟨x0, hx0, rfl⟩, by simp⟩
        have hgne : kg.2.map rowOf ≠ [] := by
          intro e
          have := hperm.mem_iff.mpr hx0m
          rw [e] at this; simp at this
        have hglen : (kg.2.map rowOf).length ≤ fuel := by
          have h1 := hperm.length_eq
          rw [List.length_map] at h1
          obtain ⟨x, hx, y, hy, hxy⟩ := hp3.mp hs
          have : ∃ z ∈ L.map Ins.bare, ¬ (labs F (n + 1) 0 (L.map Ins.bare) z = labs F (n + 1) 0 (L.map Ins.bare) x0.bare) := by
            apply Classical.byContradiction
            intro hno
            have hall : ∀ z ∈ L, labs F (n + 1) 0 L z = labs F (n + 1) 0 L x0 := by
              intro z hz
              apply Classical.byContradiction
              intro hz'
              exact hno ⟨z.bare, List.mem_map.mpr ⟨z, hz, rfl⟩, by rw [labs_bare, labs_bare]; exact hz'⟩
            exact hxy (by rw [hall x hx, hall y hy])
          obtain ⟨z, hz, hz'⟩ := this
          have hlt : ((L.map Ins.bare).filter (fun y => decide (labs F (n + 1) 0 (L.map Ins.bare) y =
              labs F (n + 1) 0 (L.map Ins.bare) x0.bare))).length < (L.map Ins.bare).length := by
            have hle := List.length_filter_le (fun y => decide (labs F (n + 1) 0 (L.map Ins.bare) y =
              labs F (n + 1) 0 (L.map Ins.bare) x0.bare)) (L.map Ins.bare)
            rcases Nat.lt_or_eq_of_le hle with h2 | h2
            · exact h2
            · exfalso
              rw [List.length_filter_eq_length_iff] at h2
              exact hz' (of_decide_eq_true (h2 z hz))
          rw [List.length_map] at hlt
          omega
        have hgsub : ∀ x ∈ (kg.2.map rowOf).map Ins.bare, x ∈ L.map Ins.bare := by
          intro x hx
          exact (List.mem_filter.mp (hperm.mem_iff.mp hx)).1
        obtain ⟨Cs, h1, h2, h3, h4⟩ := ih (kg.2.map rowOf) hgN ((hMS hS).sub hL.mono hsub) hgne hglen (hh.sub hgsub)
        refine ⟨Cs, h1, h2, ?_, fun h' nested' OK' hL' hS' hh' =>
          h4 h' nested' OK' hL' ((hMS hS').sub hL'.mono hsub) (hh'.sub hgsub)⟩
        intro C hC
        have hF := h3 C hC
        refine ⟨hF.ne, hF.normal, hF.coh, hF.pats, hF.unif, ?_⟩
        intro x hx
        have hxm : x.bare ∈ (kg.2.map rowOf).map Ins.bare :=
          h2.mem_iff.mp (List.mem_map.mpr ⟨x, List.mem_flatten.mpr ⟨C, hC, hx⟩, rfl⟩)
        have hxl := of_decide_eq_true (List.mem_filter.mp (hperm.mem_iff.mp hxm)).2
        have hnu : ¬ unif F (n + 1) (L.map Ins.bare) = true := by
          rw [unif_iff]
          intro hall
          obtain ⟨a, ha, b, hb, hab⟩ := hp3.mp hs
          apply hab
          have := hall a.bare (List.mem_map.mpr ⟨a, ha, rfl⟩) b.bare (List.mem_map.mpr ⟨b, hb, rfl⟩)
          rwa [labs_bare, labs_bare] at this
        rw [famN, if_neg hnu]
        refine (hF.fam x hx).trans ?_
        apply famN_perm hL.perm
        refine hperm.trans ?_
        rw [hxl]
      obtain ⟨ps, e1, e2, e3⟩ := mapM_pairs (f := fun kg : Nat × List (List (Str × NodeData)) =>
        clusterWith nested h mcn m kw fuel (growTree (n + 1) (kg.2.map rowOf)))
        (r := fun Cs : List (List Ins) => Cs.map (doneTree (n + 1))) hrec
      refine ⟨(ps.map (·.2)).flatten, ?_, ?_, ?_, ?_⟩
      · have : ((groupBy (fun p : List (Str × NodeData) => h (join ['/'] ([] :: p.map (fun kn => kn.2.pattern))))
            (growPaths (n + 1) (L.map f))).map (fun kg => growTree (n + 1) (kg.2.map rowOf))).mapM
              (clusterWith nested h mcn m kw fuel) = .ok (ps.map (fun p => p.2.map (doneTree (n + 1)))) := by
          rw [List.mapM_map]
          exact e2
        rw [this]
        simp only [List.map_flatten, List.map_map, Function.comp_def]
      · have ht : (ps.map (·.2)).flatten.flatten.map Ins.bare = ps.flatMap (fun p => p.2.flatten.map Ins.bare) := by
          clear e1 e2 e3
          induction ps with
          | nil => rfl
          | cons p ps ih' => simp [ih']
        rw [ht]
        refine (perm_flatMap (fun p hp => (e3 p hp).1)).trans ?_
        have hperm2 : (ps.flatMap (fun p => (p.1.2.map rowOf).map Ins.bare)) =
            ((groupBy (fun p : List (Str × NodeData) => h (join ['/'] ([] :: p.map (fun kn => kn.2.pattern))))
            (growPaths (n + 1) (L.map f))).flatMap (fun kg => kg.2)).map (fun p => (rowOf p).bare) := by
          rw [← e1, List.flatMap_map, List.map_flatMap]
          simp only [List.map_map]; rfl
        rw [hperm2, groupBy_eq, List.flatMap_map]
        refine ((perm_partition _ _ _ (nodup_uniq _) (fun x hx => mem_uniq.mpr (List.mem_map.mpr ⟨x, hx, rfl⟩))).map _).trans ?_
        rw [← hbm]
        have := hrows.map Ins.bare
        rwa [List.map_map] at this
      · intro C hC
        rw [List.mem_flatten] at hC
        obtain ⟨l, hl, hC⟩ := hC
        obtain ⟨p, hp, rfl⟩ := List.mem_map.mp hl
        exact (e3 p hp).2.1 C hC
      · intro h' nested' OK' hL' hS' hh'
        rw [if_neg hcnt, hother h' nested' OK' hL' hS']
        simp only
        rw [if_pos hs]
        have hsp' := splitLoop_grow (n := n) h' [] (growPaths (n + 1) (L.map f)) hpl [] (by simp)
        simp only [groupBy, List.foldl_nil, List.map_nil, List.nil_append] at hsp'
        have hsplit' : splitByPattern h' (doneTree (n + 1) (L.map f)) =
            .ok ((groupBy (fun p : List (Str × NodeData) => h' (join ['/'] ([] :: p.map (fun kn => kn.2.pattern))))
              (growPaths (n + 1) (L.map f))).map (fun kg => growTree (n + 1) (kg.2.map rowOf))) := by
          unfold splitByPattern
          rw [hroot, hpaths, hsp']
          simp only [bind, Except.bind, pure, Except.pure, List.map_map]
          rfl
        rw [hsplit']
        simp only
        have hsame := groupBy_same (fun p : List (Str × NodeData) => h' (join ['/'] ([] :: p.map (fun kn => kn.2.pattern))))
          (fun p : List (Str × NodeData) => h (join ['/'] ([] :: p.map (fun kn => kn.2.pattern))))
          (growPaths (n + 1) (L.map f)) (by
            intro a ha b hb
            obtain ⟨x, hx, -, tx⟩ := hpid a ha
            obtain ⟨y, hy, -, ty⟩ := hpid b hb
            rw [tx, ty]
            have hxm : x.bare ∈ L.map Ins.bare := List.mem_map.mpr ⟨x, hx, rfl⟩
            have hym : y.bare ∈ L.map Ins.bare := List.mem_map.mpr ⟨y, hy, rfl⟩
            constructor
            · intro e
              rw [hh' (L.map Ins.bare) (nodup_bare hN) (fun _ h => h) _ hxm _ hym e]
            · intro e
              rw [hh (L.map Ins.bare) (nodup_bare hN) (fun _ h => h) _ hxm _ hym e])
        have hgr : (groupBy (fun p : List (Str × NodeData) => h' (join ['/'] ([] :: p.map (fun kn => kn.2.pattern))))
              (growPaths (n + 1) (L.map f))).map (fun kg => growTree (n + 1) (kg.2.map rowOf)) =
            ps.map (fun p => growTree (n + 1) (p.1.2.map rowOf)) := by
          have := congrArg (List.map (fun g : List (List (Str × NodeData)) => growTree (n + 1) (g.map rowOf))) hsame
          rw [List.map_map, List.map_map, ← e1, List.map_map] at this
          exact this
        rw [hgr]
        have hmm : (ps.map (fun p => growTree (n + 1) (p.1.2.map rowOf))).mapM (clusterWith nested' h' mcn m kw fuel) =
            .ok (ps.map (fun p => p.2.map (doneTree (n + 1)))) := by
          rw [List.mapM_map]
          exact mapM_const (fun p hp => (e3 p hp).2.2 h' nested' OK' hL' hS' hh')
        rw [hmm]
        simp only [List.map_flatten, List.map_map, Function.comp_def]
    · -- one cluster
      rw [if_neg hs]
      have hun : unif F (n + 1) (L.map Ins.bare) = true := by
        rw [unif_iff]
        intro x hx y hy
        obtain ⟨x, hx', rfl⟩ := List.mem_map.mp hx
        obtain ⟨y, hy', rfl⟩ := List.mem_map.mp hy
        rw [labs_bare, labs_bare]
        apply Classical.byContradiction
        intro hxy
        exact hs (hp3.mpr ⟨x, hx', y, hy', hxy⟩)
      refine ⟨[L.map f], rfl, by simp only [List.flatten_cons, List.flatten_nil, List.append_nil]; rw [hbm], ?_, ?_⟩
      rotate_left
      · intro h' nested' OK' hL' hS' _
        rw [if_neg hcnt, hother h' nested' OK' hL' hS']
        simp only
        rw [if_neg hs]
        rfl
      intro C hC
      rw [List.mem_singleton] at hC
      subst hC
      refine ⟨hMne, hNM, hcoh, ?_, by rw [hbm]; exact hun, ?_⟩
      · intro y hy
        obtain ⟨x, hx, rfl⟩ := List.mem_map.mp hy
        rw [hbm, hbare x hx]
        exact hpatsM x hx
      · intro x hx
        rw [hbm, famN, if_pos hun]

end OsUrl
