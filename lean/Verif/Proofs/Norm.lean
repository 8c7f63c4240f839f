import Verif.Proofs.Clu2

/-! Merging the rows with the same keys does not change the tree. -/

namespace OsUrl

theorem uniq_map_uniq {α β : Type} [DecidableEq α] [DecidableEq β] (f : α → β) (xs : List α) :
    uniq ((uniq xs).map f) = uniq (xs.map f) := by
  refine snoc_ind (P := fun xs => uniq ((uniq xs).map f) = uniq (xs.map f)) rfl ?_ xs
  intro xs x ih
  rw [uniq_concat, List.map_append, List.map_singleton, uniq_concat, ← ih]
  unfold setAdd
  by_cases h : x ∈ uniq xs
  · rw [if_pos h, if_pos]
    rw [mem_uniq]; exact List.mem_map.mpr ⟨x, h, rfl⟩
  · rw [if_neg h, List.map_append, List.map_singleton, uniq_concat]
    rfl

theorem uniq_filter {α : Type} [DecidableEq α] (p : α → Bool) (xs : List α) : (uniq xs).filter p = uniq (xs.filter p) := by
  refine snoc_ind (P := fun xs => (uniq xs).filter p = uniq (xs.filter p)) rfl ?_ xs
  intro xs x ih
  rw [uniq_concat, List.filter_append]
  by_cases hp : p x = true
  · have : [x].filter p = [x] := by simp [hp]
    rw [this, uniq_concat, ← ih]
    unfold setAdd
    by_cases h : x ∈ uniq xs
    · rw [if_pos h, if_pos (List.mem_filter.mpr ⟨h, hp⟩)]
    · rw [if_neg h, if_neg (fun hh => h (List.mem_filter.mp hh).1), List.filter_append, this]
  · have : [x].filter p = [] := by simp [hp]
    rw [this, List.append_nil, ← ih]
    unfold setAdd
    split
    · rfl
    · rw [List.filter_append, this, List.append_nil]

/-- One row for several with the same keys. -/
def mergeRow (g : List Ins) : Ins :=
  ⟨match g with | [] => [] | i :: _ => i.path, (g.map (·.count)).sum, uniq (g.flatMap (·.metas))⟩

/-- The rows with the same keys merged. -/
def norm (L : List Ins) : List Ins := (groupBy Ins.keys L).map (fun kg => mergeRow kg.2)

theorem norm_eq (L : List Ins) : norm L = (uniq (L.map Ins.keys)).map (fun k => mergeRow (L.filter (fun x => decide (x.keys = k)))) := by
  unfold norm; rw [groupBy_eq, List.map_map]; rfl

theorem mergeRow_head {L : List Ins} {k : List Str} (hk : k ∈ L.map Ins.keys) :
    ∃ x ∈ L, x.keys = k ∧ (mergeRow (L.filter (fun x => decide (x.keys = k)))).path = x.path ∧
      (L.filter (fun x => decide (x.keys = k))).head? = some x := by
  cases hg : L.filter (fun x => decide (x.keys = k)) with
  | nil =>
    obtain ⟨x, hx, e⟩ := List.mem_map.mp hk
    have : x ∈ L.filter (fun x => decide (x.keys = k)) := List.mem_filter.mpr ⟨hx, by simp [e]⟩
    rw [hg] at this; simp at this
  | cons x xs =>
    have : x ∈ L.filter (fun x => decide (x.keys = k)) := by rw [hg]; simp
    rw [List.mem_filter, decide_eq_true_eq] at this
    exact ⟨x, this.1, this.2, rfl, rfl⟩

theorem mergeRow_keys {L : List Ins} {k : List Str} (hk : k ∈ L.map Ins.keys) :
    (mergeRow (L.filter (fun x => decide (x.keys = k)))).keys = k := by
  obtain ⟨x, _, e, hp, _⟩ := mergeRow_head hk
  show List.map _ _ = k
  rw [hp]; exact e

theorem norm_keys (L : List Ins) : (norm L).map Ins.keys = uniq (L.map Ins.keys) := by
  rw [norm_eq, List.map_map]
  conv => rhs; rw [← List.map_id (uniq (L.map Ins.keys))]
  apply List.map_congr_left
  intro k hk
  exact mergeRow_keys (mem_uniq.mp hk)

theorem key_of_keys (x : Ins) : x.key = (x.keys.head?).getD [] := by
  obtain ⟨path, c, ms⟩ := x
  cases path <;> rfl

theorem norm_key (L : List Ins) : uniq ((norm L).map Ins.key) = uniq (L.map Ins.key) := by
  have e : ∀ M : List Ins, M.map Ins.key = (M.map Ins.keys).map (fun ks => (ks.head?).getD []) := by
    intro M; rw [List.map_map]; apply List.map_congr_left; intro x _; exact key_of_keys x
  rw [e, norm_keys, uniq_map_uniq, ← e]

theorem norm_filter (L : List Ins) (k : Str) :
    (norm L).filter (fun x => decide (x.key = k)) = norm (L.filter (fun x => decide (x.key = k))) := by
  rw [norm_eq, norm_eq, List.filter_map]
  have e1 : (L.filter (fun x => decide (x.key = k))).map Ins.keys =
      (L.map Ins.keys).filter (fun ks => decide ((ks.head?).getD [] = k)) := by
    rw [List.filter_map]
    congr 1
    apply List.filter_congr
    intro x _
    simp only [Function.comp, key_of_keys x]
  rw [e1, ← uniq_filter]
  have e2 : (uniq (L.map Ins.keys)).filter ((fun x : Ins => decide (x.key = k)) ∘
      (fun k => mergeRow (L.filter (fun x => decide (x.keys = k))))) =
      (uniq (L.map Ins.keys)).filter (fun ks => decide ((ks.head?).getD [] = k)) := by
    apply List.filter_congr
    intro ks hks
    simp only [Function.comp]
    rw [key_of_keys, mergeRow_keys (mem_uniq.mp hks)]
  rw [e2]
  apply List.map_congr_left
  intro ks hks
  rw [List.mem_filter, decide_eq_true_eq] at hks
  rw [List.filter_filter]
  congr 1
  apply List.filter_congr
  intro x _
  by_cases h : x.keys = ks
  · have : x.key = k := by rw [key_of_keys, h]; exact hks.2
    simp [h, this]
  · simp [h]

theorem norm_tail {n : Nat} {g : List Ins} (hl : ∀ x ∈ g, x.path.length = n + 1) {k : Str} (hk : ∀ x ∈ g, x.key = k) :
    (norm g).map Ins.tail = norm (g.map Ins.tail) := by
  have hks : ∀ x ∈ g, x.keys = k :: x.tail.keys := by
    intro x hx
    have h1 := hl x hx
    have h2 := hk x hx
    obtain ⟨path, c, ms⟩ := x
    cases path with
    | nil => simp at h1
    | cons a rest => rw [← h2]; rfl
  rw [norm_eq, norm_eq, List.map_map, List.map_map]
  have e : g.map Ins.keys = (g.map (Ins.keys ∘ Ins.tail)).map (k :: ·) := by
    rw [List.map_map]; apply List.map_congr_left; intro x hx; exact hks x hx
  rw [e, uniq_map_of_inj (by intro a _ b _ h; injection h), List.map_map]
  apply List.map_congr_left
  intro ks _
  simp only [Function.comp]
  have hf : g.filter (fun x => decide (x.keys = k :: ks)) = g.filter (fun x => decide (x.tail.keys = ks)) := by
    apply List.filter_congr
    intro x hx
    rw [hks x hx]
    exact decide_eq_decide.mpr (by simp)
  have hf2 : (g.map Ins.tail).filter (fun x => decide (x.keys = ks)) = (g.filter (fun x => decide (x.tail.keys = ks))).map Ins.tail :=
    filter_map_same (fun x _ => rfl)
  rw [hf, hf2]
  cases g.filter (fun x => decide (x.tail.keys = ks)) with
  | nil => rfl
  | cons x xs => simp [mergeRow, Ins.tail, List.flatMap_map, Function.comp_def]

theorem norm_count (L : List Ins) : ((norm L).map (·.count)).sum = (L.map (·.count)).sum := by
  rw [norm_eq, List.map_map]
  have : ((fun x : Ins => x.count) ∘ fun k => mergeRow (L.filter (fun x => decide (x.keys = k)))) =
      fun k => total (L.filter (fun x => decide (x.keys = k))) := rfl
  rw [this]
  exact total_partition Ins.keys L _ (nodup_uniq _) (fun x hx => mem_uniq.mpr (List.mem_map.mpr ⟨x, hx, rfl⟩))

theorem norm_ne_nil {L : List Ins} (h : L ≠ []) : norm L ≠ [] := by
  intro e
  have := norm_keys L
  rw [e] at this
  have h2 := uniq_eq_nil.mp this.symm
  exact h (List.map_eq_nil_iff.mp h2)

theorem norm_head {i : Ins} {g : List Ins} : ∃ i' g', norm (i :: g) = i' :: g' ∧ i'.path = i.path := by
  rw [norm_eq, ← firsts_eq_uniq, List.map_cons, Spec.firsts, List.map_cons]
  refine ⟨_, _, rfl, ?_⟩
  simp [mergeRow]

theorem headData_ext {g g' : List Ins} {i i' : Ins} {rest rest' : List Ins} (hg : g = i :: rest) (hg' : g' = i' :: rest')
    (hp : i'.path = i.path) (hc : (g'.map (·.count)).sum = (g.map (·.count)).sum)
    (hm : (headData g').metas = (headData g).metas) : headData g' = headData g := by
  have e1 : (headData g').pp = (headData g).pp := by
    rw [hg, hg', headData_pp, headData_pp]; unfold Ins.newHead; rw [hp]
  have e2 : (headData g').pat = (headData g).pat := by
    rw [hg, hg', headData_pat, headData_pat]; unfold Ins.newHead; rw [hp]
  have e3 : (headData g').count = (headData g).count := by rw [headData_count, headData_count, hc]
  cases h : headData g'
  cases h' : headData g
  rw [h, h'] at e1 e2 e3 hm
  simp only at e1 e2 e3 hm
  rw [e1, e2, e3, hm]

/-- Metas collected at a leaf. -/
theorem foldl_act_leaf (g : List Ins) (hg : ∀ x ∈ g, x.tail.path = []) (d : NodeData) :
    (g.foldl (fun d i => i.tail.act d) d).metas =
      if (g.flatMap (·.metas)) = [] then d.metas
      else some ((g.flatMap (·.metas)).foldl (fun acc x => setAdd x acc) (d.metas.getD [])) := by
  induction g generalizing d with
  | nil => rfl
  | cons i g ih =>
    rw [List.foldl_cons, ih (fun x hx => hg x (by simp [hx])), List.flatMap_cons]
    have : (i.tail.act d).metas = if i.metas = [] then d.metas
        else some (i.metas.foldl (fun acc x => setAdd x acc) (d.metas.getD [])) := by
      unfold Ins.act
      rw [if_pos (hg i (by simp))]
      have e : i.tail.metas = i.metas := rfl
      rw [e]
      cases i.metas with
      | nil => rfl
      | cons a as => rfl
    rw [this]
    by_cases h1 : i.metas = []
    · simp [h1]
    · rw [if_neg h1]
      by_cases h2 : g.flatMap (·.metas) = []
      · rw [if_pos h2, if_neg (by simp [h1]), h2, List.append_nil]
      · rw [if_neg h2, if_neg (by simp [h1]), List.foldl_append, Option.getD_some]

theorem headData_norm {n : Nat} {g : List Ins} (hg : g ≠ []) (hl : ∀ x ∈ g, x.path.length = n + 1) {k : Str}
    (hk : ∀ x ∈ g, x.key = k) : headData (norm g) = headData g := by
  cases g with
  | nil => exact absurd rfl hg
  | cons i rest =>
    obtain ⟨i', g', e, hp⟩ := norm_head (i := i) (g := rest)
    have hlen : ∀ x ∈ norm (i :: rest), x.path.length = n + 1 := by
      intro x hx
      rw [norm_eq] at hx
      obtain ⟨ks, hks, rfl⟩ := List.mem_map.mp hx
      obtain ⟨y, hy, _, hpath, _⟩ := mergeRow_head (mem_uniq.mp hks)
      rw [hpath]; exact hl y hy
    apply headData_ext rfl e hp (norm_count _)
    cases n with
    | zero =>
      have hks : ∀ x ∈ i :: rest, x.keys = [k] := by
        intro x hx
        have h1 := hl x hx
        have h2 := hk x hx
        obtain ⟨path, c, ms⟩ := x
        match path, h1 with
        | [a], _ => rw [← h2]; rfl
      have hn : norm (i :: rest) = [mergeRow (i :: rest)] := by
        rw [norm_eq]
        have : (i :: rest).map Ins.keys = (i :: rest).map (fun _ => [k]) := List.map_congr_left hks
        have hu : uniq ((i :: rest).map Ins.keys) = [[k]] := by
          rw [this]
          have hperm := uniq_perm (xs := (i :: rest).map (fun _ => [k])) (ys := [[k]]) (by
            intro a
            rw [List.mem_map, List.mem_singleton]
            constructor
            · rintro ⟨_, _, rfl⟩; rfl
            · rintro rfl; exact ⟨i, by simp, rfl⟩)
          exact List.perm_singleton.mp hperm
        rw [hu, List.map_singleton]
        congr 2
        rw [List.filter_eq_self]
        intro x hx
        exact decide_eq_true (hks x hx)
      have htl : ∀ x ∈ i :: rest, x.tail.path = [] := by
        intro x hx
        have := hl x hx
        apply List.eq_nil_of_length_eq_zero
        simp [Ins.tail, this]
      have htl' : ∀ x ∈ [mergeRow (i :: rest)], x.tail.path = [] := by
        intro x hx
        rw [List.mem_singleton] at hx; subst hx
        exact htl i (by simp)
      rw [hn]
      have h1 := foldl_act_leaf _ htl' (mergeRow (i :: rest)).newHead
      have h2 := foldl_act_leaf _ htl i.newHead
      have d1 : headData [mergeRow (i :: rest)] = [mergeRow (i :: rest)].foldl (fun d i => i.tail.act d) (mergeRow (i :: rest)).newHead := rfl
      have d2 : headData (i :: rest) = (i :: rest).foldl (fun d i => i.tail.act d) i.newHead := rfl
      rw [d1, d2, h1, h2, newHead_metas, newHead_metas]
      have e3 : [mergeRow (i :: rest)].flatMap (·.metas) = uniq ((i :: rest).flatMap (·.metas)) := by
        simp [mergeRow]
      rw [e3]
      by_cases hz : (i :: rest).flatMap (·.metas) = []
      · rw [if_pos hz, if_pos (by rw [hz]; rfl)]
      · rw [if_neg hz, if_neg (fun h => hz (uniq_eq_nil.mp h))]
        congr 1
        exact uniq_of_nodup (nodup_uniq _)
    | succ n =>
      have hnt : ∀ l : List Ins, (∀ x ∈ l, x.path.length = n + 1 + 1) → ∀ x ∈ l, x.tail.path ≠ [] := by
        intro l hl x hx e
        have := hl x hx
        have h2 : x.tail.path.length = n + 1 := by simp [Ins.tail, this]
        rw [e] at h2; simp at h2
      have h1 := foldl_act_metas_none (i :: rest) Ins.tail (hnt _ hl) i.newHead
      have h2 := foldl_act_metas_none (norm (i :: rest)) Ins.tail (hnt _ hlen) i'.newHead
      have d2 : headData (i :: rest) = (i :: rest).foldl (fun d i => i.tail.act d) i.newHead := rfl
      have d1 : headData (norm (i :: rest)) = (norm (i :: rest)).foldl (fun d i => i.tail.act d) i'.newHead := by
        rw [e]; rfl
      rw [d1, d2, h1, h2, newHead_metas, newHead_metas]

/-- **Merging rows does not change the tree.** -/
theorem grow_norm (n : Nat) (L : List Ins) (hL : ∀ x ∈ L, x.path.length = n) : grow n (norm L) = grow n L := by
  induction n generalizing L with
  | zero => rfl
  | succ n ih =>
    rw [grow, grow]
    congr 1
    rw [groupBy_eq, groupBy_eq, List.map_map, List.map_map, norm_key]
    apply List.map_congr_left
    intro k hk
    simp only [Function.comp]
    rw [norm_filter]
    have hl : ∀ x ∈ L.filter (fun x => decide (x.key = k)), x.path.length = n + 1 :=
      fun x hx => hL x (List.mem_filter.mp hx).1
    have hkk : ∀ x ∈ L.filter (fun x => decide (x.key = k)), x.key = k :=
      fun x hx => of_decide_eq_true (List.mem_filter.mp hx).2
    have hne : L.filter (fun x => decide (x.key = k)) ≠ [] := by
      obtain ⟨x, hx, e⟩ := List.mem_map.mp (mem_uniq.mp hk)
      exact List.ne_nil_of_mem (List.mem_filter.mpr ⟨hx, by simp [e]⟩)
    rw [headData_norm hne hl hkk, norm_tail hl hkk, ih]
    intro x hx
    obtain ⟨y, hy, rfl⟩ := List.mem_map.mp hx
    simp [Ins.tail, hl y hy]

theorem growTree_norm (n : Nat) (L : List Ins) (hL : ∀ x ∈ L, x.path.length = n + 1) :
    growTree (n + 1) (norm L) = growTree (n + 1) L := by
  have hlen : ∀ x ∈ norm L, x.path.length = n + 1 := by
    intro x hx
    rw [norm_eq] at hx
    obtain ⟨ks, hks, rfl⟩ := List.mem_map.mp hx
    obtain ⟨y, hy, _, hpath, _⟩ := mergeRow_head (mem_uniq.mp hks)
    rw [hpath]; exact hL y hy
  unfold growTree
  rw [grow_norm _ _ hL]
  congr 1
  have hne : ∀ l : List Ins, (∀ x ∈ l, x.path.length = n + 1) → ∀ x ∈ l, (id x).path ≠ [] := by
    intro l hl x hx e
    have := hl x hx
    simp only [id] at e
    rw [e] at this; simp at this
  have m1 := foldl_act_metas_none L id (hne _ hL) (newNode emptyParsedPiece none)
  have m2 := foldl_act_metas_none (norm L) id (hne _ hlen) (newNode emptyParsedPiece none)
  have c1 := foldl_act_count L id (fun _ => rfl) (newNode emptyParsedPiece none)
  have c2 := foldl_act_count (norm L) id (fun _ => rfl) (newNode emptyParsedPiece none)
  have p1 := foldl_act_pp L id (newNode emptyParsedPiece none)
  have p2 := foldl_act_pp (norm L) id (newNode emptyParsedPiece none)
  have q1 := foldl_act_pat L id (newNode emptyParsedPiece none)
  have q2 := foldl_act_pat (norm L) id (newNode emptyParsedPiece none)
  simp only [id] at m1 m2 c1 c2 p1 p2 q1 q2
  rw [norm_count, ← c1] at c2
  rw [← m1] at m2; rw [← p1] at p2; rw [← q1] at q2
  cases h : List.foldl (fun d i => i.act d) (newNode emptyParsedPiece none) (norm L)
  cases h' : List.foldl (fun d i => i.act d) (newNode emptyParsedPiece none) L
  rw [h, h'] at m2 c2 p2 q2
  simp only at m2 c2 p2 q2
  rw [m2, c2, p2, q2]

theorem norm_normal {n : Nat} {L : List Ins} (hL : ∀ x ∈ L, x.path.length = n) : Normal n (norm L) := by
  refine ⟨?_, ?_, ?_⟩
  · intro x hx
    rw [norm_eq] at hx
    obtain ⟨ks, hks, rfl⟩ := List.mem_map.mp hx
    obtain ⟨y, hy, _, hpath, _⟩ := mergeRow_head (mem_uniq.mp hks)
    rw [hpath]; exact hL y hy
  · rw [norm_keys]; exact nodup_uniq _
  · intro x hx
    rw [norm_eq] at hx
    obtain ⟨ks, hks, rfl⟩ := List.mem_map.mp hx
    exact nodup_uniq _

end OsUrl
