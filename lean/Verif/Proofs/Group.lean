import Verif.Model.Py

/-! Dicts, ordered sets and grouping. -/

namespace OsUrl
variable {κ α β : Type} [DecidableEq κ]

theorem Dict.get?_upd (k k' : κ) (f : Option α → α) (d : Dict κ α) :
    Dict.get? k' (Dict.upd k f d) = if k = k' then some (f (Dict.get? k d)) else Dict.get? k' d := by
  induction d with
  | nil => by_cases h : k = k' <;> simp [Dict.upd, Dict.get?, h]
  | cons x xs ih =>
    obtain ⟨a, v⟩ := x
    simp only [Dict.upd]
    by_cases h : a = k
    · subst h
      by_cases h2 : a = k' <;> simp [Dict.get?, h2]
    · simp only [h, if_false, Dict.get?]
      by_cases h2 : a = k'
      · subst h2; simp [Ne.symm h]
      · simp [h2, ih]

theorem Dict.get?_map (F : α → β) (k : κ) (d : Dict κ α) :
    Dict.get? k (d.map (fun kv => (kv.1, F kv.2))) = (Dict.get? k d).map F := by
  induction d with
  | nil => rfl
  | cons x xs ih =>
    obtain ⟨a, v⟩ := x
    by_cases h : a = k <;> simp [Dict.get?, h, ih]

theorem Dict.get?_mem {k : κ} {d : Dict κ α} {v : α} (h : Dict.get? k d = some v) : (k, v) ∈ d := by
  induction d with
  | nil => simp [Dict.get?] at h
  | cons x xs ih =>
    obtain ⟨a, w⟩ := x
    simp only [Dict.get?] at h
    split at h
    · simp_all
    · exact List.mem_cons_of_mem _ (ih h)

theorem Dict.get?_none {k : κ} {d : Dict κ α} : Dict.get? k d = none ↔ k ∉ d.map (·.1) := by
  induction d with
  | nil => simp [Dict.get?]
  | cons x xs ih =>
    obtain ⟨a, w⟩ := x
    simp only [Dict.get?]
    split
    · simp_all
    · rename_i h; simp [ih, Ne.symm h]

theorem Dict.get?_of_mem {k : κ} {d : Dict κ α} {v : α} (hn : (d.map (·.1)).Nodup) (h : (k, v) ∈ d) :
    Dict.get? k d = some v := by
  induction d with
  | nil => simp at h
  | cons x xs ih =>
    obtain ⟨a, w⟩ := x
    rw [List.map_cons, List.nodup_cons] at hn
    rw [List.mem_cons] at h
    simp only [Dict.get?]
    rcases h with h | h
    · cases h; simp
    · have : a ≠ k := by rintro rfl; exact hn.1 (List.mem_map_of_mem (f := (·.1)) h)
      simp [this, ih hn.2 h]

theorem Dict.upd_map (F : α → β) (k : κ) (f : Option α → α) (f' : Option β → β) (d : Dict κ α)
    (h : F (f (Dict.get? k d)) = f' ((Dict.get? k d).map F)) :
    (Dict.upd k f d).map (fun kv => (kv.1, F kv.2)) = Dict.upd k f' (d.map (fun kv => (kv.1, F kv.2))) := by
  induction d with
  | nil => simp [Dict.upd, Dict.get?] at *; exact h
  | cons x xs ih =>
    obtain ⟨a, v⟩ := x
    by_cases e : a = k
    · simp [Dict.upd, Dict.get?, e] at *; exact h
    · simp [Dict.upd, Dict.get?, e] at *; exact ih h

theorem snoc_ind {P : List α → Prop} (h0 : P []) (h1 : ∀ xs x, P xs → P (xs ++ [x])) (xs : List α) : P xs := by
  have : ∀ ys : List α, P ys.reverse := by
    intro ys
    induction ys with
    | nil => exact h0
    | cons y ys ih => rw [List.reverse_cons]; exact h1 _ _ ih
  simpa using this xs.reverse

/-- The distinct elements of a list, in order of first appearance. -/
def uniq [DecidableEq α] (xs : List α) : List α := xs.foldl (fun acc x => setAdd x acc) []

section uniq
variable {α : Type} [DecidableEq α] {β : Type} [DecidableEq β]

theorem uniq_nil : uniq ([] : List α) = [] := rfl

theorem uniq_concat (xs : List α) (x : α) : uniq (xs ++ [x]) = setAdd x (uniq xs) := by
  simp [uniq, List.foldl_append]

theorem mem_setAdd {x y : α} {xs : List α} : y ∈ setAdd x xs ↔ y = x ∨ y ∈ xs := by
  unfold setAdd; split
  · constructor
    · exact .inr
    · rintro (rfl | h) <;> assumption
  · simp [or_comm]

theorem nodup_setAdd {x : α} {xs : List α} (h : xs.Nodup) : (setAdd x xs).Nodup := by
  unfold setAdd; split
  · exact h
  · rename_i hx
    rw [List.nodup_append]
    refine ⟨h, by simp, ?_⟩
    intro a ha b hb e
    rw [List.mem_singleton] at hb
    subst e hb; exact hx ha

theorem foldl_setAdd_mem {xs acc : List α} {y : α} :
    y ∈ xs.foldl (fun acc x => setAdd x acc) acc ↔ y ∈ acc ∨ y ∈ xs := by
  induction xs generalizing acc with
  | nil => simp
  | cons x xs ih => 
    simp only [List.foldl_cons, ih, mem_setAdd, List.mem_cons]
    rw [or_comm (a := y = x), or_assoc]

theorem foldl_setAdd_nodup {xs acc : List α} (h : acc.Nodup) :
    (xs.foldl (fun acc x => setAdd x acc) acc).Nodup := by
  induction xs generalizing acc with
  | nil => exact h
  | cons x xs ih => exact ih (nodup_setAdd h)

theorem mem_uniq {xs : List α} {y : α} : y ∈ uniq xs ↔ y ∈ xs := by
  simp [uniq, foldl_setAdd_mem]

theorem nodup_uniq (xs : List α) : (uniq xs).Nodup := foldl_setAdd_nodup List.nodup_nil

theorem uniq_of_nodup {xs : List α} (h : xs.Nodup) : uniq xs = xs := by
  have : ∀ (xs acc : List α), (acc ++ xs).Nodup → xs.foldl (fun acc x => setAdd x acc) acc = acc ++ xs := by
    intro xs
    induction xs with
    | nil => simp
    | cons x xs ih =>
      intro acc h
      have hx : x ∉ acc := by
        intro hx
        exact (List.nodup_append.mp h).2.2 x hx x (by simp) rfl
      have e : setAdd x acc = acc ++ [x] := by simp [setAdd, hx]
      rw [List.foldl_cons, e, ih]
      · simp
      · simpa using h
  exact this xs [] h

theorem uniq_eq_nil {xs : List α} : uniq xs = [] ↔ xs = [] := by
  constructor
  · intro h
    cases xs with
    | nil => rfl
    | cons x xs => exact absurd (mem_uniq.mpr (List.mem_cons_self ..)) (by rw [h]; simp)
  · rintro rfl; rfl

theorem uniq_perm {xs ys : List α} (h : ∀ a, a ∈ xs ↔ a ∈ ys) : (uniq xs).Perm (uniq ys) := by
  rw [List.perm_ext_iff_of_nodup (nodup_uniq _) (nodup_uniq _)]
  intro a; rw [mem_uniq, mem_uniq, h]

theorem uniq_length_le (xs : List α) : (uniq xs).length ≤ xs.length := by
  have : ∀ (xs acc : List α), (xs.foldl (fun acc x => setAdd x acc) acc).length ≤ acc.length + xs.length := by
    intro xs
    induction xs with
    | nil => simp
    | cons x xs ih =>
      intro acc
      refine Nat.le_trans (ih _) ?_
      have : (setAdd x acc).length ≤ acc.length + 1 := by unfold setAdd; split <;> simp
      show (setAdd x acc).length + _ ≤ _
      rw [List.length_cons]; omega
  simpa [uniq] using this xs []

theorem uniq_map_of_inj {f : α → β} {xs : List α} (hf : ∀ a ∈ xs, ∀ b ∈ xs, f a = f b → a = b) :
    uniq (xs.map f) = (uniq xs).map f := by
  revert hf
  refine snoc_ind (P := fun xs => (∀ a ∈ xs, ∀ b ∈ xs, f a = f b → a = b) → uniq (xs.map f) = (uniq xs).map f)
    ?_ ?_ xs
  · intro _; rfl
  · intro xs x ih hf
    rw [List.map_append, List.map_singleton, uniq_concat, uniq_concat,
      ih (fun a ha b hb => hf a (by simp [ha]) b (by simp [hb]))]
    unfold setAdd
    by_cases hx : x ∈ uniq xs
    · have : f x ∈ (uniq xs).map f := List.mem_map_of_mem hx
      simp [hx, this]
    · have : f x ∉ (uniq xs).map f := by
        intro h
        obtain ⟨y, hy, e⟩ := List.mem_map.mp h
        have := hf y (by simp [mem_uniq.mp hy]) x (by simp) e
        subst this; exact hx hy
      simp [hx, this]

end uniq

/-- The groups of a list, one per key in order of first appearance. -/
theorem groupBy_eq (key : α → κ) (xs : List α) :
    groupBy key xs = (uniq (xs.map key)).map (fun k => (k, xs.filter (fun x => decide (key x = k)))) := by
  refine snoc_ind (P := fun xs => groupBy key xs =
    (uniq (xs.map key)).map (fun k => (k, xs.filter (fun x => decide (key x = k))))) rfl ?_ xs
  intro xs x ih
  have e : groupBy key (xs ++ [x]) = Dict.upd (key x) (fun o => o.getD [] ++ [x]) (groupBy key xs) := by
    simp [groupBy, List.foldl_append]
  rw [e, ih, List.map_append, List.map_singleton, uniq_concat]
  have main : ∀ (ks : List κ), ks.Nodup → (key x ∉ ks → xs.filter (fun y => decide (key y = key x)) = []) →
      Dict.upd (key x) (fun o => o.getD [] ++ [x]) (ks.map (fun k => (k, xs.filter (fun y => decide (key y = k))))) =
        (setAdd (key x) ks).map (fun k => (k, (xs ++ [x]).filter (fun y => decide (key y = k)))) := by
    intro ks hn
    induction ks with
    | nil =>
      intro h
      simp only [setAdd, List.not_mem_nil, if_false, List.map_nil, Dict.upd, List.nil_append, List.map_cons,
        Option.getD_none, List.filter_append, h (by simp)]
      simp
    | cons k ks ih =>
      intro h
      rw [List.nodup_cons] at hn
      by_cases hk : k = key x
      · subst hk
        simp only [List.map_cons, Dict.upd, if_true, Option.getD_some, setAdd, List.mem_cons_self,
          List.filter_append]
        congr 1
        · simp
        · apply List.map_congr_left
          intro k' hk'
          have : key x ≠ k' := by rintro rfl; exact hn.1 hk'
          simp [this]
      · have h' := ih hn.2 (fun hx => h (by simp [hx, Ne.symm hk]))
        have es : setAdd (key x) (k :: ks) = k :: setAdd (key x) ks := by
          unfold setAdd
          by_cases hm : key x ∈ ks <;> simp [hm, Ne.symm hk]
        rw [es]
        simp only [List.map_cons, Dict.upd, hk, if_false, h', List.filter_append]
        simp [Ne.symm hk]
  apply main _ (nodup_uniq _)
  intro h
  rw [mem_uniq, List.mem_map] at h
  rw [List.filter_eq_nil_iff]
  intro y hy
  simp only [decide_eq_true_eq]
  intro e; exact h ⟨y, hy, e⟩

theorem groupBy_concat (key : α → κ) (xs : List α) (x : α) :
    groupBy key (xs ++ [x]) = Dict.upd (key x) (fun o => o.getD [] ++ [x]) (groupBy key xs) := by
  simp [groupBy, List.foldl_append]

theorem get?_groupBy (key : α → κ) (xs : List α) (k : κ) :
    Dict.get? k (groupBy key xs) =
      if k ∈ xs.map key then some (xs.filter (fun x => decide (key x = k))) else none := by
  have main : ∀ (ks : List κ) (f : κ → List α), Dict.get? k (ks.map (fun k => (k, f k))) =
      if k ∈ ks then some (f k) else none := by
    intro ks f
    induction ks with
    | nil => rfl
    | cons k' ks ih =>
      simp only [List.map_cons, Dict.get?]
      by_cases h : k' = k
      · simp [h]
      · simp [h, Ne.symm h, ih]
  rw [groupBy_eq, main]
  simp only [mem_uniq]

end OsUrl
