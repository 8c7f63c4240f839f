import Verif.Proofs.Grow
import Verif.Spec.Tree

/-! Node data along the paths of a grown tree, and the order of its paths. -/

namespace OsUrl
open Spec

/-- Remove the first `j` steps. -/
def Ins.drop (j : Nat) (i : Ins) : Ins := { i with path := i.path.drop j }

theorem Ins.key_of_take {i : Ins} {n : Nat} (h : i.path.length = n + 1) (k : Str) :
    i.keys.take 1 = [k] ↔ i.key = k := by
  obtain ⟨path, c, ms⟩ := i
  cases path with
  | nil => simp at h
  | cons x rest => simp [Ins.keys, Ins.key]

theorem Ins.keys_tail_take {i : Ins} {n : Nat} (h : i.path.length = n + 1) (k : Str) (ks : List Str) (j : Nat) :
    i.keys.take (j + 1) = k :: ks ↔ i.key = k ∧ i.tail.keys.take j = ks := by
  obtain ⟨path, c, ms⟩ := i
  cases path with
  | nil => simp at h
  | cons x rest => simp [Ins.keys, Ins.key, Ins.tail]

/-- The node at depth `j` of a path holds the data of the insertions that share its first `j + 1`
keys. -/
theorem growPaths_data {n : Nat} {L : List Ins} (hL : ∀ i ∈ L, i.path.length = n) {p : List (Str × NodeData)}
    (hp : p ∈ growPaths n L) {j : Nat} {k : Str} {d : NodeData} (hj : p[j]? = some (k, d)) :
    d = headData ((L.filter (fun i => decide (i.keys.take (j + 1) = (p.map (·.1)).take (j + 1)))).map
      (Ins.drop j)) := by
  induction n generalizing L p j with
  | zero => simp [growPaths] at hp; subst hp; simp at hj
  | succ n ih =>
    rw [growPaths, List.mem_flatMap] at hp
    obtain ⟨⟨k', g⟩, hkg, hp⟩ := hp
    obtain ⟨q, hq, rfl⟩ := List.mem_map.mp hp
    obtain ⟨_, rfl⟩ := mem_groupBy hkg
    cases j with
    | zero =>
      simp only [List.getElem?_cons_zero, Option.some.injEq, Prod.mk.injEq] at hj
      rw [← hj.2]
      have e : L.filter (fun i => decide (i.keys.take (0 + 1) =
          (((k', headData (L.filter (fun x => decide (x.key = k')))) :: q).map (·.1)).take (0 + 1))) =
          L.filter (fun x => decide (x.key = k')) := by
        apply List.filter_congr
        intro i hi
        have := Ins.key_of_take (hL i hi) k'
        simp only [List.map_cons, Nat.zero_add, List.take_succ_cons, List.take_zero] at this ⊢
        simp only [this]
      rw [e]
      have : (Ins.drop 0) = id := by funext i; simp [Ins.drop]
      rw [this, List.map_id]
    | succ j =>
      simp only [List.getElem?_cons_succ] at hj
      have hL' : ∀ i ∈ (L.filter (fun x => decide (x.key = k'))).map Ins.tail, i.path.length = n := by
        intro i hi
        obtain ⟨i', hi', rfl⟩ := List.mem_map.mp hi
        simp [Ins.tail, hL i' (List.mem_filter.mp hi').1]
      rw [ih hL' hq hj, List.filter_map, List.map_map, List.filter_filter]
      congr 1
      have e : (Ins.drop j ∘ Ins.tail) = Ins.drop (j + 1) := by
        funext i; simp [Ins.drop, Ins.tail]
      rw [e]
      congr 1
      apply List.filter_congr
      intro i hi
      have := Ins.keys_tail_take (hL i hi) k' ((q.map (·.1)).take (j + 1)) (j + 1)
      simp only [List.map_cons, List.take_succ_cons] at this ⊢
      simp only [Function.comp, this]
      by_cases h1 : i.key = k' <;> simp [h1]

theorem firsts_mem {α : Type} [DecidableEq α] {xs : List α} {y : α} : y ∈ firsts xs ↔ y ∈ xs := by
  induction xs with
  | nil => simp [firsts]
  | cons x xs ih =>
    simp only [firsts, List.mem_cons, List.mem_filter, ih, decide_eq_true_eq]
    by_cases h : y = x <;> simp [h]

theorem firsts_concat {α : Type} [DecidableEq α] (xs : List α) (x : α) :
    firsts (xs ++ [x]) = setAdd x (firsts xs) := by
  induction xs with
  | nil => simp [firsts, setAdd]
  | cons y ys ih =>
    simp only [List.cons_append, firsts, ih]
    unfold setAdd
    by_cases hxy : x = y
    · subst hxy
      by_cases hm : x ∈ firsts ys <;> simp [hm]
    · by_cases hm : x ∈ firsts ys <;> simp [hm, hxy]

theorem firsts_eq_uniq {α : Type} [DecidableEq α] (xs : List α) : firsts xs = uniq xs := by
  refine snoc_ind (P := fun xs => firsts xs = uniq xs) rfl ?_ xs
  intro xs x ih
  rw [firsts_concat, uniq_concat, ih]

theorem heads_keys {L : List Ins} {n : Nat} (hL : ∀ i ∈ L, i.path.length = n + 1) :
    heads (L.map Ins.keys) = L.map Ins.key := by
  induction L with
  | nil => rfl
  | cons i L ih =>
    have h := hL i (by simp)
    have ih := ih (fun j hj => hL j (by simp [hj]))
    unfold heads at *
    obtain ⟨path, c, ms⟩ := i
    cases path with
    | nil => simp at h
    | cons x rest => simp only [List.map_cons, List.filterMap_cons, ih]; rfl

theorem below_keys {L : List Ins} {n : Nat} (hL : ∀ i ∈ L, i.path.length = n + 1) (k : Str) :
    below k (L.map Ins.keys) = ((L.filter (fun x => decide (x.key = k))).map Ins.tail).map Ins.keys := by
  induction L with
  | nil => rfl
  | cons i L ih =>
    have h := hL i (by simp)
    have ih := ih (fun j hj => hL j (by simp [hj]))
    obtain ⟨path, c, ms⟩ := i
    cases path with
    | nil => simp at h
    | cons x rest =>
      rw [List.map_cons, show Ins.keys ⟨x :: rest, c, ms⟩ = x.1.piece :: rest.map (·.1.piece) from rfl, below, ih,
        List.filter_cons]
      show _ = List.map _ (List.map _ (if decide (x.1.piece = k) = true then _ else _))
      by_cases hk : x.1.piece = k
      · simp [hk, Ins.keys, Ins.tail]
      · simp [hk]

/-- The key sequences of the paths, in order. -/
theorem growPaths_grouped {n : Nat} {L : List Ins} (hL : ∀ i ∈ L, i.path.length = n) (hne : L ≠ []) :
    (growPaths n L).map (fun p => p.map (·.1)) = grouped n (L.map Ins.keys) := by
  induction n generalizing L with
  | zero =>
    cases L with
    | nil => exact absurd rfl hne
    | cons i L => simp [growPaths, grouped]
  | succ n ih =>
    rw [growPaths, grouped, heads_keys hL, firsts_eq_uniq, List.map_flatMap, groupBy_eq, List.flatMap_map]
    apply flatMap_congr
    intro k hk
    have hkg : (k, L.filter (fun x => decide (x.key = k))) ∈ groupBy Ins.key L := by
      rw [groupBy_eq]; exact List.mem_map.mpr ⟨k, hk, rfl⟩
    rw [below_keys hL, ← ih]
    · simp only [List.map_map]
      rfl
    · intro i hi
      obtain ⟨i', hi', rfl⟩ := List.mem_map.mp hi
      simp [Ins.tail, hL i' (List.mem_filter.mp hi').1]
    · simpa using groupBy_ne_nil hkg

/-! ### `is_new` and the subtraction of a repeated path -/

theorem get?_grow (n : Nat) (L : List Ins) (k : Str) :
    (grow (n + 1) L).get? k =
      if k ∈ L.map Ins.key then
        some (headData (L.filter (fun x => decide (x.key = k))),
          grow n ((L.filter (fun x => decide (x.key = k))).map Ins.tail))
      else none := by
  rw [grow, Forest.get?_ofList, Dict.get?_map (fun g => (headData g, grow n (g.map Ins.tail))), get?_groupBy]
  by_cases h : k ∈ L.map Ins.key <;> simp only [h, if_true, if_false] <;> rfl

theorem isNewPath_grow (n : Nat) (L : List Ins) (hL : ∀ i ∈ L, i.path.length = n + 1) (ks : List Str)
    (hk : ks.length = n + 1) : isNewPath ks (grow (n + 1) L) = !decide (ks ∈ L.map Ins.keys) := by
  induction n generalizing L ks with
  | zero =>
    match ks, hk with
    | [k], _ =>
      simp only [isNewPath, get?_grow]
      have : (k ∈ L.map Ins.key) ↔ ([k] ∈ L.map Ins.keys) := by
        simp only [List.mem_map]
        constructor
        · rintro ⟨i, hi, e⟩
          refine ⟨i, hi, ?_⟩
          have h1 := (Ins.key_of_take (hL i hi) k).mpr e
          rwa [List.take_of_length_le (by simp [Ins.keys, hL i hi])] at h1
        · rintro ⟨i, hi, e⟩
          refine ⟨i, hi, (Ins.key_of_take (hL i hi) k).mp (by rw [e]; rfl)⟩
      by_cases h : k ∈ L.map Ins.key
      · have h2 := this.mp h
        simp only [h, h2, if_true, decide_true]; rfl
      · have h2 : [k] ∉ L.map Ins.keys := fun x => h (this.mpr x)
        simp only [h, h2, if_false, decide_false]; rfl
  | succ n ih =>
    match ks, hk with
    | k :: k' :: ks, hk =>
      have e1 : isNewPath (k :: k' :: ks) (grow (n + 1 + 1) L) =
          match (grow (n + 1 + 1) L).get? k with
          | none => true
          | some (_, kids') => isNewPath (k' :: ks) kids' := rfl
      rw [e1, get?_grow]
      have hiff : ∀ i ∈ L, (i.keys = k :: k' :: ks ↔ i.key = k ∧ i.tail.keys = k' :: ks) := by
        intro i hi
        have := hL i hi
        obtain ⟨path, c, ms⟩ := i
        cases path with
        | nil => simp at this
        | cons x rest => simp [Ins.keys, Ins.key, Ins.tail]
      by_cases h : k ∈ L.map Ins.key
      · simp only [h, if_true]
        rw [ih]
        · congr 1
          rw [decide_eq_decide]
          simp only [List.mem_map, List.mem_filter, decide_eq_true_eq]
          constructor
          · rintro ⟨_, ⟨i, ⟨hi, hk⟩, rfl⟩, e⟩
            exact ⟨i, hi, (hiff i hi).mpr ⟨hk, e⟩⟩
          · rintro ⟨i, hi, e⟩
            obtain ⟨e1, e2⟩ := (hiff i hi).mp e
            exact ⟨_, ⟨i, ⟨hi, e1⟩, rfl⟩, e2⟩
        · intro i hi
          obtain ⟨i', hi', rfl⟩ := List.mem_map.mp hi
          simp [Ins.tail, hL i' (List.mem_filter.mp hi').1]
        · simpa using hk
      · simp only [h, if_false]
        symm
        rw [Bool.not_eq_true', decide_eq_false_iff_not]
        intro hm
        obtain ⟨i, hi, e⟩ := List.mem_map.mp hm
        exact h (List.mem_map.mpr ⟨i, hi, ((hiff i hi).mp e).1⟩)

theorem modify_upsert {α : Type} (k : Str) (init : α) (g g' : α → Forest α → α × Forest α) :
    (f : Forest α) → (f.upsert k init g).modify k g' = f.upsert k init (fun a kids => g' (g a kids).1 (g a kids).2)
  | .nil => by simp [Forest.upsert, Forest.modify]
  | .cons k' a kids sibs => by
    by_cases h : k' = k
    · simp [Forest.upsert, Forest.modify, h]
    · simp [Forest.upsert, Forest.modify, h, modify_upsert k init g g' sibs]

theorem incrPath_buildPath (c cnt : Int) (fin : NodeData → NodeData)
    (hfin : ∀ d : NodeData, (fin (d.incr cnt)).incr c = fin (d.incr (cnt + c))) (path : List (ParsedPiece × Option Str))
    (d : NodeData) (kids : Forest NodeData) :
    incrPath c (path.map (·.1.piece)) (buildPath cnt fin path d kids).1 (buildPath cnt fin path d kids).2 =
      buildPath (cnt + c) fin path d kids := by
  induction path generalizing d kids with
  | nil => simp [incrPath, buildPath, hfin]
  | cons x rest ih =>
    obtain ⟨pp, pat⟩ := x
    simp only [List.map_cons, incrPath, buildPath, modify_upsert, ih]
    simp [NodeData.incr, Int.add_assoc]

end OsUrl
