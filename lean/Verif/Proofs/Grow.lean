import Verif.Model.Tree
import Verif.Proofs.Group

/-! The tree built by a history of insertions, in closed form. -/

namespace OsUrl

namespace Forest
variable {α : Type}

/-- The forest with these children. -/
def ofList : List (Str × α × Forest α) → Forest α
  | [] => nil
  | (k, a, kids) :: rest => cons k a kids (ofList rest)

theorem children_ofList (l : List (Str × α × Forest α)) : (ofList l).children = l := by
  induction l with
  | nil => rfl
  | cons x xs ih => obtain ⟨k, a, kids⟩ := x; simp [ofList, children, ih]

theorem ofList_children : (f : Forest α) → ofList f.children = f
  | nil => rfl
  | cons k a kids sibs => by simp [ofList, children, ofList_children sibs]

theorem get?_ofList (k : Str) (l : List (Str × α × Forest α)) : (ofList l).get? k = Dict.get? k l := by
  induction l with
  | nil => rfl
  | cons x xs ih => obtain ⟨k', a, kids⟩ := x; simp [ofList, get?, Dict.get?, ih]

theorem upsert_ofList (k : Str) (init : α) (g : α → Forest α → α × Forest α) (l : List (Str × α × Forest α)) :
    (ofList l).upsert k init g =
      ofList (Dict.upd k (fun o => g (o.getD (init, nil)).1 (o.getD (init, nil)).2) l) := by
  induction l with
  | nil => rfl
  | cons x xs ih =>
    obtain ⟨k', a, kids⟩ := x
    by_cases h : k' = k <;> simp [ofList, upsert, Dict.upd, h, ih]

theorem paths_ofList (l : List (Str × α × Forest α)) :
    (ofList l).paths = l.flatMap (fun x =>
      match x.2.2 with
      | nil => [[(x.1, x.2.1)]]
      | cons .. => x.2.2.paths.map ((x.1, x.2.1) :: ·)) := by
  induction l with
  | nil => rfl
  | cons x xs ih => obtain ⟨k, a, kids⟩ := x; cases kids <;> simp [ofList, paths, ih]

theorem ofList_isNil (l : List (Str × α × Forest α)) : ofList l = nil ↔ l = [] := by
  cases l with
  | nil => simp [ofList]
  | cons x xs => obtain ⟨k, a, kids⟩ := x; simp [ofList]

end Forest

/-- One call of `build_tree`: the pieces with their patterns, the count and the metas for the last
node. -/
structure Ins where
  path : List (ParsedPiece × Option Str)
  count : Int
  metas : List Str

namespace Ins

/-- Key of the first node on the path. -/
def key (i : Ins) : Str :=
  match i.path with
  | [] => []
  | x :: _ => x.1.piece

/-- All keys. -/
def keys (i : Ins) : List Str := i.path.map (·.1.piece)

/-- What remains below the first node. -/
def tail (i : Ins) : Ins := { i with path := i.path.tail }

/-- A new first node. -/
def newHead (i : Ins) : NodeData :=
  match i.path with
  | [] => newNode emptyParsedPiece none
  | x :: _ => newNode x.1 x.2

/-- What happens to the node above `path`. -/
def act (i : Ins) (d : NodeData) : NodeData :=
  if i.path = [] then (d.incr i.count).updateMeta (some i.metas) else d.incr i.count

end Ins

/-- Data of the node shared by the insertions `g` (before removing its own step from the paths). -/
def headData (g : List Ins) : NodeData :=
  g.foldl (fun d i => i.tail.act d) (match g with | [] => newNode emptyParsedPiece none | i :: _ => i.newHead)

/-- The forest after the insertions `L`, all of length `n`. -/
def grow : Nat → List Ins → Forest NodeData
  | 0, _ => .nil
  | n + 1, L => .ofList ((groupBy Ins.key L).map (fun kg => (kg.1, headData kg.2, grow n (kg.2.map Ins.tail))))

/-- The tree after the insertions `L` below a fresh root. -/
def growTree (n : Nat) (L : List Ins) : Tree NodeData :=
  ⟨L.foldl (fun d i => i.act d) (newNode emptyParsedPiece none), grow n L⟩

theorem headData_concat {g : List Ins} (hg : g ≠ []) (i : Ins) : headData (g ++ [i]) = i.tail.act (headData g) := by
  cases g with
  | nil => exact absurd rfl hg
  | cons x xs => simp [headData, List.foldl_append]

theorem groupBy_ne_nil {κ α : Type} [DecidableEq κ] {key : α → κ} {xs : List α} {k : κ} {g : List α}
    (h : (k, g) ∈ groupBy key xs) : g ≠ [] := by
  rw [groupBy_eq, List.mem_map] at h
  obtain ⟨k', hk, e⟩ := h
  injection e with e1 e2
  subst e1; subst e2
  rw [mem_uniq, List.mem_map] at hk
  obtain ⟨x, hx, rfl⟩ := hk
  intro e
  have := List.filter_eq_nil_iff.mp e x hx
  simp at this

theorem mem_groupBy {κ α : Type} [DecidableEq κ] {key : α → κ} {xs : List α} {k : κ} {g : List α}
    (h : (k, g) ∈ groupBy key xs) : k ∈ xs.map key ∧ g = xs.filter (fun x => decide (key x = k)) := by
  rw [groupBy_eq, List.mem_map] at h
  obtain ⟨k', hk, e⟩ := h
  injection e with e1 e2
  subst e1; subst e2
  exact ⟨mem_uniq.mp hk, rfl⟩

theorem grow_nil (n : Nat) : grow n [] = .nil := by cases n <;> rfl

/-- Inserting one more path. -/
theorem buildPath_grow (n : Nat) (L : List Ins) (hL : ∀ i ∈ L, i.path.length = n) (i : Ins)
    (hi : i.path.length = n) (d : NodeData) :
    buildPath i.count (fun d => d.updateMeta (some i.metas)) i.path d (grow n L) =
      (i.act d, grow n (L ++ [i])) := by
  induction n generalizing L i d with
  | zero =>
    have : i.path = [] := List.eq_nil_of_length_eq_zero hi
    simp [this, buildPath, Ins.act, grow]
  | succ n ih =>
    obtain ⟨path, count, metas⟩ := i
    cases path with
    | nil => simp at hi
    | cons x rest =>
      obtain ⟨pp, pat⟩ := x
      simp only [List.length_cons, Nat.add_right_cancel_iff] at hi
      simp only [buildPath, grow, Forest.upsert_ofList]
      refine Prod.ext (by simp [Ins.act]) ?_
      simp only [groupBy_concat]
      congr 1
      rw [← Dict.upd_map (fun g => (headData g, grow n (g.map Ins.tail)))]
      · rfl
      · have key := get?_groupBy Ins.key L pp.piece
        show (headData (_ ++ [_]), grow n (List.map Ins.tail (_ ++ [_]))) = _
        cases hg : Dict.get? pp.piece (groupBy Ins.key L) with
        | none =>
          have := ih [] (by simp) ⟨rest, count, metas⟩ hi (newNode pp pat)
          rw [grow_nil] at this
          simp only [Option.getD_none, Option.map_none, List.nil_append]
          rw [this]
          rfl
        | some g =>
          have hm := Dict.get?_mem hg
          obtain ⟨_, hg2⟩ := mem_groupBy hm
          have := ih (g.map Ins.tail) (by
            intro j hj
            obtain ⟨j', hj', rfl⟩ := List.mem_map.mp hj
            rw [hg2, List.mem_filter] at hj'
            have := hL j' hj'.1
            simp [Ins.tail, this]) ⟨rest, count, metas⟩ hi (headData g)
          simp only [Option.getD_some, Option.map_some]
          rw [this, headData_concat (groupBy_ne_nil hm), List.map_append]
          rfl


/-! ### Data of the nodes -/

theorem Ins.act_count (i : Ins) (d : NodeData) : (i.act d).count = d.count + i.count := by
  unfold Ins.act NodeData.incr NodeData.updateMeta
  split
  · split <;> rfl
  · rfl

theorem Ins.act_pp (i : Ins) (d : NodeData) : (i.act d).pp = d.pp := by
  unfold Ins.act NodeData.incr NodeData.updateMeta
  split
  · split <;> rfl
  · rfl

theorem Ins.act_pat (i : Ins) (d : NodeData) : (i.act d).pat = d.pat := by
  unfold Ins.act NodeData.incr NodeData.updateMeta
  split
  · split <;> rfl
  · rfl

theorem foldl_act_count (g : List Ins) (f : Ins → Ins) (hf : ∀ i, (f i).count = i.count) (d : NodeData) :
    (g.foldl (fun d i => (f i).act d) d).count = d.count + (g.map (·.count)).sum := by
  induction g generalizing d with
  | nil => simp
  | cons i g ih => simp only [List.foldl_cons, ih, Ins.act_count, hf, List.map_cons, List.sum_cons]; omega

theorem foldl_act_pp (g : List Ins) (f : Ins → Ins) (d : NodeData) :
    (g.foldl (fun d i => (f i).act d) d).pp = d.pp := by
  induction g generalizing d with
  | nil => rfl
  | cons i g ih => simp only [List.foldl_cons, ih, Ins.act_pp]

theorem foldl_act_pat (g : List Ins) (f : Ins → Ins) (d : NodeData) :
    (g.foldl (fun d i => (f i).act d) d).pat = d.pat := by
  induction g generalizing d with
  | nil => rfl
  | cons i g ih => simp only [List.foldl_cons, ih, Ins.act_pat]

theorem newHead_count (i : Ins) : i.newHead.count = 0 := by unfold Ins.newHead; split <;> rfl

theorem newHead_metas (i : Ins) : i.newHead.metas = none := by unfold Ins.newHead; split <;> rfl

theorem headData_count (g : List Ins) : (headData g).count = (g.map (·.count)).sum := by
  unfold headData
  rw [foldl_act_count g Ins.tail (fun _ => rfl)]
  cases g with
  | nil => rfl
  | cons i g => simp [newHead_count]

theorem headData_pp {i : Ins} {g : List Ins} : (headData (i :: g)).pp = i.newHead.pp := by
  unfold headData; rw [foldl_act_pp]

theorem headData_pat {i : Ins} {g : List Ins} : (headData (i :: g)).pat = i.newHead.pat := by
  unfold headData; rw [foldl_act_pat]

theorem newHead_piece {i : Ins} (h : i.path ≠ []) : i.newHead.pp.piece = i.key := by
  unfold Ins.newHead Ins.key
  split
  · contradiction
  · rfl

/-- The metas of the node at the end of some insertions. -/
theorem updateMeta_mem (d : NodeData) (ms : List Str) (x : Str) :
    x ∈ ((d.updateMeta (some ms)).metas).getD [] ↔ x ∈ d.metas.getD [] ∨ x ∈ ms := by
  cases ms with
  | nil => simp [NodeData.updateMeta]
  | cons m ms => simp only [NodeData.updateMeta, Option.getD_some, foldl_setAdd_mem]

theorem updateMeta_nodup (d : NodeData) (ms : List Str) (h : (d.metas.getD []).Nodup) :
    (((d.updateMeta (some ms)).metas).getD []).Nodup := by
  cases ms with
  | nil => simpa [NodeData.updateMeta] using h
  | cons m ms => simp only [NodeData.updateMeta, Option.getD_some]; exact foldl_setAdd_nodup h

theorem foldl_act_metas (g : List Ins) (f : Ins → Ins) (hf : ∀ i ∈ g, (f i).path = []) (d : NodeData) (x : Str)
    (hm : ∀ i, (f i).metas = i.metas) :
    x ∈ ((g.foldl (fun d i => (f i).act d) d).metas).getD [] ↔
      x ∈ d.metas.getD [] ∨ ∃ i ∈ g, x ∈ i.metas := by
  induction g generalizing d with
  | nil => simp
  | cons i g ih =>
    rw [List.foldl_cons, ih (fun j hj => hf j (by simp [hj]))]
    have : ((f i).act d) = (d.incr (f i).count).updateMeta (some (f i).metas) := by
      simp [Ins.act, hf i (by simp)]
    rw [this, updateMeta_mem, hm]
    simp only [List.mem_cons, exists_eq_or_imp, NodeData.incr]
    rw [or_assoc]

theorem foldl_act_metas_none (g : List Ins) (f : Ins → Ins) (hf : ∀ i ∈ g, (f i).path ≠ []) (d : NodeData) :
    (g.foldl (fun d i => (f i).act d) d).metas = d.metas := by
  induction g generalizing d with
  | nil => simp
  | cons i g ih =>
    rw [List.foldl_cons, ih (fun j hj => hf j (by simp [hj]))]
    simp [Ins.act, hf i (by simp), NodeData.incr]

/-! ### The paths -/

theorem flatMap_congr {α β : Type} {l : List α} {f g : α → List β} (h : ∀ a ∈ l, f a = g a) :
    l.flatMap f = l.flatMap g := by
  induction l with
  | nil => rfl
  | cons x xs ih => simp [List.flatMap_cons, h x (by simp), ih (fun a ha => h a (by simp [ha]))]

/-- The paths of `grow`, for at least one level. -/
def growPaths : Nat → List Ins → List (List (Str × NodeData))
  | 0, _ => [[]]
  | n + 1, L => (groupBy Ins.key L).flatMap (fun kg =>
      (growPaths n (kg.2.map Ins.tail)).map ((kg.1, headData kg.2) :: ·))

theorem grow_eq_nil {n : Nat} {L : List Ins} (hL : L ≠ []) : grow (n + 1) L ≠ .nil := by
  intro h
  rw [grow, Forest.ofList_isNil, List.map_eq_nil_iff, groupBy_eq, List.map_eq_nil_iff, uniq_eq_nil,
    List.map_eq_nil_iff] at h
  exact hL h

theorem paths_grow (n : Nat) (L : List Ins) : (grow (n + 1) L).paths = growPaths (n + 1) L := by
  induction n generalizing L with
  | zero =>
    rw [grow, Forest.paths_ofList, List.flatMap_map]
    simp [growPaths, grow]
  | succ n ih =>
    rw [grow, Forest.paths_ofList, List.flatMap_map, growPaths]
    apply flatMap_congr
    intro kg hkg
    have hne : kg.2.map Ins.tail ≠ [] := by
      rw [Ne, List.map_eq_nil_iff]; exact groupBy_ne_nil (k := kg.1) hkg
    rw [← ih]
    have := grow_eq_nil (n := n) hne
    generalize grow (n + 1) (kg.2.map Ins.tail) = f at this
    cases f with
    | nil => exact absurd rfl this
    | cons => rfl

theorem Tree.paths_of_ne {α : Type} {t : Tree α} (h : t.kids ≠ .nil) : t.paths = t.kids.paths := by
  obtain ⟨r, f⟩ := t
  cases f with
  | nil => exact absurd rfl h
  | cons => rfl

theorem paths_growTree {n : Nat} {L : List Ins} (hL : L ≠ []) : (growTree n L).paths = growPaths n L := by
  cases n with
  | zero => rfl
  | succ n =>
    have h := grow_eq_nil (n := n) hL
    rw [← paths_grow]
    exact Tree.paths_of_ne h

theorem growPaths_length {n : Nat} {L : List Ins} : ∀ p ∈ growPaths n L, p.length = n := by
  induction n generalizing L with
  | zero => simp [growPaths]
  | succ n ih =>
    intro p hp
    rw [growPaths, List.mem_flatMap] at hp
    obtain ⟨kg, _, hp⟩ := hp
    obtain ⟨q, hq, rfl⟩ := List.mem_map.mp hp
    simp [ih q hq]

/-- The key sequences of the paths are those of the insertions. -/
theorem growPaths_keys {n : Nat} {L : List Ins} (hL : ∀ i ∈ L, i.path.length = n) (hne : L ≠ []) (ks : List Str) :
    ks ∈ (growPaths n L).map (fun p => p.map (·.1)) ↔ ks ∈ L.map Ins.keys := by
  induction n generalizing L ks with
  | zero =>
    simp only [growPaths, List.map_cons, List.map_nil, List.mem_singleton, List.mem_map]
    constructor
    · rintro rfl
      cases L with
      | nil => exact absurd rfl hne
      | cons i L =>
        exact ⟨i, by simp, by rw [Ins.keys, List.eq_nil_of_length_eq_zero (hL i (by simp))]; rfl⟩
    · rintro ⟨i, hi, rfl⟩
      rw [Ins.keys, List.eq_nil_of_length_eq_zero (hL i hi)]; rfl
  | succ n ih =>
    have htl : ∀ k : Str, ∀ i ∈ (L.filter (fun x => decide (x.key = k))).map Ins.tail, i.path.length = n := by
      intro k i hi
      obtain ⟨j, hj, rfl⟩ := List.mem_map.mp hi
      have := hL j (List.mem_filter.mp hj).1
      simp [Ins.tail, this]
    rw [growPaths]
    simp only [List.map_flatMap, List.mem_flatMap, List.map_map, List.mem_map]
    constructor
    · rintro ⟨⟨k, g⟩, hkg, p, hp, rfl⟩
      obtain ⟨hk, rfl⟩ := mem_groupBy hkg
      have hne' := groupBy_ne_nil hkg
      have := (ih (htl k) (by simpa using hne') (p.map (·.1))).mp (List.mem_map_of_mem hp)
      rw [List.mem_map] at this
      obtain ⟨j, hj, e⟩ := this
      obtain ⟨i, hi, rfl⟩ := List.mem_map.mp hj
      rw [List.mem_filter, decide_eq_true_eq] at hi
      refine ⟨i, hi.1, ?_⟩
      have hlen := hL i hi.1
      obtain ⟨path, c, ms⟩ := i
      cases path with
      | nil => simp at hlen
      | cons x rest =>
        simp only [Ins.keys, Ins.tail, List.tail_cons] at e
        simp only [Ins.keys, List.map_cons, e, Function.comp]
        have := hi.2
        simp only [Ins.key] at this
        rw [this]
    · rintro ⟨i, hi, rfl⟩
      have hlen := hL i hi
      have hkg : (i.key, L.filter (fun x => decide (x.key = i.key))) ∈ groupBy Ins.key L := by
        rw [groupBy_eq]
        exact List.mem_map.mpr ⟨i.key, mem_uniq.mpr (List.mem_map_of_mem hi), rfl⟩
      have := (ih (htl i.key) (by simpa using groupBy_ne_nil hkg) i.tail.keys).mpr
        (List.mem_map_of_mem (List.mem_map_of_mem (List.mem_filter.mpr ⟨hi, by simp⟩)))
      obtain ⟨p, hp, e⟩ := List.mem_map.mp this
      refine ⟨_, hkg, p, hp, ?_⟩
      obtain ⟨path, c, ms⟩ := i
      cases path with
      | nil => simp at hlen
      | cons x rest =>
        simp only [Ins.keys, Ins.tail, List.tail_cons] at e
        simp only [Function.comp, List.map_cons, e, Ins.keys]
        rfl

theorem growPaths_nodup {n : Nat} {L : List Ins} : ((growPaths n L).map (fun p => p.map (·.1))).Nodup := by
  induction n generalizing L with
  | zero => simp [growPaths]
  | succ n ih =>
    rw [growPaths, groupBy_eq, List.flatMap_map, List.map_flatMap]
    have hu := nodup_uniq (L.map Ins.key)
    generalize uniq (L.map Ins.key) = ks at hu
    induction ks with
    | nil => simp
    | cons k ks ihk =>
      rw [List.nodup_cons] at hu
      rw [List.flatMap_cons, List.nodup_append]
      refine ⟨?_, ihk hu.2, ?_⟩
      · rw [List.map_map]
        have := ih (L := (L.filter (fun x => decide (x.key = k))).map Ins.tail)
        have h2 := List.pairwise_map.mpr (List.Pairwise.imp (S := fun a b : List Str => (k :: a) ≠ (k :: b)) (by
          intro a b hab; simpa using hab) this)
        rw [List.map_map] at h2
        exact h2
      · intro a ha b hb e
        subst e
        simp only [List.mem_map, List.map_map, Function.comp] at ha
        obtain ⟨p, _, rfl⟩ := ha
        simp only [List.mem_flatMap, List.mem_map] at hb
        obtain ⟨k', hk', q, ⟨q', _, rfl⟩, e⟩ := hb
        simp only [List.map_cons, List.cons.injEq] at e
        exact hu.1 (e.1 ▸ hk')

end OsUrl
