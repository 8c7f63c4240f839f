import Verif.Spec.Clustering
import Verif.Proofs.Clu2

/-! Tables of chunks and rows of parsed pieces: the same counting. -/

namespace OsUrl
open Spec

/-- A row of chunks as a row of parsed pieces. -/
def toIns (φ : Chunk → ParsedPiece) (x : WRow) : Ins := ⟨x.1.map (fun g => (φ g, none)), x.2, []⟩

/-- A column as entries. -/
def toEnts (φ : Chunk → ParsedPiece) (E : Column) : List Ent := E.map (fun e => (φ e.1, e.2))

/-- A table with `n` columns, the chunks of column `j` in `P j`. -/
def Tab (P : Nat → Chunk → Prop) (n : Nat) (S : List WRow) : Prop :=
  ∀ x ∈ S, x.1.length = n ∧ 1 ≤ x.2 ∧ ∀ j, j < n → P j (x.at j)

theorem Tab.sub {P : Nat → Chunk → Prop} {n : Nat} {S S' : List WRow} (h : Tab P n S) (hs : ∀ x ∈ S', x ∈ S) : Tab P n S' :=
  fun x hx => h x (hs x hx)

/-- A column with chunks in `P`. -/
structure ColOK (P : Chunk → Prop) (E : Column) : Prop where
  nodup : (E.map (·.1)).Nodup
  pos : ∀ e ∈ E, 1 ≤ e.2
  mem : ∀ e ∈ E, P e.1

/-- The rule and the level function give the same texts. -/
def AgreeF (φ : Chunk → ParsedPiece) (P : Nat → Chunk → Prop) (n : Nat) (F : Rule) (F' : LevelFn) : Prop :=
  ∀ j, j < n → ∀ E : Column, ColOK (P j) E → ∀ g ∈ E.map (·.1), F j E g = F' j (toEnts φ E) (φ g)

/-- Different chunks have different pieces. -/
def InjOn (φ : Chunk → ParsedPiece) (P : Nat → Chunk → Prop) : Prop :=
  ∀ j g g', P j g → P j g' → φ g = φ g' → g = g'

section
variable {φ : Chunk → ParsedPiece} {P : Nat → Chunk → Prop} {n : Nat} {F : Rule} {F' : LevelFn}

theorem toIns_pp {x : WRow} {j : Nat} (hj : j < x.1.length) : (toIns φ x).pp j = φ (x.at j) := by
  unfold toIns Ins.pp WRow.at
  simp [List.getElem?_map, hj]

theorem total_toIns (S : List WRow) : total (S.map (toIns φ)) = weight S := by
  unfold total weight
  rw [List.map_map]; rfl

theorem uniq_map_inj {α β : Type} [DecidableEq α] [DecidableEq β] {f : α → β} : ∀ {l : List α},
    (∀ a ∈ l, ∀ b ∈ l, f a = f b → a = b) → firsts (l.map f) = (firsts l).map f := by
  intro l
  induction l with
  | nil => intro _; rfl
  | cons x xs ih =>
    intro h
    rw [List.map_cons, firsts, firsts, List.map_cons, ih (fun a ha b hb => h a (by simp [ha]) b (by simp [hb])),
      List.filter_map]
    congr 2
    apply List.filter_congr
    intro y hy
    rw [firsts_mem] at hy
    simp only [Function.comp_apply, ne_eq, decide_not, Bool.not_eq_not]
    by_cases e : y = x
    · simp [e]
    · have : f y ≠ f x := fun e' => e (h y (by simp [hy]) x (by simp) e')
      simp [e, this]

theorem weight_pos {S : List WRow} (h : ∀ x ∈ S, 1 ≤ x.2) (hne : S ≠ []) : 1 ≤ weight S := by
  cases S with
  | nil => exact absurd rfl hne
  | cons x xs =>
    have h1 := h x (by simp)
    have h2 : 0 ≤ weight xs := by
      have : ∀ (l : List WRow), (∀ x ∈ l, 1 ≤ x.2) → 0 ≤ weight l := by
        intro l
        induction l with
        | nil => intro _; simp [weight]
        | cons a l ih =>
          intro hl
          have := ih (fun x hx => hl x (by simp [hx]))
          have := hl a (by simp)
          simp only [weight, List.map_cons, List.sum_cons] at *
          omega
      exact this xs (fun x hx => h x (by simp [hx]))
    simp only [weight, List.map_cons, List.sum_cons] at *
    omega

theorem firsts_nodup {α : Type} [DecidableEq α] : ∀ (l : List α), (firsts l).Nodup
  | [] => by simp [firsts]
  | x :: xs => by
    rw [firsts, List.nodup_cons]
    exact ⟨by simp, (firsts_nodup xs).filter _⟩

theorem column_cells (j : Nat) (S : List WRow) : (column j S).map (·.1) = firsts (S.map (fun x => x.at j)) := by
  unfold column
  rw [List.map_map]
  simp [Function.comp_def]

theorem column_ok {S : List WRow} (h : Tab P n S) {j : Nat} (hj : j < n) : ColOK (P j) (column j S) := by
  refine ⟨by rw [column_cells]; exact firsts_nodup _, ?_, ?_⟩
  · intro e he
    unfold column at he
    obtain ⟨g, hg, rfl⟩ := List.mem_map.mp he
    rw [firsts_mem] at hg
    obtain ⟨x, hx, rfl⟩ := List.mem_map.mp hg
    apply weight_pos
    · intro y hy
      exact (h y (List.mem_filter.mp hy).1).2.1
    · intro e0
      have : x ∈ S.filter (fun y => decide (y.at j = x.at j)) := List.mem_filter.mpr ⟨hx, by simp⟩
      rw [e0] at this
      simp at this
  · intro e he
    have : e.1 ∈ (column j S).map (·.1) := List.mem_map_of_mem he
    rw [column_cells, firsts_mem] at this
    obtain ⟨x, hx, e1⟩ := List.mem_map.mp this
    rw [← e1]
    exact (h x hx).2.2 j hj

theorem ent_toIns (hi : InjOn φ P) {S : List WRow} (h : Tab P n S) {j : Nat} (hj : j < n) :
    ent j (S.map (toIns φ)) = toEnts φ (column j S) := by
  have e1 : (S.map (toIns φ)).map (Ins.pp j) = (S.map (fun x => x.at j)).map φ := by
    rw [List.map_map, List.map_map]
    apply List.map_congr_left
    intro x hx
    exact toIns_pp (by rw [(h x hx).1]; exact hj)
  unfold ent toEnts column
  rw [e1, ← firsts_eq_uniq, uniq_map_inj, List.map_map, List.map_map]
  · apply List.map_congr_left
    intro g hg
    rw [firsts_mem] at hg
    obtain ⟨x, hx, rfl⟩ := List.mem_map.mp hg
    simp only [Function.comp_apply, Prod.mk.injEq, true_and]
    rw [← total_toIns (φ := φ), List.filter_map]
    congr 2
    apply List.filter_congr
    intro y hy
    simp only [Function.comp_apply]
    rw [toIns_pp (by rw [(h y hy).1]; exact hj)]
    by_cases e : y.at j = x.at j
    · simp [e]
    · have : φ (y.at j) ≠ φ (x.at j) := fun e' => e (hi j _ _ ((h y hy).2.2 j hj) ((h x hx).2.2 j hj) e')
      simp [e, this]
  · intro a ha b hb e
    obtain ⟨x, hx, rfl⟩ := List.mem_map.mp ha
    obtain ⟨y, hy, rfl⟩ := List.mem_map.mp hb
    exact hi j _ _ ((h x hx).2.2 j hj) ((h y hy).2.2 j hj) e

theorem textAt_eq (hi : InjOn φ P) (hF : AgreeF φ P n F F') {S : List WRow} (h : Tab P n S) {j : Nat} (hj : j < n) {x : WRow}
    (hx : x.1 ∈ S.map (·.1)) : textAt F j S x = lab F' j (S.map (toIns φ)) (toIns φ x) := by
  obtain ⟨y, hy, e⟩ := List.mem_map.mp hx
  have hl : x.1.length = n := by rw [← e]; exact (h y hy).1
  unfold textAt lab
  rw [ent_toIns hi h hj, toIns_pp (by omega)]
  apply hF j hj _ (column_ok h hj)
  rw [column_cells, firsts_mem, List.mem_map]
  exact ⟨y, hy, by unfold WRow.at; rw [e]⟩

theorem textAt_congr {S : List WRow} {j : Nat} {x y : WRow} (e : x.1 = y.1) : textAt F j S x = textAt F j S y := by
  unfold textAt WRow.at; rw [e]

theorem texts_congr {k j : Nat} {S : List WRow} {x y : WRow} (e : x.1 = y.1) : texts F k j S x = texts F k j S y := by
  induction k generalizing j S with
  | zero => rfl
  | succ k ih => rw [texts, texts, textAt_congr e, ih]

theorem texts_eq (hi : InjOn φ P) (hF : AgreeF φ P n F F') {k j : Nat} (hk : j + k = n) {S : List WRow} (h : Tab P n S) {x : WRow}
    (hx : x.1 ∈ S.map (·.1)) : texts F k j S x = labs F' k j (S.map (toIns φ)) (toIns φ x) := by
  induction k generalizing j S with
  | zero => rfl
  | succ k ih =>
    have hj : j < n := by omega
    rw [texts, labs, textAt_eq hi hF h hj hx]
    congr 1
    have e : S.filter (fun y => decide (textAt F j S y = lab F' j (S.map (toIns φ)) (toIns φ x))) =
        S.filter (fun y => decide (lab F' j (S.map (toIns φ)) (toIns φ y) = lab F' j (S.map (toIns φ)) (toIns φ x))) := by
      apply List.filter_congr
      intro y hy
      rw [textAt_eq hi hF h hj (List.mem_map_of_mem hy)]
    rw [e, ih (by omega) (h.sub (fun x hx => (List.mem_filter.mp hx).1)), nxt, List.filter_map]
    · rfl
    · obtain ⟨y, hy, e⟩ := List.mem_map.mp hx
      refine List.mem_map.mpr ⟨y, List.mem_filter.mpr ⟨hy, ?_⟩, e⟩
      rw [decide_eq_true_eq, ← textAt_eq hi hF h hj hx, ← textAt_eq hi hF h hj (List.mem_map_of_mem hy)]
      exact textAt_congr e

theorem alike_eq (hi : InjOn φ P) (hF : AgreeF φ P n F F') {S : List WRow} (h : Tab P n S) :
    alike F n S = unif F' n (S.map (toIns φ)) := by
  unfold alike unif
  rw [List.all_map]
  apply Bool.eq_iff_iff.mpr
  simp only [List.all_eq_true, decide_eq_true_eq, Function.comp_apply, List.mem_map, forall_exists_index, and_imp, forall_apply_eq_imp_iff₂]
  have key : ∀ x ∈ S, texts F n 0 S x = labs F' n 0 (S.map (toIns φ)) (toIns φ x) :=
    fun x hx => texts_eq hi hF (by omega) h (List.mem_map_of_mem hx)
  constructor
  · intro H x hx y hy
    rw [← key x hx, ← key y hy]; exact H x hx y hy
  · intro H x hx y hy
    rw [key x hx, key y hy]; exact H x hx y hy

theorem family_eq (hi : InjOn φ P) (hF : AgreeF φ P n F F') {k : Nat} {S : List WRow} (h : Tab P n S) {x : WRow}
    (hx : x.1 ∈ S.map (·.1)) : (family F n k S x).map (toIns φ) = famN F' n k (S.map (toIns φ)) (toIns φ x) := by
  induction k generalizing S with
  | zero => rfl
  | succ k ih =>
    rw [family, famN, alike_eq hi hF h]
    by_cases hu : unif F' n (S.map (toIns φ)) = true
    · rw [if_pos hu, if_pos hu]
    · rw [if_neg hu, if_neg hu]
      have e : S.filter (fun y => decide (texts F n 0 S y = texts F n 0 S x)) =
          S.filter (fun y => decide (labs F' n 0 (S.map (toIns φ)) (toIns φ y) = labs F' n 0 (S.map (toIns φ)) (toIns φ x))) := by
        apply List.filter_congr
        intro y hy
        rw [texts_eq hi hF (by omega) h (List.mem_map_of_mem hy), texts_eq hi hF (by omega) h hx]
      rw [ih (h.sub (fun x hx => (List.mem_filter.mp hx).1)), e, List.filter_map]
      · rfl
      · obtain ⟨y, hy, e⟩ := List.mem_map.mp hx
        exact List.mem_map.mpr ⟨y, List.mem_filter.mpr ⟨hy, by rw [decide_eq_true_eq]; exact texts_congr e⟩, e⟩

theorem family_sub {k : Nat} {S : List WRow} {x y : WRow} (hy : y ∈ family F n k S x) : y ∈ S := by
  induction k generalizing S with
  | zero => exact hy
  | succ k ih =>
    rw [family] at hy
    split at hy
    · exact hy
    · exact (List.mem_filter.mp (ih hy)).1

theorem family_self {k : Nat} {S : List WRow} {x : WRow} (hx : x.1 ∈ S.map (·.1)) : x.1 ∈ (family F n k S x).map (·.1) := by
  induction k generalizing S with
  | zero => exact hx
  | succ k ih =>
    rw [family]
    split
    · exact hx
    · apply ih
      obtain ⟨y, hy, e⟩ := List.mem_map.mp hx
      exact List.mem_map.mpr ⟨y, List.mem_filter.mpr ⟨hy, by rw [decide_eq_true_eq]; exact texts_congr e⟩, e⟩

end

end OsUrl
