import Verif.Proofs.Stores3
import Verif.Spec.Shadow

/-! The order in which things happen for the first time. -/

namespace OsUrl
open Spec

section
variable {α β : Type} {P Q P' Q' : α → Prop}

theorem ov_nil : ¬ Overtaken P Q [] := by
  rintro ⟨a, b, e, ⟨x, hx, -⟩, -⟩
  have : a = [] := (List.append_eq_nil_iff.mp e.symm).1
  rw [this] at hx; simp at hx

theorem ov_concat {l : List α} {x : α} : Overtaken P Q (l ++ [x]) ↔
    Overtaken P Q l ∨ ((∃ y ∈ l, P y) ∧ (∀ y ∈ l, ¬ Q y) ∧ Q x) := by
  constructor
  · rintro ⟨a, b, e, ⟨y, hy, hpy⟩, hn, z, hz, hqz⟩
    rcases List.eq_nil_or_concat b with rfl | ⟨b', w, rfl⟩
    · simp at hz
    · rw [List.concat_eq_append] at e hz
      rw [← List.append_assoc] at e
      obtain ⟨rfl, e2⟩ := List.append_inj' e rfl
      simp at e2
      subst e2
      by_cases h : ∃ z ∈ b', Q z
      · exact .inl ⟨a, b', rfl, ⟨y, hy, hpy⟩, hn, h⟩
      · right
        have h' : ∀ z ∈ b', ¬ Q z := fun z hz hq => h ⟨z, hz, hq⟩
        refine ⟨⟨y, by simp [hy], hpy⟩, ?_, ?_⟩
        · intro z hz
          simp at hz
          exact hz.elim (hn z) (h' z)
        · simp at hz
          rcases hz with hz | rfl
          · exact absurd hqz (h' z hz)
          · exact hqz
  · rintro (⟨a, b, rfl, h1, h2, z, hz, hq⟩ | ⟨h1, h2, h3⟩)
    · exact ⟨a, b ++ [x], by simp, h1, h2, z, by simp [hz], hq⟩
    · exact ⟨l, [x], rfl, h1, h2, x, by simp, h3⟩

theorem ov_congr {l : List α} (hp : ∀ x ∈ l, (P x ↔ P' x)) (hq : ∀ x ∈ l, (Q x ↔ Q' x)) :
    Overtaken P Q l ↔ Overtaken P' Q' l := by
  constructor
  · rintro ⟨a, b, rfl, ⟨y, hy, hpy⟩, hn, z, hz, hqz⟩
    exact ⟨a, b, rfl, ⟨y, hy, (hp y (by simp [hy])).mp hpy⟩, fun x hx h => hn x hx ((hq x (by simp [hx])).mpr h),
      z, hz, (hq z (by simp [hz])).mp hqz⟩
  · rintro ⟨a, b, rfl, ⟨y, hy, hpy⟩, hn, z, hz, hqz⟩
    exact ⟨a, b, rfl, ⟨y, hy, (hp y (by simp [hy])).mpr hpy⟩, fun x hx h => hn x hx ((hq x (by simp [hx])).mp h),
      z, hz, (hq z (by simp [hz])).mpr hqz⟩

theorem ov_right {l : List α} (h : Overtaken P Q l) : ∃ x ∈ l, Q x := by
  obtain ⟨a, b, rfl, -, -, z, hz, hq⟩ := h
  exact ⟨z, by simp [hz], hq⟩

theorem ov_left {l : List α} (h : Overtaken P Q l) : ∃ x ∈ l, P x := by
  obtain ⟨a, b, rfl, ⟨z, hz, hq⟩, -⟩ := h
  exact ⟨z, by simp [hz], hq⟩

theorem ov_filterMap {f : β → Option α} (l : List β) : Overtaken P Q (l.filterMap f) ↔
    Overtaken (fun x => ∃ y, f x = some y ∧ P y) (fun x => ∃ y, f x = some y ∧ Q y) l := by
  refine snoc_ind (P := fun l => Overtaken P Q (l.filterMap f) ↔
    Overtaken (fun x => ∃ y, f x = some y ∧ P y) (fun x => ∃ y, f x = some y ∧ Q y) l) ?_ ?_ l
  · exact ⟨fun h => absurd h ov_nil, fun h => absurd h ov_nil⟩
  · intro l x ih
    rw [List.filterMap_append, ov_concat]
    cases hx : f x with
    | none =>
      have e : [x].filterMap f = [] := by simp [hx]
      rw [e, List.append_nil, ih]
      simp
    | some y =>
      have e : [x].filterMap f = [y] := by simp [hx]
      rw [e, ov_concat, ih]
      refine or_congr Iff.rfl (and_congr ?_ (and_congr ?_ (by simp)))
      · constructor
        · rintro ⟨z, hz, hpz⟩
          obtain ⟨w, hw, hwz⟩ := List.mem_filterMap.mp hz
          exact ⟨w, hw, z, hwz, hpz⟩
        · rintro ⟨w, hw, z, hwz, hpz⟩
          exact ⟨z, List.mem_filterMap.mpr ⟨w, hw, hwz⟩, hpz⟩
      · constructor
        · rintro h w hw ⟨z, hwz, hpz⟩
          exact h z (List.mem_filterMap.mpr ⟨w, hw, hwz⟩) hpz
        · intro h z hz hq
          obtain ⟨w, hw, hwz⟩ := List.mem_filterMap.mp hz
          exact h w hw ⟨z, hwz, hq⟩

theorem ov_map {f : β → α} (l : List β) : Overtaken P Q (l.map f) ↔
    Overtaken (fun x => P (f x)) (fun x => Q (f x)) l := by
  rw [← List.filterMap_eq_map, ov_filterMap]
  apply ov_congr <;> intro x _ <;> simp

theorem ov_filter {f : α → Bool} (l : List α) : Overtaken P Q (l.filter f) ↔
    Overtaken (fun x => f x = true ∧ P x) (fun x => f x = true ∧ Q x) l := by
  have e : l.filter f = l.filterMap (fun x => if f x then some x else none) := by
    rw [← List.filterMap_eq_filter]
    congr 1
  rw [e, ov_filterMap]
  apply ov_congr <;> intro x _ <;> cases f x <;> simp

theorem ov_uniq [DecidableEq α] (l : List α) : Overtaken P Q (uniq l) ↔ Overtaken P Q l := by
  refine snoc_ind (P := fun l => Overtaken P Q (uniq l) ↔ Overtaken P Q l) ?_ ?_ l
  · exact Iff.rfl
  · intro l x ih
    rw [uniq_concat, ov_concat, setAdd]
    by_cases h : x ∈ uniq l
    · rw [if_pos h, ih]
      constructor
      · exact .inl
      · rintro (h' | ⟨-, h1, h2⟩)
        · exact h'
        · exact absurd h2 (h1 x (mem_uniq.mp h))
    · rw [if_neg h, ov_concat, ih]
      simp only [mem_uniq]

/-- The last one that satisfies `f`, in a list without repetitions. -/
theorem find_last {f : α → Bool} {l : List α} (hn : l.Nodup) {p : α} :
    l.reverse.find? f = some p ↔ p ∈ l ∧ f p = true ∧
      ∀ q, f q = true → q ≠ p → ¬ Overtaken (· = p) (· = q) l := by
  revert hn
  refine snoc_ind (P := fun l => l.Nodup → (l.reverse.find? f = some p ↔ p ∈ l ∧ f p = true ∧
      ∀ q, f q = true → q ≠ p → ¬ Overtaken (· = p) (· = q) l)) ?_ ?_ l
  · simp
  · intro l x ih hn
    rw [List.nodup_append] at hn
    obtain ⟨h1, -, h3⟩ := hn
    have hx : x ∉ l := fun h => h3 x h x (by simp) rfl
    have ih := ih h1
    rw [List.reverse_append, List.reverse_singleton, List.singleton_append, List.find?_cons]
    cases hf : f x with
    | true =>
      simp only [Option.some.injEq]
      constructor
      · rintro rfl
        refine ⟨by simp, hf, ?_⟩
        intro q hq hne h
        rcases ov_concat.mp h with h | ⟨⟨y, hy, rfl⟩, -⟩
        · obtain ⟨y, hy, rfl⟩ := ov_left h
          exact hx hy
        · exact hx hy
      · rintro ⟨hp, hfp, h⟩
        apply Classical.byContradiction
        intro hne
        have hp : p ∈ l := by
          simp at hp
          exact hp.resolve_right (fun e => hne e.symm)
        exact h x hf hne (ov_concat.mpr (.inr ⟨⟨p, hp, rfl⟩, fun y hy e => hx (e ▸ hy), rfl⟩))
    | false =>
      simp only
      rw [ih]
      constructor
      · rintro ⟨a, b, c⟩
        refine ⟨by simp [a], b, ?_⟩
        intro q hq hne h
        rcases ov_concat.mp h with h | ⟨-, -, rfl⟩
        · exact c q hq hne h
        · rw [hf] at hq; cases hq
      · rintro ⟨a, b, c⟩
        refine ⟨?_, b, fun q hq hne h => c q hq hne (ov_concat.mpr (.inl h))⟩
        simp at a
        rcases a with a | rfl
        · exact a
        · rw [hf] at b; cases b

end

/-! ### along paths -/

theorem ov_heads {μ : Type} {P Q : MatchPattern → Prop} (L : List (MIns μ)) : Overtaken P Q (uniq (heads L)) ↔
    Overtaken (fun x => ∃ p t, x.1 = p :: t ∧ P p) (fun x => ∃ p t, x.1 = p :: t ∧ Q p) L := by
  rw [ov_uniq, heads, ov_filterMap]
  apply ov_congr <;>
  · rintro ⟨x, md⟩ _
    cases x <;> simp

theorem ov_sub {μ : Type} {P Q : List MatchPattern → Prop} {L : List (MIns μ)} (hc : Coh L) {p : MatchPattern}
    (hp : p ∈ heads L) : Overtaken (fun x => P x.1) (fun x => Q x.1) (sub p.str L) ↔
    Overtaken (fun x => ∃ t, x.1 = p :: t ∧ P t) (fun x => ∃ t, x.1 = p :: t ∧ Q t) L := by
  rw [sub, ov_map, ov_filter]
  have key : ∀ (R : List MatchPattern → Prop), ∀ x ∈ L, ((decide (x.1.head?.map (·.str) = some p.str) = true ∧ R x.1.tail) ↔
      ∃ t, x.1 = p :: t ∧ R t) := by
    rintro R ⟨x, md⟩ hx
    cases x with
    | nil => simp
    | cons q t =>
      simp only [List.head?_cons, Option.map_some, Option.some.injEq, List.tail_cons, decide_eq_true_eq, List.cons.injEq]
      constructor
      · rintro ⟨e, h⟩
        exact ⟨t, ⟨hc.head (mem_heads.mpr ⟨_, _, hx⟩) hp e, rfl⟩, h⟩
      · rintro ⟨t', ⟨rfl, rfl⟩, h⟩
        exact ⟨rfl, h⟩
  exact ov_congr (key P) (key Q)

end OsUrl
