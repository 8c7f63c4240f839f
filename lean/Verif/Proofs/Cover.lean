import Verif.Proofs.SamePat
import Verif.Proofs.Readable
import Verif.Spec.Self

/-! The units of a pattern text over the runs of its piece. -/

namespace OsUrl
open Spec

/-- The unit stands over these runs. -/
def CovUnit : GUnit → List Run → Prop
  | .run sp w, g => g = [(sp, w)]
  | .cls R n, g => n = writtenLength g ∧ ¬ ∃ c, R = [.sign c] ∧ c ≠ '\\'
  | .wild _, _ => True

structure CovOK (x : GUnit × List Run) : Prop where
  written : x.1.Written
  unit : CovUnit x.1 x.2
  spaces : ∀ sp, sp ∈ x.1.spaces ↔ ∃ r ∈ x.2, r.1 = sp

/-- Units over groups of runs. -/
structure Cov (s t : Str) (cov : List (GUnit × List Run)) : Prop where
  runs : Runs s (cov.map (·.2)).flatten
  text : patText (cov.map (·.1)) = t
  ok : ∀ x ∈ cov, CovOK x

theorem same_space_one {w : Str} {g : List Run} (h : Runs w g) {sp : Space} (hs : ∀ r ∈ g, r.1 = sp) (hg : g ≠ []) : ∃ u, g = [(sp, u)] := by
  match g, hg with
  | [r], _ => exact ⟨r.2, by rw [← hs r (by simp)]⟩
  | r :: r' :: g', _ =>
    exfalso
    apply h.maximal [] r r' g' rfl
    rw [hs r (by simp), hs r' (by simp)]

theorem written_spaces {u : GUnit} (h : u.Written) : u.spaces ≠ [] := by
  cases u with
  | run sp w => simp [GUnit.spaces]
  | cls R n => exact h.1.ne
  | wild R => exact WrittenClass.ne h

theorem valid_spaces {u : GUnit} (h : u.Valid) : u.spaces ≠ [] := written_spaces (gu_written h)

theorem CovOK.ne {x : GUnit × List Run} (h : CovOK x) : x.2 ≠ [] := by
  intro e
  obtain ⟨sp, hsp⟩ := List.exists_mem_of_ne_nil _ (written_spaces h.written)
  obtain ⟨r, hr, -⟩ := (h.spaces sp).mp hsp
  rw [e] at hr; cases hr

theorem classOf_written {w : Str} {g : List Run} (hr : Runs w g) (hg : g ≠ []) {R : List Space}
    (h1 : ∀ sp, sp ∈ R ↔ ∃ r ∈ g, r.1 = sp) (h2 : R.Pairwise (fun a b => a.text < b.text)) : WrittenClass R := by
  refine ⟨?_, ?_, h2⟩
  · rintro rfl
    obtain ⟨r, hr⟩ := List.exists_mem_of_ne_nil _ hg
    have := (h1 r.1).mpr ⟨r, hr, rfl⟩
    cases this
  · intro sp hsp
    obtain ⟨r, hrg, rfl⟩ := (h1 sp).mp hsp
    exact hr.valid r hrg

/-- The written length counts every character. -/
theorem written_ge (g : List Run) : (rawOf g).length ≤ writtenLength g := by
  unfold writtenLength rawOf
  induction g with
  | nil => exact Nat.le_refl _
  | cons r g ih =>
    simp only [List.map_cons, List.sum_cons, List.flatten_cons, List.length_append] at ih ⊢
    omega

/-- The written length is the measured length. -/
theorem written_measured {w : Str} {g : List Run} (hr : Runs w g) : writtenLength g = measured w := by
  have h := measured_runs hr
  have e : ((writtenLength g : Nat) : Int) = ((g.map (·.2)).flatten.length : Int) + (g.map extra).sum := by
    clear h hr
    unfold writtenLength
    induction g with
    | nil => rfl
    | cons r g ih =>
      simp only [List.map_cons, List.sum_cons, List.flatten_cons, List.length_append, extra] at ih ⊢
      split <;> omega
  rw [hr.concat] at e
  omega

theorem nodup_len {α : Type} [DecidableEq α] {l l' : List α} (h : l.Nodup) (hs : ∀ x ∈ l, x ∈ l') : l.length ≤ l'.length := by
  induction l generalizing l' with
  | nil => simp
  | cons x l ih =>
    rw [List.nodup_cons] at h
    have h1 : x ∈ l' := hs x (by simp)
    have := ih h.2 (l' := l'.erase x) (by
      intro y hy
      have hne : y ≠ x := by rintro rfl; exact h.1 hy
      exact (List.mem_erase_of_ne hne).mpr (hs y (by simp [hy])))
    rw [List.length_erase_of_mem h1] at this
    have := List.length_pos_of_mem h1
    simp only [List.length_cons]
    omega

theorem class_len {w : Str} {g : List Run} (hr : Runs w g) {R : List Space} (h1 : ∀ sp, sp ∈ R ↔ ∃ r ∈ g, r.1 = sp)
    (h2 : R.Pairwise (fun a b => a.text < b.text)) : R.length ≤ writtenLength g := by
  have hn : R.Nodup := h2.imp (by
    intro a b h e
    subst e
    exact absurd (strLt_iff.mpr h) (by rw [strLt_irrefl]; decide))
  have a1 := nodup_len hn (l' := g.map (·.1)) (fun sp hsp => by
    obtain ⟨r, hr, rfl⟩ := (h1 sp).mp hsp
    exact List.mem_map_of_mem hr)
  rw [List.length_map] at a1
  have a2 : g.length ≤ (rawOf g).length := by
    have := hr.nonempty
    clear hr h1 h2 hn a1
    induction g with
    | nil => simp
    | cons r g ih =>
      have h3 := ih (fun x hx => this x (by simp [hx]))
      have h4 := List.length_pos_iff.mpr (this r (by simp))
      simp only [rawOf, List.map_cons, List.flatten_cons, List.length_append, List.length_cons] at h3 ⊢
      omega
  have := written_ge g
  omega

theorem run_ok {w : Str} {g : List Run} (hr : Runs w g) {r : Run} (hrg : r ∈ g) : CovOK (.run r.1 r.2, [r]) :=
  ⟨⟨hr.nonempty r hrg, hr.space r hrg⟩, rfl, fun sp => by simp [GUnit.spaces, eq_comm]⟩

/-- The units of a group. -/
theorem group_cov {w : Str} {g : List Run} (hr : Runs w g) {t : Str} (h : GroupText g t) :
    ∃ cov : List (GUnit × List Run), (cov.map (·.2)).flatten = g ∧ patText (cov.map (·.1)) = t ∧ (∀ x ∈ cov, CovOK x) ∧
      (cov.length ≤ 1 ∨ ∀ x ∈ cov, x.1.spaces.length = 1) := by
  cases h with
  | lit =>
    refine ⟨g.map (fun r => (.run r.1 r.2, [r])), ?_, ?_, ?_, .inr ?_⟩
    · rw [List.map_map]; exact singles_flatten g
    · rw [List.map_map]; exact runUnits_text g
    · intro x hx
      obtain ⟨r, hrg, rfl⟩ := List.mem_map.mp hx
      exact run_ok hr hrg
    · intro x hx
      obtain ⟨r, hrg, rfl⟩ := List.mem_map.mp hx
      rfl
  | len hg h =>
    obtain ⟨R, h1, h2, rfl⟩ := h
    have hR := classOf_written hr hg h1 h2
    by_cases hs : ∃ c, R = [.sign c] ∧ c ≠ '\\'
    · obtain ⟨c, rfl, hcb⟩ := hs
      obtain ⟨u, rfl⟩ := same_space_one hr (sp := .sign c) (fun r hrg => by
        have := (h1 r.1).mpr ⟨r, hrg, rfl⟩
        simpa using this) hg
      refine ⟨[(.run (.sign c) u, [(.sign c, u)])], by simp, ?_, ?_, .inl (by simp)⟩
      · simp [patText, GUnit.text, runText, Space.isSign, writtenLength, hcb]
      · intro x hx
        rw [List.mem_singleton] at hx
        subst hx
        exact run_ok hr (r := (.sign c, u)) (by simp)
    · refine ⟨[(.cls R (writtenLength g), g)], by simp, ?_, ?_, .inl (by simp)⟩
      · simp [patText, GUnit.text]
      · intro x hx
        rw [List.mem_singleton] at hx
        subst hx
        exact ⟨⟨hR, class_len hr h1 h2⟩, ⟨rfl, hs⟩, h1⟩
  | wild hg h =>
    obtain ⟨R, h1, h2, rfl⟩ := h
    refine ⟨[(.wild R, g)], by simp, ?_, ?_, .inl (by simp)⟩
    · simp [patText, GUnit.text]
    · intro x hx
      rw [List.mem_singleton] at hx
      subst hx
      exact ⟨classOf_written hr hg h1 h2, trivial, h1⟩

/-- In several groups a `/` is alone. -/
def SlashAlone (gts : List (List Run × Str)) : Prop :=
  2 ≤ gts.length → ∀ gt ∈ gts, (∃ r ∈ gt.1, r.1 = .sign '/') → gt.1.length = 1

theorem groups_cov {gts : List (List Run × Str)} : ∀ {s : Str}, Runs s (gts.map (·.1)).flatten → (∀ gt ∈ gts, GroupText gt.1 gt.2) →
    ∃ cov : List (GUnit × List Run), (cov.map (·.2)).flatten = (gts.map (·.1)).flatten ∧ patText (cov.map (·.1)) = (gts.map (·.2)).flatten ∧
      (∀ x ∈ cov, CovOK x) ∧ (∀ x ∈ cov, x.1.spaces.length = 1 ∨ ∃ gt ∈ gts, x.2 = gt.1) ∧ (gts.length ≤ 1 → cov.length ≤ 1 ∨ ∀ x ∈ cov, x.1.spaces.length = 1) := by
  induction gts with
  | nil => intro s _ _; exact ⟨[], rfl, rfl, by simp, by simp, by simp⟩
  | cons gt gts ih =>
    intro s hr hg
    rw [List.map_cons, List.flatten_cons] at hr
    obtain ⟨c1, a1, a2, a3, a4⟩ := group_cov (runs_take hr) (hg gt (by simp))
    obtain ⟨c2, b1, b2, b3, b4, b5⟩ := ih (runs_drop hr) (fun x hx => hg x (by simp [hx]))
    refine ⟨c1 ++ c2, by simp [a1, b1], ?_, ?_, ?_, ?_⟩
    · unfold patText at a2 b2 ⊢
      rw [List.map_append, List.map_append, List.flatten_append, a2, b2]; simp
    · intro x hx
      rcases List.mem_append.mp hx with hx | hx
      · exact a3 x hx
      · exact b3 x hx
    · intro x hx
      rcases List.mem_append.mp hx with hx | hx
      · rcases a4 with a4 | a4
        · right
          match c1, a4, hx with
          | [y], _, hx =>
            rw [List.mem_singleton] at hx
            subst hx
            exact ⟨gt, by simp, by simpa using a1⟩
        · exact .inl (a4 x hx)
      · rcases b4 x hx with h | ⟨g, hg, h⟩
        · exact .inl h
        · exact .inr ⟨g, by simp [hg], h⟩
    · intro hl
      have : gts = [] := by
        cases gts with
        | nil => rfl
        | cons _ _ => simp at hl
      subst this
      have : c2 = [] := by
        cases c2 with
        | nil => rfl
        | cons x c2 =>
          exfalso
          have := (b3 x (by simp)).ne
          simp at b1
          exact this b1.1
      subst this
      simpa using a4

end OsUrl
