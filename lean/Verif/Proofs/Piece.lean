import Verif.Proofs.Runs

/-! Facts about parsed pieces in terms of the spaces of the raw piece. -/

namespace OsUrl
open Spec

theorem parsePiece_ok {s : Str} {p : ParsedPiece} (h : parsePiece s = .ok p) :
    (∀ c ∈ s, Known c) ∧ p = ppOf (runsOf s) := by
  rw [parsePiece_eq] at h
  split at h
  · rename_i hk; cases h; exact ⟨hk, rfl⟩
  · cases h

/-- The spaces of the runs of a string. -/
def spacesOf (s : Str) : List Space := (runsOf s).map (·.1)

theorem space_mem_runs {s : Str} (hs : ∀ c ∈ s, Known c) {sp : Space} :
    sp ∈ spacesOf s ↔ ∃ c ∈ s, space? c = some sp := by
  have h := runsOf_spec hs
  constructor
  · intro hm
    obtain ⟨r, hr, rfl⟩ := List.mem_map.mp hm
    obtain ⟨c, hc⟩ := List.exists_mem_of_ne_nil _ (h.nonempty r hr)
    refine ⟨c, ?_, h.space r hr c hc⟩
    rw [← h.concat]
    simp
    exact ⟨r.2, ⟨r.1, hr⟩, hc⟩
  · rintro ⟨c, hc, hsp⟩
    have hc' := hc
    rw [← h.concat] at hc'
    simp at hc'
    obtain ⟨w, ⟨sp', hr⟩, hcw⟩ := hc'
    have := h.space _ hr c hcw
    rw [hsp] at this
    simp at this
    subst this
    exact List.mem_map.mpr ⟨_, hr, rfl⟩

theorem rules_mem_ruleSet {s : Str} (hs : ∀ c ∈ s, Known c) :
    ∀ r ∈ (spacesOf s).map Space.text, r ∈ ruleSet := by
  intro r hr
  obtain ⟨sp, hsp, rfl⟩ := List.mem_map.mp hr
  obtain ⟨x, hx, rfl⟩ := List.mem_map.mp hsp
  exact mem_ruleSet.mpr ⟨x.1, (runsOf_spec hs).valid x hx, rfl⟩

theorem fuzzyRule_eq (p : ParsedPiece) : p.fuzzyRule = joinSorted p.rules := by
  unfold ParsedPiece.fuzzyRule
  split
  · rename_i r _ h
    rw [h]
    split
    · rfl
    · simp [joinSorted, sortedSet_singleton]
  · rfl

theorem fuzzyRule_ppOf {s : Str} (_ : ∀ c ∈ s, Known c) :
    (ppOf (runsOf s)).fuzzyRule = joinSorted ((spacesOf s).map Space.text) := by
  rw [fuzzyRule_eq]
  simp [ppOf, spacesOf, Function.comp_def]

end OsUrl
