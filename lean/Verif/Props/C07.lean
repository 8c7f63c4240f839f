import Verif.Proofs.Piece

/-! # C07: `fuzzy_rule` identifies the set of character spaces -/

namespace OsUrl
open Spec

/-- **C07**: two parsed pieces have the same fuzzy rule exactly when the raw pieces use the same set
of character spaces. -/
theorem C07_fuzzy_rule (s t : Str) (p q : ParsedPiece) (hp : parsePiece s = .ok p)
    (hq : parsePiece t = .ok q) :
    p.fuzzyRule = q.fuzzyRule ↔
      ∀ sp : Space, (∃ c ∈ s, space? c = some sp) ↔ (∃ c ∈ t, space? c = some sp) := by
  obtain ⟨hs, rfl⟩ := parsePiece_ok hp
  obtain ⟨ht, rfl⟩ := parsePiece_ok hq
  rw [fuzzyRule_ppOf hs, fuzzyRule_ppOf ht,
    joinSorted_inj (rules_mem_ruleSet hs) (rules_mem_ruleSet ht)]
  constructor
  · intro h sp
    rw [← space_mem_runs hs, ← space_mem_runs ht]
    constructor
    · intro hm
      obtain ⟨r, hr, e⟩ := List.mem_map.mp ((h sp.text).mp (List.mem_map_of_mem hm))
      rwa [← text_inj e]
    · intro hm
      obtain ⟨r, hr, e⟩ := List.mem_map.mp ((h sp.text).mpr (List.mem_map_of_mem hm))
      rwa [← text_inj e]
  · intro h r
    simp only [List.mem_map]
    constructor
    · rintro ⟨sp, hm, rfl⟩
      exact ⟨sp, (space_mem_runs ht).mpr ((h sp).mp ((space_mem_runs hs).mp hm)), rfl⟩
    · rintro ⟨sp, hm, rfl⟩
      exact ⟨sp, (space_mem_runs hs).mpr ((h sp).mpr ((space_mem_runs ht).mp hm)), rfl⟩

example : (parsePiece c!"a1-b").map (·.fuzzyRule) = .ok c!"0-9\\-a-z" := by decide
example : (parsePiece c!"-9z").map (·.fuzzyRule) = .ok c!"0-9\\-a-z" := by decide

end OsUrl
