import Verif.Proofs.PatString

/-! # C09: `parse_pattern_string` is lossless and stable -/

namespace OsUrl
open Spec

/-- **C09**: the units concatenated are the pattern string. -/
theorem C09_lossless (s : Str) (us : List Str) (h : parsePatternString s = .ok us) : us.flatten = s :=
  (parsePatternString_ok h).1

/-- **C09**: parsing a unit again returns just that unit. -/
theorem C09_stable (s : Str) (us : List Str) (h : parsePatternString s = .ok us) :
    ∀ u ∈ us, parsePatternString u = .ok [u] := by
  intro u hu
  rcases (parsePatternString_ok h).2 with ⟨rfl, rfl⟩ | ⟨-, hall⟩
  · simp at hu; subst hu; rfl
  · have := parsePatternString_units (us := [u]) (by simp) (by simpa using hall u hu) (neighbours_single _)
    simpa using this

/-- **C09**: the only exception is `InvalidPatternException`. -/
theorem C09_errors (s : Str) (e : PyErr) (h : parsePatternString s = .error e) : e = .invalidPattern := by
  unfold parsePatternString at h
  split at h
  · cases h
  · exact patternLoop_error (Nat.le_refl _) h

/-- **C09**: a unit is the empty string (of the empty pattern), starts with `[`, or consists of letters
and digits of one space. -/
theorem C09_shape (s : Str) (us : List Str) (h : parsePatternString s = .ok us) :
    ∀ u ∈ us, (s = [] ∧ u = []) ∨ u.head? = some '[' ∨
      (u ≠ [] ∧ ∃ sp : Space, sp.isSign = false ∧ ∀ c ∈ u, space? c = some sp) := by
  intro u hu
  rcases (parsePatternString_ok h).2 with ⟨rfl, rfl⟩ | ⟨-, hall⟩
  · left; simpa using hu
  · rcases hall u hu with ⟨t, rfl, -⟩ | ⟨rule, hd, hne, hc⟩
    · right; left; rfl
    · right; right
      refine ⟨hne, ?_⟩
      obtain ⟨c0, h0⟩ := List.exists_mem_of_ne_nil _ hne
      obtain ⟨sp, h1, h2⟩ := charRule_some_iff.mp (hc c0 h0)
      refine ⟨sp, text_mem_digitAscii_iff.mp (h2 ▸ hd), ?_⟩
      intro c hcm
      obtain ⟨sp', h3, h4⟩ := charRule_some_iff.mp (hc c hcm)
      rw [h3, text_inj (h4.trans h2.symm)]

example : parsePatternString c!"ab12[\\]\\-]{3}[a-z]+X" =
    .ok [c!"ab", c!"12", c!"[\\]\\-]{3}", c!"[a-z]+", c!"X"] := by decide
example : parsePatternString c!"a[b" = .error .invalidPattern := by decide

end OsUrl
