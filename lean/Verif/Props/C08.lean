import Verif.Proofs.Unit

/-! # C08: `specify_rule` and `parse_pattern_unit_string` are inverse -/

namespace OsUrl
open Spec

/-- The text of a set of spaces inside a class: its rules sorted and concatenated. -/
def classText (R : List Space) : Str := joinSorted (R.map Space.text)

/-- `rules` is the Python set of the rules of `R`. -/
def IsRuleSet (rules : List Str) (R : List Space) : Prop :=
  rules.Nodup ∧ ∀ r, r ∈ rules ↔ ∃ s ∈ R, s.text = r

/-- **C08**: `specify_rule` raises `ValueError` exactly for the number 0. -/
theorem C08_specify_zero (rule : Str) (n : Int) :
    (n = 0 → specifyRule rule n = .error .valueError) ∧ (n ≠ 0 → ∃ u, specifyRule rule n = .ok u) := by
  unfold specifyRule
  constructor
  · intro h; rw [if_pos h]
  · intro h; rw [if_neg h]; exact ⟨_, rfl⟩

/-- **C08**: reading back a specified rule. -/
theorem C08_roundtrip (R : List Space) (n : Int) (u : Str) (hne : R ≠ []) (hnd : R.Nodup)
    (hv : ∀ s ∈ R, s.Valid) (hu : specifyRule (classText R) n = .ok u) :
    if 0 < n ∧ n < R.length then parsePatternUnitString u = .error .invalidPattern
    else ∃ rules, parsePatternUnitString u = .ok (rules, if n < 0 then -1 else n) ∧ IsRuleSet rules R := by
  have h0 : n ≠ 0 := by
    rintro rfl
    simp [specifyRule] at hu
  simp [specifyRule, h0] at hu
  subst hu
  have hr : ∀ r ∈ sortedSet (R.map Space.text), r ∈ ruleSet := by
    intro r hr
    rw [mem_sortedSet, List.mem_map] at hr
    obtain ⟨s, hs, rfl⟩ := hr
    exact mem_ruleSet.mpr ⟨s, hv s hs, rfl⟩
  have hnd2 : (R.map Space.text).Nodup :=
    List.pairwise_map.mpr (hnd.imp (fun h e => h (text_inj e)))
  have hlen : (sortedSet (R.map Space.text)).length = R.length := by
    rw [length_sortedSet hnd2, List.length_map]
  obtain ⟨q, e, hq⟩ := QText.spec h0 (classText R)
  have hp := parseUnit_class hr hq
  rw [e]
  rw [sortedSet_of_ssorted (ssorted_sortedSet _), hlen] at hp
  have e2 : (sortedSet (R.map Space.text)).flatten = classText R := rfl
  rw [e2] at hp
  rw [hp]
  have hpos : 0 < R.length := List.length_pos_iff.mpr hne
  split
  · rename_i h
    rw [if_pos]
    left
    have : ¬ n < 0 := by omega
    simp only [this, if_false]; omega
  · rename_i h
    refine ⟨_, if_neg ?_, (ssorted_sortedSet _).nodup, ?_⟩
    · split <;> omega
    · intro r; rw [mem_sortedSet, List.mem_map]

example : specifyRule (classText [.digit, .sign ']']) 12 = .ok c!"[0-9\\]]{12}" := by decide
example : parsePatternUnitString c!"[0-9\\]]{12}" = .ok ([c!"0-9", c!"\\]"], 12) := by decide
example : parsePatternUnitString c!"[0-9\\]]" = .error .invalidPattern := by decide
example : parsePatternUnitString c!"[0-9\\]]+" = .ok ([c!"0-9", c!"\\]"], -1) := by decide

end OsUrl
