import Verif.Model.Cluster

/-! # C39: `confused` -/

namespace OsUrl

/-- **C39**: a data set smaller than the threshold is never confused. -/
theorem C39_small (total maxPart threshold : Int) (h : total < threshold) :
    confused total maxPart threshold = false := by simp [confused, h]

/-- **C39**: a data set with one part only is never confused (for a positive threshold). -/
theorem C39_one_part (total threshold : Int) (h : 0 < threshold) :
    confused total total threshold = false := by
  unfold confused
  split
  · rfl
  · simp; omega

/-- **C39**: it is confused whenever the largest part and the rest both reach the threshold. -/
theorem C39_both (total maxPart threshold : Int) (h0 : threshold ≤ total)
    (h1 : threshold ≤ maxPart) (h2 : threshold ≤ total - maxPart) :
    confused total maxPart threshold = true := by
  unfold confused
  rw [if_neg (by omega), if_pos (by omega)]

/-- **C39**: symmetric in the largest part and the rest. -/
theorem C39_symm (total maxPart threshold : Int) :
    confused total maxPart threshold = confused total (total - maxPart) threshold := by
  unfold confused
  simp only [show total - (total - maxPart) = maxPart by omega]
  have : ((maxPart - (total - maxPart)).natAbs : Int) = ((total - maxPart - maxPart).natAbs : Int) := by
    omega
  rw [this]
  split
  · rfl
  · congr 1
    exact propext ⟨fun h => ⟨h.2, h.1⟩, fun h => ⟨h.2, h.1⟩⟩

/-- **C39**: the exact condition. -/
theorem C39_exact (total maxPart threshold : Int) :
    confused total maxPart threshold = true ↔
      threshold ≤ total ∧
        ((threshold ≤ maxPart ∧ threshold ≤ total - maxPart) ∨
          (-(threshold - 1) < 2 * maxPart - total ∧ 2 * maxPart - total < threshold - 1)) := by
  unfold confused
  split
  · simp; omega
  · dsimp only
    split
    · simp; omega
    · simp; omega

example : confused 10 7 3 = true ∧ confused 10 9 3 = false ∧ confused 2 1 3 = false := by decide

end OsUrl
