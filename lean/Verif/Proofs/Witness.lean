import Verif.Proofs.Make

/-! A hash without clashes, for examples. -/

namespace OsUrl
open Spec

/-- An injective hash. -/
def codeNum : Str → Nat
  | [] => 0
  | c :: s => c.toNat + 1 + 1114112 * codeNum s

theorem codeHash_inj : ∀ {s t : Str}, codeNum s = codeNum t → s = t := by
  intro s
  induction s with
  | nil =>
    intro t e
    cases t with
    | nil => rfl
    | cons c t => simp only [codeNum] at e; omega
  | cons c s ih =>
    intro t e
    cases t with
    | nil => simp only [codeNum] at e; omega
    | cons d t =>
      simp only [codeNum] at e
      have hc : c.toNat < 1114112 := by
        have := c.valid
        rcases this with h | ⟨-, h⟩
        · exact Nat.lt_trans h (by decide)
        · exact h
      have hd : d.toNat < 1114112 := by
        have := d.valid
        rcases this with h | ⟨-, h⟩
        · exact Nat.lt_trans h (by decide)
        · exact h
      have h1 : c.toNat = d.toNat := by omega
      have h2 : codeNum s = codeNum t := by omega
      rw [Char.toNat_inj.mp h1, ih h2]

/-- A runtime without hash clashes.  Its sets are iterated backwards. -/
def codeHash : Runtime :=
  ⟨codeNum, List.reverse, List.reverse, List.reverse, List.reverse_perm, List.reverse_perm, List.reverse_perm⟩

theorem codeHash_ok (Row : List Str → Prop) : NoHashClash codeHash Row := fun _ _ _ _ e => codeHash_inj e

theorem id_ok (rs : List Rec) : NoCollision id rs := fun _ _ _ _ e => e

/-- Clusters as printed: the pattern and the pieces of the paths. -/
def showMade (hist : List Str) (mcn : Int) : Py (List (List Str × List (List Str))) := do
  let cs ← PatternMakerSt.make codeHash mcn (loadAll id (hist.map (fun u => (u, none))))
  return cs.map (fun c => ((match c.2.paths with | [] => [] | p :: _ => p.map (fun kn => kn.2.pattern)), c.2.paths.map (fun p => p.map (·.1))))

end OsUrl
