import Verif.Model.Py

/-! Patterns of one level that become narrower. -/

namespace OsUrl.Spec

/-- For a piece `key`: the pattern stays, or becomes the piece itself, or `[class]+` becomes `[class]{k}` (`[class]` for one character). -/
def Narrows (key new old : Str) : Prop :=
  new = old ∨ new = key ∨ ∃ (cls : Str) (k : Nat), 1 ≤ k ∧ old = c!"[" ++ cls ++ c!"]+" ∧
    new = c!"[" ++ cls ++ c!"]" ++ (if k = 1 then [] else c!"{" ++ natStr k ++ c!"}")

end OsUrl.Spec
