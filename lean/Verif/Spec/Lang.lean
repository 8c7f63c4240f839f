import Verif.Spec.Gen

/-!
# Specification: the language of a generated pattern

Which strings the regular expression of a generated pattern stands for, without regular expressions.
-/

namespace OsUrl.Spec

/-- The texts of a unit. -/
def GUnit.Lang : GUnit → Str → Prop
  | .run _ w, t => t = w
  | .cls R n, t => t.length = n ∧ ∀ c ∈ t, ∃ sp ∈ R, space? c = some sp
  | .wild R, t => t ≠ [] ∧ ∀ c ∈ t, ∃ sp ∈ R, space? c = some sp

/-- The texts of a sequence of units. -/
def InLang : List GUnit → Str → Prop
  | [], s => s = []
  | u :: us, s => ∃ a b, s = a ++ b ∧ u.Lang a ∧ InLang us b

end OsUrl.Spec
