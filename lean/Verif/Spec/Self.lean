import Verif.Spec.Gen

/-!
# Specification: when a generated pattern is found again

The units of the pattern of one piece, and the piece.
-/

namespace OsUrl.Spec

/-- All spaces of the unit may be mixed. -/
def GUnit.Mix (u : GUnit) : Prop := ∀ sp ∈ u.spaces, Mixable sp.text

/-- Something, a dot, and letters or digits. -/
def Dotted (us : List GUnit) : Prop :=
  ∃ a d b, us = [a, d, b] ∧ d.spaces = [.sign '.'] ∧ ∀ sp ∈ b.spaces, sp.isSign = false

/-- One unit, or no unit with several spaces. -/
def PlainPat (us : List GUnit) : Prop := us.length ≤ 1 ∨ ∀ u ∈ us, u.spaces.length = 1

/-- The units are the maximal mixable parts and the single signs. -/
def MixPat (us : List GUnit) : Prop :=
  (∀ u ∈ us, u.spaces.length = 1 ∨ u.Mix) ∧ Neighbours (fun u v => ¬ (u.Mix ∧ v.Mix)) us

/-- After the last dot there are at most two runs. -/
def ShortTail (s : Str) : Prop := ∃ a t rs, s = a ++ '.' :: t ∧ '.' ∉ t ∧ Runs t rs ∧ rs.length ≤ 2

/-- The pattern is found again for its piece `s`; `lp` tells whether `s` is the last piece of the path. -/
def Found (lp : Prop) (us : List GUnit) (s : Str) : Prop :=
  PlainPat us ∨ (lp ∧ Dotted us ∧ ShortTail s) ∨ (¬ (lp ∧ Dotted us) ∧ MixPat us)

end OsUrl.Spec
