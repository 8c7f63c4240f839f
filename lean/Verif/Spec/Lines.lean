/-!
# Specification: the lines of a text of bytes
-/

namespace OsUrl.Spec

/-- `ls` are the lines of `b`: put together they are `b`, every line but the last is some bytes other than
newlines and a newline, and the last line is not empty and has a newline at most at its end. -/
structure LinesOf (b : List UInt8) (ls : List (List UInt8)) : Prop where
  all : ls.flatten = b
  line : ∀ i l, ls[i]? = some l → ∃ x, (10 : UInt8) ∉ x ∧ (l = x ++ [10] ∨ (l = x ∧ x ≠ [] ∧ i + 1 = ls.length))

/-- ASCII white space: tab, newline, vertical tab, form feed, carriage return, blank. -/
def White (b : UInt8) : Prop := b ∈ ([9, 10, 11, 12, 13, 32] : List UInt8)

instance (b : UInt8) : Decidable (White b) := inferInstanceAs (Decidable (_ ∈ _))

/-- `x` is `l` without the white space at its end. -/
def RightStripped (l x : List UInt8) : Prop :=
  (∃ b, l = x ++ b ∧ ∀ w ∈ b, White w) ∧ ∀ w, x.getLast? = some w → ¬ White w

/-- `x` is `l` without the white space at both ends. -/
def Stripped (l x : List UInt8) : Prop :=
  (∃ a b, l = a ++ x ++ b ∧ (∀ w ∈ a, White w) ∧ ∀ w ∈ b, White w) ∧
    (∀ w, x.head? = some w → ¬ White w) ∧ ∀ w, x.getLast? = some w → ¬ White w

end OsUrl.Spec
