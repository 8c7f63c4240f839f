/-! Counting, and the nodes of a tree of dicts. -/

namespace OsUrl.Spec

/-- `n` members of the list have the property. -/
inductive Times {α : Type} (P : α → Prop) : List α → Nat → Prop
  | nil : Times P [] 0
  | yes {x l n} (hx : P x) (h : Times P l n) : Times P (x :: l) (n + 1)
  | no {x l n} (hx : ¬ P x) (h : Times P l n) : Times P (x :: l) n

/-- The count is unique. -/
theorem Times.unique {α : Type} {P : α → Prop} {l : List α} {n m : Nat} (h : Times P l n) (h' : Times P l m) : n = m := by
  induction h generalizing m with
  | nil => cases h'; rfl
  | yes hx _ ih =>
    cases h' with
    | yes _ h' => rw [ih h']
    | no hy _ => exact absurd hx hy
  | no hx _ ih =>
    cases h' with
    | yes hy _ => exact absurd hy hx
    | no _ h' => exact ih h'

example : Times (fun n : Nat => n < 3) [1, 5, 2, 3] 2 :=
  .yes (by decide) (.no (by decide) (.yes (by decide) (.no (by decide) .nil)))

end OsUrl.Spec
