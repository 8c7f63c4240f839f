/-!
# Specification: putting one more item into a list
-/

namespace OsUrl.Spec

/-- `a` put in at position `i`. -/
def putAt {α : Type} (i : Nat) (a : α) (l : List α) : List α := l.take i ++ a :: l.drop i

end OsUrl.Spec
