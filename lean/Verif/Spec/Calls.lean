import Verif.Model.Calls
import Verif.Model.Passes

/-! # Which clusterings a call of `process` asks for -/

namespace OsUrl.Spec

/-- A nested clustering whose list of calls is one entry, the tree it is given. -/
def asked (nested : NestedCluster) : NestedCalls := fun mcn m kw t => (nested mcn m kw t).map (fun r => (r, [⟨true, t⟩]))

/-- `ls` has one list for every entry of `cs`, and it is the list of calls that `nc` gives for this tree. -/
def Answered (nc : NestedCalls) : List ProcCall → List (List ProcCall) → Prop
  | [], [] => True
  | c :: cs, l :: ls => (∃ mcn m kw r, nc mcn m kw c.tree = .ok (r, l)) ∧ Answered nc cs ls
  | _, _ => False

/-- Every call of `ps` followed by the calls made inside it. -/
def Nested (h : Runtime) (nc : NestedCalls) (inner : Bool) (mcn : Int) (m : URLMeta) (kw : Bool) : List Pass → List ProcCall → Prop
  | [], cs => cs = []
  | p :: ps, cs => ∃ inside rest, processC h nc mcn m kw p.before = .ok ((p.after, p.split), inside) ∧
      cs = ⟨inner, p.before⟩ :: inside ++ rest ∧ Nested h nc inner mcn m kw ps rest

end OsUrl.Spec
