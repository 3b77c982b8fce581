import Verif.Spec.Session
import Verif.Spec.Registers
/-! # An interpreter that has been asked a query -/
namespace PBfs

/-- `o` is an interpreter, with any history, that works with the program `p` and has just accepted the query
`atoms`.  `Untangled`: no clause of the program is one of those that may be compiled wrongly (see C24). -/
structure Asked (o : Org) (p : List Clause) (atoms : List Node) : Prop where
  loaded : ∃ o0 ord ord', Serves o0 ord p ∧ ord.OK ∧ Untangled p ∧ ord'.OK ∧ o0.loadQuery ord' (some atoms) = (o, .ok)
  wf : ∀ a ∈ atoms, Node.goal a = true ∧ a.wf = true
  ne : atoms ≠ []
  small : o.st.functors.length ≤ 65536

end PBfs
