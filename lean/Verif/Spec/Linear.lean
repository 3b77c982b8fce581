import Verif.Spec.Logic
/-! # Programs whose heads contain no variable twice -/
namespace PBfs

/-- The predicates the search may come to: those of the query, and those called by the clauses of such predicates. -/
inductive MayCall (p : List Clause) (atoms : List Node) : FV → Prop
  | query {a} : a ∈ atoms → MayCall p atoms a.fv
  | body {c b} : c ∈ inForce p → MayCall p atoms c.head.fv → b ∈ c.body → MayCall p atoms b.fv

/-- No clause of a called predicate has a variable twice in its head. -/
def NoRepeats (p : List Clause) (atoms : List Node) : Prop :=
  ∀ c ∈ inForce p, MayCall p atoms c.head.fv → (Node.varss c.head.children).Nodup

/-- A set of predicates that contains those of the query and is closed under calls contains all called ones. -/
theorem MayCall.of {p atoms} {Q : FV → Prop} (hq : ∀ a ∈ atoms, Q a.fv) (hc : ∀ c ∈ inForce p, Q c.head.fv → ∀ b ∈ c.body, Q b.fv)
    {f} (h : MayCall p atoms f) : Q f := by
  induction h with
  | query ha => exact hq _ ha
  | body hm _ hb ih => exact hc _ hm ih _ hb

/-- `NoRepeats`, by a list of predicates. -/
theorem NoRepeats.of {p atoms} (l : List FV) (hq : ∀ a ∈ atoms, a.fv ∈ l)
    (hc : ∀ c ∈ inForce p, c.head.fv ∈ l → (Node.varss c.head.children).Nodup ∧ ∀ b ∈ c.body, b.fv ∈ l) : NoRepeats p atoms :=
  fun c hm h => (hc c hm (h.of hq fun c hm h => (hc c hm h).2)).1

end PBfs
