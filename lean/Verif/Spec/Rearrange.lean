import Verif.Spec.Proofs
/-!
# Programs in another order

The same clauses in another order, and in each clause the same goals in another order.
-/
namespace PBfs

/-- The program `p2` has the clauses of `p`, each as often, in any order, and the goals of each in any order. -/
def Rearranged (p p2 : List Clause) : Prop :=
  ∃ p', p.Perm p' ∧ List.Forall₂ (fun c c2 : Clause => c2.head = c.head ∧ c.body.Perm c2.body) p' p2

/-- The two answers show the same instances of the query. -/
def SameInsts : Rep → Rep → Prop
  | .answer S, .answer S2 => ∀ ρ, (∃ gs, S ρ gs) ↔ ∃ gs, S2 ρ gs
  | _, _ => False

def Rep.isAnswer : Rep → Bool
  | .answer _ => true
  | .error _ => false

/-- Lines that show solutions: "true" and those with values of variables. -/
def solutionLine (l : Name) : Bool := l == n!"true" || l.head? == some '['

end PBfs
