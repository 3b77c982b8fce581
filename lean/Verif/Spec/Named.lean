import Verif.Spec.Logic
/-! # Giving a query a name -/
namespace PBfs

/-- The clause at position `k` is the only one for its predicate. -/
def OnlyClause (P : List Clause) (k : Nat) (c : Clause) : Prop := P[k]? = some c ∧ ∀ k' c', P[k']? = some c' → c'.head.fv = c.head.fv → k' = k

/-- The variables of a goal have the same values. -/
def SameArgs {D} (a : Node) (ρ σ : Name → D) : Prop := ∀ x ∈ Node.varss a.children, ρ x = σ x

end PBfs
