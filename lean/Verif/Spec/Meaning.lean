import Verif.Spec.Resolution
/-!
# What a program means
-/
namespace PBfs

/-- With these values of its variables, all goals of the query are consequences of the clauses. -/
def Solves (P : List Clause) (atoms : List Node) (ρ : Name → ITree) : Prop := ∀ a ∈ atoms, Proves itreeAlg P (a.inst itreeAlg ρ)

/-- The values are among the instances of one of the reported answers. -/
def Gives (reps : List Rep) (ρ : Name → ITree) : Prop := ∃ S gs, .answer S ∈ reps ∧ S ρ gs

/-- Every clause of the one program is in the other, apart from the order of its goals and how often they are repeated. -/
def Regoaled (p p' : List Clause) : Prop := ∀ c ∈ p, ∃ c' ∈ p', c'.head = c.head ∧ ∀ b, b ∈ c'.body ↔ b ∈ c.body

end PBfs
