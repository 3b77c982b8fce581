import Verif.Spec.Logic
/-!
# Which predicates a query can lead to
-/
namespace PBfs

/-- The predicates that may be called while the query is answered with program `p`: those of its goals and, if a
predicate may be called and is not built in, those in the bodies of its clauses. -/
inductive Needed (p : List Clause) (query : List Node) : FV → Prop
  | goal {a} : a ∈ query → Needed p query a.fv
  | body {c a} : Needed p query c.head.fv → c.head.fv ∉ builtinFVs → c ∈ p → a ∈ c.body → Needed p query a.fv

/-- The clauses of a program for one predicate, in the order in which they stand. -/
def clausesFor (f : FV) (p : List Clause) : List Clause := p.filter (·.head.fv = f)

end PBfs
