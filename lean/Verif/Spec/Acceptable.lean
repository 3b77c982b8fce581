import Verif.Spec.Resolution
import Verif.Spec.Effort
/-!
# Programs whose searches end

A condition by Apt and Pedreschi: ground atoms have levels, and levels get smaller from the head of a clause to its goals, as far as
the goals before hold.  Values are finite and infinite trees, since the interpreter unifies without occurs check; so not every atom has a level.
-/
namespace PBfs

/-- `I` holds of everything that can be proved. -/
structure Model (P : List Clause) (I : GAtom ITree → Prop) : Prop where
  clause : ∀ c ∈ P, ∀ ρ, (∀ b ∈ c.body, I (b.inst itreeAlg ρ)) → I (c.head.inst itreeAlg ρ)
  eq : ∀ d, I ⟨n!"==", [d, d]⟩
  neq : ∀ d e, I ⟨n!"\\==", [d, e]⟩
  is : ∀ v e, Evals itreeAlg e v → I ⟨n!"is", [itreeAlg.int v, e]⟩

/-- Each of the atoms has a level below `k`, if `I` holds of those before it.  The predicates `is`, `==`, `\\==` need no level. -/
def BelowLevel (lev : GAtom ITree → Nat → Prop) (I : GAtom ITree → Prop) (k : Nat) : List (GAtom ITree) → Prop
  | [] => True
  | g :: gs => ((⟨g.name, g.args.length⟩ : FV) ∈ ownFVs ∨ ∃ j, j < k ∧ lev g j) ∧ (I g → BelowLevel lev I k gs)

/-- The goals of a clause are below its head. -/
def Acceptable (P : List Clause) (lev : GAtom ITree → Nat → Prop) (I : GAtom ITree → Prop) : Prop :=
  ∀ c ∈ P, ∀ ρ k, lev (c.head.inst itreeAlg ρ) k → BelowLevel lev I k (c.body.map (Node.inst itreeAlg ρ))

/-- All instances of the query are below `n`. -/
def Bounded (lev : GAtom ITree → Nat → Prop) (I : GAtom ITree → Prop) (n : Nat) (atoms : List Node) : Prop :=
  ∀ ρ, BelowLevel lev I n (atoms.map (Node.inst itreeAlg ρ))

/-- Enough iterations for a query of `q` goals below `n`, if no predicate has more than `b` clauses and no clause more than `m` goals. -/
def enough (b m n q : Nat) : Nat := effort b (3 * q * (m + 1) ^ n)

end PBfs
