import Verif.Spec.Special
import Verif.Spec.Named
import Verif.Spec.Answers
/-!
# Calls and the bodies of clauses

A call that is an instance of the head of a clause stands for the instance of the body.
-/
namespace PBfs

/-- A variable that is in the body of the clause, but not in its head. -/
def Clause.Local (c : Clause) (x : Name) : Prop := (∃ a ∈ c.body, x ∈ a.vars) ∧ x ∉ Node.varss c.head.children

/-- The goal is the head of the clause with these terms in the place of its variables.  What is put in the place of the other variables of the body are different variables that are not in the goal. -/
structure Instance (g : Node) (c : Clause) (σ : Name → Node) : Prop where
  head : c.head.special σ = g
  fresh : ∀ x, c.Local x → ∃ y, σ x = .var y ∧ y ∉ Node.varss g.children
  apart : ∀ x x', c.Local x → c.Local x' → σ x = σ x' → x = x'

/-- The clauses for the predicate of a goal are those at the positions in `ks` and in `us`.  The goal is an instance of the heads of the former, and has no instance in common with the heads of the latter. -/
structure Unfolds (P : List Clause) (g : Node) (ks us : List Nat) (cl : Nat → Clause) (σ : Nat → Name → Node) : Prop where
  nodup : (ks ++ us).Nodup
  at_ : ∀ k ∈ ks ++ us, P[k]? = some (cl k)
  fv : ∀ k ∈ ks ++ us, (cl k).head.fv = g.fv
  all : ∀ k c, P[k]? = some c → c.head.fv = g.fv → k ∈ ks ++ us
  fits : ∀ k ∈ ks, Instance g (cl k) (σ k)
  fails : ∀ k ∈ us, ∀ ρ τ, g.inst itreeAlg ρ ≠ (cl k).head.inst itreeAlg τ

/-- The body of the clause with these terms in the place of its variables. -/
def Clause.special (c : Clause) (σ : Name → Node) : List Node := c.body.map (Node.special σ)

end PBfs
