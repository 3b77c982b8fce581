import Verif.Spec.Printing
import Verif.Spec.Syntax
/-!
# Terms the language has a notation for
-/
namespace PBfs

/-- Ground arithmetic expressions. -/
inductive Numeric : Tree → Prop
  | int {v} : Numeric (.int v)
  | efn {f l r} : f ∈ [n!"^", n!"*", n!"//", n!"+", n!"-"] → Numeric l → Numeric r → Numeric (.efn f [l, r])

/-- Ground terms that can be written in a program or a query: constants and functors are words beginning with a lower-case
letter, the operands of arithmetic operators are arithmetic expressions. -/
inductive Writable : Tree → Prop
  | cons {n} : IsWord isLower n → Writable (.cons n)
  | num {t} : Numeric t → Writable t
  | list {t ts} : ProperList t ts → (∀ u ∈ ts, Writable u) → Writable t
  | fn {f ts} : IsWord isLower f → ts ≠ [] → (∀ u ∈ ts, Writable u) → Writable (.fn f ts)

/-- The node without variables that stands for the term. -/
def Node.Denotes (n : Node) (t : Tree) : Prop := n.vars = [] ∧ ∀ ρ, n.eval treeAlg ρ = t

end PBfs
