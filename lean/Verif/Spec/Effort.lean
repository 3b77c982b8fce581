import Verif.Spec.Logic
/-!
# Derivations and their size, and the size of search trees
-/
namespace PBfs

/-- The ground atoms `gs` are proved by `n` uses of clauses of `P`, `j` comparisons `\\==` of different values, and `k` evaluations of expressions. -/
inductive Derives {D} (A : Alg D) (P : List Clause) : Nat → Nat → Nat → List (GAtom D) → Prop
  | nil : Derives A P 0 0 0 []
  | cons {c ρ n j k gs} : c ∈ P → Derives A P n j k (c.body.map (Node.inst A ρ) ++ gs) → Derives A P (n + 1) j k (c.head.inst A ρ :: gs)
  | neq {d e n j k gs} : d ≠ e → Derives A P n j k gs → Derives A P n (j + 1) k (⟨n!"\\==", [d, e]⟩ :: gs)
  | is {d v n j k gs} : Evals A d v → Derives A P n j k gs → Derives A P n j (k + 1) (⟨n!"is", [A.int v, d]⟩ :: gs)

/-- No predicate has more than `b` clauses. -/
def AtMost (b : Nat) (P : List Clause) : Prop := ∀ f, (P.filter (·.head.fv = f)).length ≤ b

/-- The number of nodes in the first `d` levels of a tree in which levels alternate: a goal has `b` children, one
for each clause, and a clause has one child, the goals that are left. -/
def effort (b : Nat) : Nat → Nat
  | 0 => 0
  | 1 => 1
  | d + 2 => 1 + b * (1 + effort b d)

/-- How deep in the tree a derivation can end that uses `n` clauses, and `m` times a predicate that is not defined by clauses: two levels for
each, and one level for every environment that is thrown away. -/
def depth (n m : Nat) : Nat := if m = 0 then 3 * n - 1 else 3 * n + 2 * m

end PBfs
