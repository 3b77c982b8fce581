import Verif.Spec.Proofs
/-!
# Beginnings of proofs

A search has to follow every sequence of clauses that may be the beginning of a proof: one that can be used for some instance of the query, one clause after the other, whatever comes then.
-/
namespace PBfs

/-- The clauses at these positions can be used for the goals: each in turn for the first goal left, and its body takes the place of the goal.  Goals may be left over. -/
inductive BeginsBy (P : List Clause) : List Nat → List (GAtom ITree) → Prop
  | nil {gs} : BeginsBy P [] gs
  | clause {k c σ w rest} : P[k]? = some c → BeginsBy P w (c.body.map (Node.inst itreeAlg σ) ++ rest) → BeginsBy P (k :: w) (c.head.inst itreeAlg σ :: rest)
  | own {g w rest} : OwnTrue g → BeginsBy P w rest → BeginsBy P w (g :: rest)

/-- The clauses can be used for an instance of the query. -/
def BegunBy (P : List Clause) (atoms : List Node) (w : List Nat) : Prop := ∃ ρ : Name → ITree, BeginsBy P w (atoms.map (Node.inst itreeAlg ρ))

/-- How many iterations a search takes for each beginning of a proof, at most: `b` is the number of clauses a predicate may have, `m` the number of goals a clause may have, `d` the number of clauses
of the longest beginning and `q` the number of goals of the query. -/
def perBeginning (b m d q : Nat) : Nat := 2 * (q + d * (m + 1)) + 1 + b

end PBfs
