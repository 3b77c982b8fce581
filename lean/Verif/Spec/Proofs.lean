import Verif.Spec.Computes
/-!
# Proofs

A proof of the goals of a query is told apart by the clauses that are used, from left to right: their positions in the program.
-/
namespace PBfs

/-- What is true of `==`, `\==` and `is`. -/
inductive OwnTrue : GAtom ITree → Prop
  | eq {d} : OwnTrue ⟨n!"==", [d, d]⟩
  | neq {d e} : d ≠ e → OwnTrue ⟨n!"\\==", [d, e]⟩
  | is {d v} : Evals itreeAlg d v → OwnTrue ⟨n!"is", [itreeAlg.int v, d]⟩

/-- The goals are proved with the clauses at these positions: each in turn is used for the first goal left, and its body takes the place of the goal. -/
inductive Follows (P : List Clause) : List Nat → List (GAtom ITree) → Prop
  | nil : Follows P [] []
  | clause {k c σ w rest} : P[k]? = some c → Follows P w (c.body.map (Node.inst itreeAlg σ) ++ rest) → Follows P (k :: w) (c.head.inst itreeAlg σ :: rest)
  | own {g w rest} : OwnTrue g → Follows P w rest → Follows P w (g :: rest)

/-- The instances of the query that are proved with these clauses. -/
def ProvedBy (P : List Clause) (atoms : List Node) (w : List Nat) (ρ : Name → ITree) : Prop := Follows P w (atoms.map (Node.inst itreeAlg ρ))

/-- An answer shows what is proved with certain clauses, all of that and nothing else; an error shows nothing. -/
inductive Proven (P : List Clause) (atoms : List Node) : Rep → Option (List Nat) → Prop
  | answer {S w} : (∀ ρ, (∃ gs, S ρ gs) ↔ ProvedBy P atoms w ρ) → Proven P atoms (.answer S) (some w)
  | error {k} : Proven P atoms (.error k) none

end PBfs
