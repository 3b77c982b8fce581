import Verif.Spec.Named
/-! # Alternatives -/
namespace PBfs

/-- The clauses for the predicate of the goal `h` are those at the positions in `ks`; all of them have the head `h`, and that at position `k` has the body `body k`. -/
structure Alternatives (P : List Clause) (h : Node) (ks : List Nat) (body : Nat → List Node) : Prop where
  nodup : ks.Nodup
  at_ : ∀ k ∈ ks, P[k]? = some ⟨h, body k⟩
  all : ∀ k c, P[k]? = some c → c.head.fv = h.fv → k ∈ ks

end PBfs
