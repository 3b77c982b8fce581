import Verif.Spec.Acceptable
import Verif.Spec.Computes
import Verif.Spec.Undefined
/-!
# Programs that come to an end without anything undefined

Conditions on programs that compute: which ground atoms may be called, at which level, and what holds of their results.
-/
namespace PBfs

/-- Each of the atoms may be called, at a level below `k`, if `I` holds of those before it. -/
def Callable (lev : GAtom ITree → Nat → Prop) (I : GAtom ITree → Prop) (k : Nat) : List (GAtom ITree) → Prop
  | [] => True
  | g :: gs => (∃ j, j < k ∧ lev g j) ∧ (I g → Callable lev I k gs)

/-- `lev g k`: the atom may be called, at the level `k`.  `I` holds of everything that is true; when the head of a clause may be called, then so may its goals, one after the other and at lower
levels; and expressions may be evaluated only if nothing in this is undefined. -/
structure Contract (P : List Clause) (lev : GAtom ITree → Nat → Prop) (I : GAtom ITree → Prop) : Prop where
  results : ∀ g, Truth itreeAlg P g → I g
  body : ∀ c ∈ P, ∀ ρ k, lev (c.head.inst itreeAlg ρ) k → Callable lev I k (c.body.map (Node.inst itreeAlg ρ))
  defined : ∀ d e k, lev ⟨n!"is", [d, e]⟩ k → ∀ x, ¬ Undefined x e

/-- Expressions may be evaluated only if they have values. -/
def HasResults (lev : GAtom ITree → Nat → Prop) : Prop := ∀ d e k, lev ⟨n!"is", [d, e]⟩ k → ∃ v, Evals itreeAlg e v

end PBfs
