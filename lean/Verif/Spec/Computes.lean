import Verif.Spec.Shown
import Verif.Spec.Modes
/-!
# Programs that compute and compare

What programs with `is`, `==` and `\==` mean, and what is demanded of them so that it does not matter when their goals are called.
-/
namespace PBfs

/-- Which ground atoms are true.  As in `Proves`, but `\==` holds of different values only. -/
inductive Truth {D} (A : Alg D) (P : List Clause) : GAtom D → Prop
  | clause {c ρ} : c ∈ P → (∀ b ∈ c.body, Truth A P (b.inst A ρ)) → Truth A P (c.head.inst A ρ)
  | eq {d} : Truth A P ⟨n!"==", [d, d]⟩
  | neq {d e} : d ≠ e → Truth A P ⟨n!"\\==", [d, e]⟩
  | is {d v} : Evals A d v → Truth A P ⟨n!"is", [A.int v, d]⟩

/-- With these values of its variables, all goals of the query are true. -/
def Fulfils (P : List Clause) (atoms : List Node) (ρ : Name → ITree) : Prop := ∀ a ∈ atoms, Truth itreeAlg P (a.inst itreeAlg ρ)

/-- What is evaluated and what is compared is known by then: expressions, and both sides of comparisons, are inputs. -/
def Modes.Tests (M : Modes) : Prop :=
  M.ins ⟨n!"is", 2⟩ 1 = true ∧ M.ins ⟨n!"==", 2⟩ 0 = true ∧ M.ins ⟨n!"==", 2⟩ 1 = true ∧ M.ins ⟨n!"\\==", 2⟩ 0 = true ∧ M.ins ⟨n!"\\==", 2⟩ 1 = true

/-- The clauses of all called predicates and the query hand on what they know from the inputs to the outputs. -/
structure Directed (M : Modes) (p : List Clause) (atoms : List Node) : Prop where
  builtins : M.BuiltinsOK
  tests : M.Tests
  clauses : ∀ c ∈ inForce p, MayCall p atoms c.head.fv → M.Chain (M.outVars c.head) (M.inVars c.head) c.body
  query : M.Chain [] [] atoms

/-- `Directed`, by a list of predicates. -/
theorem Directed.of {M p atoms} (l : List FV) (hb : M.BuiltinsOK) (ht : M.Tests) (hq : ∀ a ∈ atoms, a.fv ∈ l)
    (hc : ∀ c ∈ inForce p, c.head.fv ∈ l → M.Chain (M.outVars c.head) (M.inVars c.head) c.body ∧ ∀ b ∈ c.body, b.fv ∈ l) (hm : M.Chain [] [] atoms) : Directed M p atoms :=
  ⟨hb, ht, fun c hm h => (hc c hm (h.of hq fun c hm h => (hc c hm h).2)).1, hm⟩

theorem WellModed.directed {M p atoms} (h : WellModed M p atoms) (ht : M.Tests) : Directed M p atoms := ⟨h.builtins, ht, fun c hc hm => (h.clauses c hc hm).2, h.query⟩

/-- In all solutions the variables of the query have values that can be written down. -/
def HasValues (P : List Clause) (atoms : List Node) : Prop :=
  ∀ ρ, Fulfils P atoms ρ → ∀ x, InQuery atoms x → ∃ (u : Tree) (s : Name), ρ x = u.fold itreeAlg ∧ Text u s

end PBfs
