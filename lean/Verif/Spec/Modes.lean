import Verif.Spec.Linear
import Verif.Spec.Pick
/-! # Programs whose predicates have inputs and outputs -/
namespace PBfs

/-- For every predicate, the positions of arguments that are ground when it is called, and those that are ground when it has been proved. -/
structure Modes where
  ins : FV → Nat → Bool
  outs : FV → Nat → Bool

/-- The variables in the inputs of an atom. -/
def Modes.inVars (M : Modes) (a : Node) : List Name := Node.varss (pick (M.ins a.fv) a.children)

/-- The variables in the outputs of an atom. -/
def Modes.outVars (M : Modes) (a : Node) : List Name := Node.varss (pick (M.outs a.fv) a.children)

/-- If the variables `G` are ground, then the goals can be called one after the other; each grounds the variables in its outputs, and
in the end the variables `R` are ground. -/
def Modes.Chain (M : Modes) (R : List Name) : List Name → List Node → Prop
  | G, [] => ∀ v ∈ R, v ∈ G
  | G, a :: as => (∀ v ∈ M.inVars a, v ∈ G) ∧ Modes.Chain M R (M.outVars a ++ G) as

instance Modes.decChain (M : Modes) (R : List Name) : ∀ (G : List Name) (as : List Node), Decidable (M.Chain R G as)
  | G, [] => inferInstanceAs (Decidable (∀ v ∈ R, v ∈ G))
  | G, a :: as =>
    have := Modes.decChain M R (M.outVars a ++ G) as
    inferInstanceAs (Decidable ((∀ v ∈ M.inVars a, v ∈ G) ∧ M.Chain R (M.outVars a ++ G) as))

/-- Given the inputs of the head, the goals of the body can be called from left to right and ground its outputs.  No variable occurs
twice in the arguments of the head that are not inputs. -/
def Modes.ClauseOK (M : Modes) (c : Clause) : Prop :=
  (Node.varss (pick (fun i => !M.ins c.head.fv i) c.head.children)).Nodup ∧ M.Chain (M.outVars c.head) (M.inVars c.head) c.body

instance (M : Modes) (c : Clause) : Decidable (M.ClauseOK c) := inferInstanceAs (Decidable (_ ∧ _))

/-- Comparison grounds nothing; evaluation grounds its result. -/
def Modes.BuiltinsOK (M : Modes) : Prop :=
  (∀ i, M.outs ⟨n!"==", 2⟩ i = false) ∧ (∀ i, M.outs ⟨n!"\\==", 2⟩ i = false) ∧ ∀ i, i ≠ 0 → M.outs ⟨n!"is", 2⟩ i = false

/-- The clauses of all called predicates respect the modes, and so does the query. -/
structure WellModed (M : Modes) (p : List Clause) (atoms : List Node) : Prop where
  builtins : M.BuiltinsOK
  clauses : ∀ c ∈ inForce p, MayCall p atoms c.head.fv → M.ClauseOK c
  query : M.Chain [] [] atoms

/-- `WellModed`, by a list of predicates. -/
theorem WellModed.of {M p atoms} (l : List FV) (hb : M.BuiltinsOK) (hq : ∀ a ∈ atoms, a.fv ∈ l)
    (hc : ∀ c ∈ inForce p, c.head.fv ∈ l → M.ClauseOK c ∧ ∀ b ∈ c.body, b.fv ∈ l) (hm : M.Chain [] [] atoms) : WellModed M p atoms :=
  ⟨hb, fun c hm h => (hc c hm (h.of hq fun c hm h => (hc c hm h).2)).1, hm⟩

end PBfs
