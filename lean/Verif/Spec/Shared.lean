import Batteries.Data.List.Basic
import Verif.Model.Compile
/-! # Variables that are shared between goals -/
namespace PBfs

/-- The permanent register to which an instruction gives a value. -/
def Instr.setsPerm : Instr → Option Nat
  | .setPermVariable y _ | .putPermVariable y _ _ | .unifyPermVariable y _ | .getPermVariable y _ => some y
  | _ => none

/-- The permanent register of which an instruction uses the value. -/
def Instr.usesPerm : Instr → Option Nat
  | .setPermValue y | .putPermValue y _ | .unifyPermValue y | .getPermValue y _ => some y
  | _ => none

/-- A permanent register is given a value by the first instruction that mentions it, and never again. -/
def SetOnce (code : List Instr) : Prop :=
  ∀ pre i post y, code = pre ++ i :: post →
    (i.setsPerm = some y → ∀ j ∈ pre, j.setsPerm ≠ some y ∧ j.usesPerm ≠ some y) ∧
    (i.usesPerm = some y → ∃ j ∈ pre, j.setsPerm = some y)

/-- The variable `v` occurs in two atoms between which something is called.  In a clause, nothing is called between the head and the
first goal. -/
def SharedVar (clause : Bool) (atoms : List Node) (v : Name) : Prop :=
  ∃ pre a mid b post, atoms = pre ++ a :: (mid ++ b :: post) ∧ ¬ (clause = true ∧ pre = [] ∧ mid = []) ∧
    v ∈ Node.varss a.children ∧ v ∈ Node.varss b.children

/-- The instruction mentions the permanent register. -/
def Instr.mentionsPerm (i : Instr) (y : Nat) : Prop := i.setsPerm = some y ∨ i.usesPerm = some y

/-- The compiled code of some atoms keeps the shared variables: each has a permanent register of its own within the environment that
the code allocates first; the code of an atom mentions exactly the registers of the variables in the atom; and a register is given
a value where it is mentioned first and only used afterwards. -/
def KeepsShared (clause : Bool) (atoms : List Node) (code : List CAtom) : Prop :=
  ∃ reg : Name → Option Nat,
    (∀ v w y, reg v = some y → reg w = some y → v = w) ∧
    (∀ v, SharedVar clause atoms v → ∃ y, reg v = some y) ∧
    (∀ v y, reg v = some y → ∃ n is, code.flatMap (·.instrs) = .allocate n :: is ∧ y < n) ∧
    SetOnce (code.flatMap (·.instrs)) ∧
    ∃ cs rest, code = cs ++ rest ∧ (∀ c ∈ rest, ∀ i ∈ c.instrs, ∀ y, ¬ i.mentionsPerm y) ∧
      List.Forall₂ (fun (a : Node) (c : CAtom) => c.parsed = a ∧
        ∀ y, (∃ i ∈ c.instrs, i.mentionsPerm y) ↔ ∃ v ∈ Node.varss a.children, reg v = some y) atoms cs

end PBfs
