import Verif.Spec.Syntax
import Verif.Spec.Logic
/-! # Chains of operators, as in Prolog -/
namespace PBfs

/-- `e0 op1 e1 op2 e2 …`: operands of the category `c` with operators between them, and the tokens of all this. -/
inductive OpChain (c : Cat) : Node → List (Name × Node) → List Tok → Prop
  | one {e ts} : Syn c [e] ts → OpChain c e [] ts
  | link {e ts op e' es us} : Syn c [e] ts → OpChain c e' es us → OpChain c e ((op, e') :: es) (ts ++ .sym op :: us)

/-- The value of a chain of numbers, computed from left to right. -/
inductive LeftToRight : Int → List (Name × Int) → Int → Prop
  | done {x} : LeftToRight x [] x
  | step {x op y z rest v} : ArithSpec op x y z → LeftToRight z rest v → LeftToRight x ((op, y) :: rest) v

/-- The operands have these values. -/
inductive Operands {D} (A : Alg D) (ρ : Name → D) : List (Name × Node) → List (Name × Int) → Prop
  | nil : Operands A ρ [] []
  | cons {op e es y ys} : Evals A (e.eval A ρ) y → Operands A ρ es ys → Operands A ρ ((op, e) :: es) ((op, y) :: ys)

end PBfs
