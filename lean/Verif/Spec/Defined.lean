import Verif.Spec.Registers
/-! # Variables in arithmetic expressions

Specification for C61: which goals have an arithmetic expression with a variable that has no value when the
expression is built.  It is stated from the terms alone; nothing of the compiler model is used.

The terms of a goal are built from the inside to the outside: first the structures and expressions below the
arguments, level by level from the deepest and within a level from the last, then the arguments from the first to
the last.  A variable exists as soon as something it stands directly in has been built. -/
namespace PBfs
namespace Node

/-- What is built for a goal, in this order. -/
def builds (g : Node) : List Node := ((beneath g.size g.children).filter fun n => n.isFn || n.isEfn).reverse ++ g.children

/-- The variable, if the node is one. -/
def ownVar : Node → List Name
  | .var v => [v]
  | _ => []

/-- The variables that exist for certain after the node has been built. -/
def direct (n : Node) : List Name := n.ownVar ++ n.children.flatMap ownVar

/-- Every variable below the node exists, if the node is an expression. -/
def ready (known : List Name) : Node → Bool
  | .efn _ cs => (varss cs).all (known.contains ·)
  | _ => true

/-- The nodes can be built one after the other. -/
def buildable : List Name → List Node → Bool
  | _, [] => true
  | known, n :: ns => n.ready known && buildable (n.direct ++ known) ns

/-- In every goal the variables of the expressions exist when they are needed; `known` are the variables that occur
before. -/
def defined : List Name → List Node → Bool
  | _, [] => true
  | known, g :: gs => buildable known g.builds && defined (varss g.children ++ known) gs

/-- The variables that exist after these goals. -/
def known : List Name → List Node → List Name
  | known, [] => known
  | known, g :: gs => Node.known (varss g.children ++ known) gs

/-- No new variable of the first goal `b` gets the register of a variable or of an arithmetic expression of the head (see
Spec/Registers.lean).  Variables which occur in later goals (`later`) live elsewhere. -/
def apart (head b : Node) (later : List Name) : Bool :=
  head.isCons || b.isCons ||
    (head.headRegs.all fun h => (bodyRegs head b).all fun c => match c.1 with
      | .var w => decide (h.2 ≠ c.2) || decide (w ∈ later) || !(h.1.isVar || h.1.isEfn)
      | _ => true)

mutual
/-- The variables in arithmetic expressions. -/
def exprVars : Node → List Name
  | .fn _ cs => exprVarss cs
  | .efn _ cs => varss cs
  | _ => []
def exprVarss : List Node → List Name
  | [] => []
  | c :: cs => exprVars c ++ exprVarss cs
end

mutual
/-- The variables that are not an operand but an argument of a predicate or of a structure. -/
def plainVars : Node → List Name
  | .var v => [v]
  | .fn _ cs => plainVarss cs
  | .efn _ cs => operandVarss cs
  | _ => []
def plainVarss : List Node → List Name
  | [] => []
  | c :: cs => plainVars c ++ plainVarss cs
/-- The same for the operands of an expression. -/
def operandVarss : List Node → List Name
  | [] => []
  | .var _ :: cs => operandVarss cs
  | .fn _ ds :: cs => plainVarss ds ++ operandVarss cs
  | .efn _ ds :: cs => operandVarss ds ++ operandVarss cs
  | _ :: cs => operandVarss cs
end

end Node

/-- The variables in arithmetic expressions of the body exist when they are needed. -/
def Clause.defined (c : Clause) : Bool := Node.defined (Node.varss c.head.children) c.body

/-- The new variables of the first goal have registers of their own. -/
def Clause.apart (c : Clause) : Bool :=
  match c.body with
  | [] => true
  | b :: bs => Node.apart c.head b (bs.flatMap fun a => Node.varss a.children)

end PBfs
