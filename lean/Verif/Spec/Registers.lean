import Verif.Model.Compile
/-! # Clauses whose variables keep their registers

Specification for C24 (and C01–C03 through it): a condition on the source text of a clause under which no
register clash is possible.  It is stated from the terms alone; nothing of the compiler model is used.

The head and the first body atom of a clause are translated with one register file.  Register numbers are
given out separately for both, starting with the number of arguments of each: first to the variables among
the arguments, then to the nodes below the arguments, level by level; a variable gets its number at its first
occurrence and variables of the head keep theirs in the body. -/
namespace PBfs
namespace Node

/-- The nodes below `ns`, level by level (`k` levels). -/
def beneath : Nat → List Node → List Node
  | 0, _ => []
  | k + 1, ns => ns.flatMap children ++ beneath k (ns.flatMap children)

/-- The nodes which need a register besides the arguments: variables among the arguments, and everything
below the arguments. -/
def claimants (a : Node) : List Node := a.children.filter isVar ++ beneath a.size a.children

/-- Only the first occurrence of a variable counts, and none if it is `known`. -/
def fresh (known : List Name) : List Node → List Node
  | [] => []
  | .var v :: ns => if v ∈ known then fresh known ns else .var v :: fresh (v :: known) ns
  | n :: ns => n :: fresh known ns

/-- The register numbers given out for a head, with the nodes they are for. -/
def headRegs (head : Node) : List (Node × Nat) := (fresh [] head.claimants).zipIdx head.children.length

/-- The register numbers given out for the first body atom. -/
def bodyRegs (head b : Node) : List (Node × Nat) := (fresh (varss head.children) b.claimants).zipIdx b.children.length

/-- A node `h` of the head and a node `c` of the first body atom `b` may have the same register: a new variable
of `b` must not share with a variable or arithmetic expression of the head, and nothing in `b` must share with
a variable of the head that `b` needs.  Variables which occur in later atoms (`later`) live elsewhere. -/
def mayShare (b : Node) (later : List Name) (h c : Node) : Bool :=
  match c with
  | .var w => decide (w ∈ later) || !(h.isVar || h.isEfn)
  | _ =>
    match h with
    | .var v => decide (v ∈ later) || !decide (v ∈ varss b.children)
    | _ => true

/-- The argument `k` of the first body atom, `a`, can be stored although the variable `v` of the head is in
register `r`: the registers of the arguments are filled from the first to the last. -/
def mayStore (v : Name) (r k : Nat) (a : Node) : Bool :=
  decide (k < r) || !decide (v ∈ a.vars) || (decide (k = r) && a.isVar)

/-- Head and first body atom do not get into each other's way. -/
def untangled (head b : Node) (later : List Name) : Bool :=
  head.isCons || b.isCons ||
    (head.headRegs.all fun h =>
      ((bodyRegs head b).all fun c => decide (h.2 ≠ c.2) || mayShare b later h.1 c.1) &&
      match h.1 with
      | .var v => decide (v ∈ later) || b.children.zipIdx.all fun a => mayStore v h.2 a.2 a.1
      | _ => true)

end Node

/-- No register clash can occur in the clause. -/
def Clause.untangled (cl : Clause) : Bool :=
  match cl.body with
  | [] => true
  | b :: bs => Node.untangled cl.head b (bs.flatMap fun a => Node.varss a.children)

mutual
/-- Arithmetic functors have two arguments; the only structure without arguments is the empty list. -/
def Node.wf : Node → Bool
  | .fn f cs => (!cs.isEmpty || f == n!"[") && Node.wfs cs
  | .efn _ cs => cs.length == 2 && Node.wfs cs
  | _ => true
def Node.wfs : List Node → Bool
  | [] => true
  | c :: cs => Node.wf c && Node.wfs cs
end

/-- Nodes that can be called: constants, and structures with arguments. -/
def Node.goal : Node → Bool
  | .cons _ => true
  | .fn _ cs => !cs.isEmpty
  | .efn _ cs => !cs.isEmpty
  | _ => false

/-- The well-formed clauses the parser produces. -/
def Clause.wf (cl : Clause) : Prop := ∀ a ∈ cl.head :: cl.body, Node.goal a = true ∧ a.wf = true

/-- A program, as the parser produces them, without register clashes. -/
def Untangled (p : List Clause) : Prop := ∀ cl ∈ p, cl.wf ∧ cl.untangled = true

end PBfs
