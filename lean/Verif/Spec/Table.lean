import Verif.Model.Parser
/-!
# The symbols of a text

`storage` (include/prolog_bfs/wam/data/storage.h) numbers the constants and functors that occur in arguments, and constants that are goals or heads.  The name of
a predicate with arguments is not among them, nor is an arithmetic operator.
-/
namespace PBfs

mutual
/-- The constants and functors of a term, with their arities. -/
def Node.syms : Node → List FV
  | .cons c => [⟨c, 0⟩]
  | .fn f cs => ⟨f, cs.length⟩ :: Node.symss cs
  | .efn _ cs => Node.symss cs
  | .var _ | .int _ => []
def Node.symss : List Node → List FV
  | [] => []
  | c :: cs => Node.syms c ++ Node.symss cs
end

/-- The symbols of a head or goal. -/
def Node.atomSyms : Node → List FV
  | .cons c => [⟨c, 0⟩]
  | a => Node.symss a.children

/-- The symbols of a query. -/
def querySyms (atoms : List Node) : List FV := atoms.flatMap Node.atomSyms

/-- The symbols of a clause. -/
def Clause.syms (c : Clause) : List FV := querySyms (c.head :: c.body)

/-- Interpreters that get their programs and queries as texts, and how many characters these had together. -/
inductive FedBy : Org → Nat → Prop
  | init {o} : Org.init = .ok o → FedBy o 0
  | program {o n} (ord text) : FedBy o n → FedBy (o.loadProgramText ord text).1 (n + text.length)
  | query {o n} (ord text) : FedBy o n → FedBy (o.loadQueryText ord text).1 (n + text.length)
  | answer {o o' n fuel clock r} : FedBy o n → o.getAnswer fuel clock = .ok (o', r) → FedBy o' n
  | memory {o n} : FedBy o n → FedBy o.clearMemory n

end PBfs
