import Verif.Spec.Logic
/-!
# More special queries

A query becomes more special if terms are put in the place of its variables.
-/
namespace PBfs

mutual
/-- The term with these terms in the place of its variables. -/
def Node.put (σ : Name → Node) : Node → Node
  | .var n => σ n
  | .cons c => .cons c
  | .int v => .int v
  | .fn f cs => .fn f (Node.puts σ cs)
  | .efn f cs => .efn f (Node.puts σ cs)
def Node.puts (σ : Name → Node) : List Node → List Node
  | [] => []
  | c :: cs => Node.put σ c :: Node.puts σ cs
end

/-- The goal with these terms in the place of its variables: the predicate stays what it is. -/
def Node.special (σ : Name → Node) : Node → Node
  | .fn f cs => .fn f (Node.puts σ cs)
  | .efn f cs => .efn f (Node.puts σ cs)
  | a => a

end PBfs
