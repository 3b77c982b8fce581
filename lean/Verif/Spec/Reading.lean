import Verif.Model.Compile
/-!
# How deep lists are nested in a term and in a text
-/
namespace PBfs

mutual
/-- The number of lists around the innermost element: `[a]` has depth 1, `[[a], b]` depth 2, `f([a])` depth 1. -/
def Node.listDepth : Node → Nat
  | .fn n [h, t] => if n = n!"[" then max (h.listDepth + 1) t.listDepth else max h.listDepth t.listDepth
  | .fn _ cs => Node.listDepths cs
  | .efn _ cs => Node.listDepths cs
  | _ => 0
/-- The greatest of the depths. -/
def Node.listDepths : List Node → Nat
  | [] => 0
  | c :: cs => max c.listDepth (Node.listDepths cs)
end

/-- The depth of a clause. -/
def Clause.listDepth (c : Clause) : Nat := max c.head.listDepth (Node.listDepths c.body)

/-- The depth of a program. -/
def listDepthOf : List Clause → Nat
  | [] => 0
  | c :: cs => max c.listDepth (listDepthOf cs)

/-- How many more opening than closing brackets there are, at most, in the beginning of a text. -/
def height : List Char → Nat
  | [] => 0
  | c :: s => if c = '[' then height s + 1 else if c = ']' then height s - 1 else height s

/-- The same in any part of the text. -/
def nesting : List Char → Nat
  | [] => 0
  | c :: s => max (height (c :: s)) (nesting s)

end PBfs
