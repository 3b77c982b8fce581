import Verif.Model.Compile
/-!
# Short texts that take long to read
-/
namespace PBfs

/-- The list `[…[[X|X]|X]…|X]` with that many brackets. -/
def nestedText : Nat → List Char
  | 0 => ['X']
  | n + 1 => '[' :: nestedText n ++ n!"|X]"

/-- The term it stands for. -/
def nestedTerm : Nat → Node
  | 0 => .var n!"X"
  | n + 1 => .fn n!"[" [nestedTerm n, .var n!"X"]

/-- The program `p([…[[X|X]|X]…|X]).` -/
def nestedProgram (n : Nat) : List Char := n!"p(" ++ nestedText n ++ n!")."

end PBfs
