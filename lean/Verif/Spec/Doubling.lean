import Verif.Model.Parser
/-! # A program whose answers double in size with every symbol of the query -/
namespace PBfs

/-- `t(N,A,B)`: `B` is `A` doubled `N` times. -/
def doublingText : List Char := n!"t(o, A, A). t(s(N), A, B) :- t(N, g(A, A), B)."

def tBase : Clause := ⟨.fn n!"t" [.cons n!"o", .var n!"A", .var n!"A"], []⟩
def tStep : Clause := ⟨.fn n!"t" [.fn n!"s" [.var n!"N"], .var n!"A", .var n!"B"], [.fn n!"t" [.var n!"N", .fn n!"g" [.var n!"A", .var n!"A"], .var n!"B"]]⟩

/-- `s(s(…o…))` -/
def numeralText : Nat → List Char
  | 0 => n!"o"
  | n + 1 => n!"s(" ++ numeralText n ++ n!")"

/-- `t(s(s(…o…)),a,X)` -/
def doublingAsk (n : Nat) : List Char := n!"t(" ++ numeralText n ++ n!",a,X)"

/-- `a`, `g(a,a)`, `g(g(a,a),g(a,a))`, … -/
def doubledText : Nat → List Char
  | 0 => n!"a"
  | n + 1 => n!"g(" ++ doubledText n ++ n!"," ++ doubledText n ++ n!")"

end PBfs
