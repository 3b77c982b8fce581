import Verif.Model.Parser
/-! # A search whose turns get longer and longer -/
namespace PBfs

/-- `t(A,B)` is true if `A` and `B` are equal, or if they are equal after doubling. -/
def growthText : List Char := n!"t(A, A). t(A, B) :- t(g(A, A), g(B, B))."

def growthAsk : List Char := n!"t(a,a)"

end PBfs
