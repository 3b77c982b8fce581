import Verif.Model.Tree
/-! # What is to be seen in the unification tree -/
namespace PBfs

def UTree.info : UTree → UInfo
  | .node i _ => i

def UTree.kids : UTree → List UTree
  | .node _ ks => ks

mutual
/-- All nodes of a tree (with the trees below them): a node before everything below it, siblings in order. -/
def UTree.nodes : UTree → List UTree
  | .node i ks => .node i ks :: UTree.nodess ks
def UTree.nodess : List UTree → List UTree
  | [] => []
  | t :: ts => UTree.nodes t ++ UTree.nodess ts
end

/-- The executors that were created by the executor `p`, in order of creation. -/
def createdBy (execs : List Exec) (p : Nat) : List Nat :=
  (List.range execs.length).filter fun j => (execs[j]?.bind (·.parent)) == some p

end PBfs
