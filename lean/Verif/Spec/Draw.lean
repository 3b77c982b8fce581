import Verif.Model.Draw
import Verif.Spec.Tree
import Verif.Spec.History
/-! # What a drawing says -/
namespace PBfs

/-- The node `n` is below the node `r` (or `r` itself): there is a path of edges. -/
inductive Drawing.Below (d : Drawing) (r : Int) : Int → Prop
  | root : Below d r r
  | edge {e} : e ∈ d.edges → Below d r e.src → Below d r e.dst

/-- A drawing is a tree with the root `r`: no number is used twice, every edge joins nodes, every node but the root has exactly one
edge that leads to it, and every node is below the root. -/
structure Drawing.IsTree (d : Drawing) (r : Int) : Prop where
  root : r ∈ d.nodes.map (·.id)
  once : (d.nodes.map (·.id)).Nodup
  edges : ∀ e ∈ d.edges, e.src ∈ d.nodes.map (·.id)
  onto : (d.edges.map (·.dst)).Perm ((d.nodes.map (·.id)).erase r)
  below : ∀ n ∈ d.nodes, d.Below r n.id

def Box.title? : Box → Option Name
  | .goal n => some n
  | _ => none

def Box.answer? : Box → Option Name
  | .answer n => some n
  | _ => none

/-- The answers in a history, as texts. -/
def answerTexts (hist : List (Nat × Org.Turn)) : List Name :=
  hist.filterMap fun h =>
    match h.2 with
    | .answer [] => some n!"true"
    | .answer bs => some (bs.flatMap fun b => n!"[" ++ b.name ++ n!" / " ++ b.value ++ n!"] ")
    | _ => none

end PBfs
