import Verif.Model.Tree
/-!
# The drawing of the unification tree

`web/assets/js/prolog_bfs/classes/TreeView.js`: `convertToVisNetwork`, which makes the nodes and edges for the
library vis.js out of a `query_node`.

Left out: colours, the texts that appear when the mouse is over a node or an edge (see `Model/Place`), and the drawing for a tree that did not fit into the memory.
-/
namespace PBfs

/-- What is written into a node of the drawing. -/
inductive Box where
  /-- the goal of a `query_node` -/
  | goal (title : Name)
  /-- `*continue search*` -/
  | more
  /-- `no such rule` -/
  | noRule
  /-- `not unifiable` -/
  | clash
  /-- final bindings -/
  | answer (text : Name)
  deriving DecidableEq, Repr

structure VisNode where
  id : Int
  box : Box
  deriving DecidableEq, Repr

structure VisEdge where
  src : Int
  dst : Int
  deriving DecidableEq, Repr

/-- `nodes` and `edges` of the drawing, and `to_be_continued_node_ids` (TreeView.js:21). -/
structure Drawing where
  nodes : List VisNode
  edges : List VisEdge
  buttons : List Int
  deriving DecidableEq, Repr

/-- The state of the loop of `convertToVisNetwork` (TreeView.js:161-287): `queue`, and `counter` for
`additional_node_counter`. -/
structure DrawSt where
  drawing : Drawing
  counter : Int
  queue : List UTree

/-- `get_final_var_bindings_as_str` (var_binding_node.h:124-135) -/
def finalStr (bs : List Binding) : Name :=
  match bs with
  | [] => n!"true"
  | bs => bs.flatMap fun b => b.str ++ n!" "

namespace DrawSt

/-- A node that does not belong to a `query_node`, below the node `src` (TreeView.js:187-207, 235-285). -/
def leaf (src : Int) (b : Box) (s : DrawSt) : DrawSt :=
  { s with
    drawing :=
      { nodes := s.drawing.nodes ++ [⟨s.counter, b⟩]
        edges := s.drawing.edges ++ [⟨src, s.counter⟩]
        buttons := if b = .more then s.drawing.buttons ++ [s.counter] else s.drawing.buttons }
    counter := s.counter - 1 }

end DrawSt

def UTree.num : UTree → Int
  | .node i _ => i.id

namespace Org

/-- The body of the loop over the `var_binding_node`s of a goal (TreeView.js:214-286). -/
def drawAlt (o : Org) (src : Int) (t : UTree) (s : DrawSt) : R DrawSt :=
  match t with
  | .node _ (g :: _) => -- continues()
    pure { s with queue := s.queue ++ [g], drawing := { s.drawing with edges := s.drawing.edges ++ [⟨src, g.num⟩] } }
  | .node i [] => do
    let e ← o.exec i.exec
    if e.failed then pure (s.leaf src .clash)
    else if e.state = .success then do
      let bs ← orFault i.final
      pure (s.leaf src (.answer (finalStr bs)))
    else pure (s.leaf src .more)

def drawAlts (o : Org) (src : Int) : List UTree → DrawSt → R DrawSt
  | [], s => pure s
  | t :: ts, s => do
    let s ← o.drawAlt src t s
    drawAlts o src ts s

/-- The body of the loop over the queue (TreeView.js:162-287). -/
def drawGoal (o : Org) (t : UTree) (s : DrawSt) : R DrawSt :=
  match t with
  | .node i kids => do
    let s := { s with drawing := { s.drawing with nodes := s.drawing.nodes ++ [⟨i.id, .goal i.title⟩] } }
    let e ← o.exec i.exec
    if e.state = .running then pure (s.leaf i.id .more)
    else if e.failed then pure (s.leaf i.id .noRule)
    else o.drawAlts i.id kids s

/-- The loop; the number bounds the iterations. -/
def drawLoop (o : Org) : Nat → DrawSt → R DrawSt
  | n, s =>
    match s.queue with
    | [] => pure s
    | t :: q =>
      match n with
      | 0 => .error .hang
      | n + 1 => do
        let s ← o.drawGoal t { s with queue := q }
        drawLoop o n s

/-- `convertToVisNetwork` (TreeView.js:126-294) -/
def draw (n : Nat) (o : Org) (t : UTree) : R Drawing := do
  let s ← o.drawLoop n ⟨⟨[], [], []⟩, -1, [t]⟩
  pure s.drawing

end Org
end PBfs
