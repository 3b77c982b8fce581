import Verif.Model.Tree
/-! # How the nodes of the unification tree are copied

`query_node` and `var_binding_node` declare a copy constructor and an assignment operator and therefore have no move
constructor: a `std::move` of a node is a copy of everything below it.  `Model/Tree` leaves the copies out; here they are
made, and counted: the second number of a result counts the nodes that were constructed or assigned as a copy.

Left out: copies a compiler may leave out and does leave out in practice (`return result`), and the values of
`first_fact_binding` of nodes nobody has resolved (the member is not initialised; here it is 0). -/
namespace PBfs
namespace Org

/-- What the copy of a `var_binding_node` has in `child` besides a `query_node` (var_binding_node.cpp:15-19): the final
bindings are copied only if the executor has succeeded and there is no `query_node`.  A `child` that was not set is an
empty list. -/
def copyFinal (o : Org) (i : UInfo) (kids : List UTree) : R (Option (List Binding)) :=
  match kids with
  | _ :: _ => pure none
  | [] => do
    let e ← o.exec i.exec
    if e.state = .success then pure (some (i.final.getD [])) else pure none

mutual
/-- The copy constructor and the assignment operator of `query_node` (query_node.h:36-54).  The member `query_name` is not
copied; it is used only by `resolve_parent`, in the tree in which it was set. -/
def copyGoal (o : Org) : UTree → R (UTree × Nat)
  | .node i kids => do
    let (ks, n) ← copyClauses o kids
    pure (.node ⟨i.exec, i.id, true, i.title, [], 0, none⟩ ks, n + 1)
/-- The copy constructor and the assignment operator of `var_binding_node` (var_binding_node.cpp:10-33). -/
def copyClause (o : Org) : UTree → R (UTree × Nat)
  | .node i kids => do
    let (ks, n) ← copyNext o kids
    let f ← o.copyFinal i kids
    pure (.node ⟨i.exec, i.id, false, [], i.bindings, i.firstFact, f⟩ ks, n + 1)
/-- The copy of the vector `children` (query_node.h:41, 50). -/
def copyClauses (o : Org) : List UTree → R (List UTree × Nat)
  | [] => pure ([], 0)
  | t :: ts => do
    let (t, n) ← copyClause o t
    let (ts, m) ← copyClauses o ts
    pure (t :: ts, n + m)
/-- The copy of the `query_node` in `child`, if there is one (var_binding_node.cpp:15-16, 27-28). -/
def copyNext (o : Org) : List UTree → R (List UTree × Nat)
  | [] => pure ([], 0)
  | t :: _ => do
    let (t, n) ← copyGoal o t
    pure ([t], n)
end

/-- `std::transform` in `make_tree` (unification_tree.cpp:33-51): every node made is assigned to its place in the vector. -/
def builtAll (o : Org) (f : Nat → Nat → R (UTree × Nat × Nat)) : List Nat → Nat → R (List UTree × Nat × Nat)
  | [], c => pure ([], c, 0)
  | k :: ks, c => do
    let (t, c, n) ← f k c
    let (t, m) ← o.copyClause t
    let (ts, c, l) ← builtAll o f ks c
    pure (t :: ts, c, n + m + l)

/-- The function of the `std::transform` (unification_tree.cpp:36-51).  `set_continuing_query` copies the tree it is given
(var_binding_node.cpp:49-51). -/
def buildClause (fuel : Nat) (o : Org) (next : Nat → Nat → R (UTree × Nat × Nat)) (k c : Nat) : R (UTree × Nat × Nat) := do
  let e ← o.exec k
  match e.state with
  | .success => do
    let bs ← o.answer fuel k
    pure (.node ⟨k, c, false, [], [], 0, some bs⟩ [], c + 1, 0)
  | .archived => do
    let g ← orFault e.children.getLast?
    let (t, c', n) ← next g (c + 1)
    let (t, m) ← o.copyGoal t
    pure (.node ⟨k, c, false, [], [], 0, none⟩ [t], c', n + m)
  | _ => pure (.node ⟨k, c, false, [], [], 0, none⟩ [], c + 1, 0)

/-- `make_tree` with the counter (unification_tree.cpp:22-54). -/
def buildGoal (fuel : Nat) (o : Org) : Nat → Nat → Nat → R (UTree × Nat × Nat)
  | 0, _, _ => .error .hang
  | d + 1, g, c => do
    let e ← o.exec g
    let (ts, c', n) ← o.builtAll (buildClause fuel o (buildGoal fuel o d)) e.children (c + 1)
    pure (.node ⟨g, c, true, [], [], 0, none⟩ ts, c', n)

/-- `make_tree` without the counter (unification_tree.cpp:14-19). -/
def buildTree (fuel : Nat) (o : Org) : R (UTree × Nat) := do
  let (t, _, n) ← buildGoal fuel o o.execs.length 0 0
  let t ← resolveGoal fuel o t
  pure (t, n)

/-- `getUnificationTree` of the web page (wasm.cpp:54-56): the tree is returned by value, which takes one more copy. -/
def pageTree (fuel : Nat) (o : Org) : R (UTree × Nat) := do
  let (t, n) ← buildTree fuel o
  let (t, m) ← o.copyGoal t
  pure (t, n + m)

end Org
end PBfs
