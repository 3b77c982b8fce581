import Verif.Model.Organizer
/-!
# The unification tree

`src/wam/visual/unification_tree/unification_tree.cpp`, `get_unification_tree`
(`src/wam/bfs_organizer/bfs_organizer.cpp:176-184`) and the parts of `substitution_util.cpp`, `node_util.h` and
`node.cpp` used only by it.
-/
namespace PBfs

/-- A `node` (node.h:32-227) that represents a term of a heap: a variable also has its heap index
(`set_heap_index`, node.h:150-155). -/
inductive RNode where
  | var (n : Name) (a : Nat)
  | cons (n : Name)
  | int (v : Int)
  | fn (n : Name) (cs : List RNode)
  | efn (n : Name) (cs : List RNode)
  deriving Repr

/-- The loops over the arguments of a functor (substitution_util.cpp:49-51, 58-60): the nodes at the addresses
`a, a + 1, …`. -/
def repArgs (rep : Nat → R RNode) : Nat → Nat → R (List RNode)
  | _, 0 => pure []
  | a, k + 1 => do
    let n ← rep a
    let ns ← repArgs rep (a + 1) k
    pure (n :: ns)

/-- `node_representation_of` (substitution_util.cpp:21-66).  The first number bounds the depth of the recursion. -/
def nodeRep (pre : Nat → Option Cell) (h : Hp) (st : Storage) : Nat → Nat → R RNode
  | 0, _ => .error .hang
  | n + 1, index => do
    let d ← deref pre h index
    let c ← orFault (h.at? pre d)
    match c with
    | .ref _ v => do
      let name ← orFault (st.varAt v)
      pure (.var name d)
    | .int v => pure (.int v)
    | .cons i => do
      let f ← orFault (st.functorAt i)
      pure (.cons f.name)
    | .fn i _ => do
      let f ← orFault (st.functorAt i)
      let cs ← repArgs (nodeRep pre h st n) (d + 1) f.arity
      pure (.fn f.name cs)
    | .efn f _ => do
      let cs ← repArgs (nodeRep pre h st n) (d + 1) 2
      pure (.efn (arithNames.getD f []) cs)
    | .str _ => .error .memory -- assert(false)

namespace RNode

def children : RNode → List RNode
  | .fn _ cs => cs
  | .efn _ cs => cs
  | _ => []

mutual
def size : RNode → Nat
  | .fn _ cs => 1 + sizes cs
  | .efn _ cs => 1 + sizes cs
  | _ => 1
def sizes : List RNode → Nat
  | [] => 0
  | c :: cs => size c + sizes cs
end

mutual
/-- `node::to_string` (node.cpp:12-78).  Simplification: a list node has no child or two children, other numbers
(which the parser does not produce) count as failed assertions. -/
def str : RNode → R Name
  | .var n _ => pure n
  | .cons n => pure n
  | .int v => pure (intStr v)
  | .fn n cs =>
    if n = n!"[" then
      match cs with
      | [] => pure n!"[]"
      | [c, d] => do
        let s ← str c
        let t ← tailStr d
        pure (n!"[" ++ s ++ t)
      | _ => .error .memory -- assert(false)
    else do
      let s ← argStrs cs
      pure (n ++ n!"(" ++ s ++ n!")")
  | .efn n cs =>
    match cs with
    | [c] => do
      let s ← str c
      pure (n!"(" ++ n ++ n!"(" ++ s ++ n!")" ++ n!")")
    | [c, d] => do
      let s ← str c
      let t ← str d
      pure (n!"(" ++ s ++ n!" " ++ n ++ n!" " ++ t ++ n!")")
    | _ => .error .memory -- assert(false)
/-- The loop over the rest of a list (node.cpp:27-45). -/
def tailStr : RNode → R Name
  | .fn n cs =>
    if n = n!"[" then
      match cs with
      | [] => pure n!"]"
      | [c, d] => do
        let s ← str c
        let t ← tailStr d
        pure (n!", " ++ s ++ t)
      | _ => .error .memory -- assert(false)
    else do
      let s ← argStrs cs
      pure (n!", " ++ (n ++ n!"(" ++ s ++ n!")") ++ n!"]")
  | .efn n cs =>
    match cs with
    | [c] => do
      let s ← str c
      pure (n!", " ++ (n!"(" ++ n ++ n!"(" ++ s ++ n!")" ++ n!")") ++ n!"]")
    | [c, d] => do
      let s ← str c
      let t ← str d
      pure (n!", " ++ (n!"(" ++ s ++ n!" " ++ n ++ n!" " ++ t ++ n!")") ++ n!"]")
    | _ => .error .memory -- assert(false)
  | .var n _ => pure (n!", " ++ n ++ n!"]")
  | .cons n => pure (n!", " ++ n ++ n!"]")
  | .int v => pure (n!", " ++ intStr v ++ n!"]")
/-- The arguments of a functor (node.cpp:53-57); `children->back()` of no children is undefined. -/
def argStrs : List RNode → R Name
  | [] => .error .memory
  | [c] => str c
  | c :: cs => do
    let s ← str c
    let t ← argStrs cs
    pure (s ++ n!", " ++ t)
end

/-- The queue loop of `bfs_order` (node_iteration.h:18-41); the first argument bounds the number of iterations. -/
def bfs : Nat → List RNode → List RNode
  | 0, _ => []
  | _ + 1, [] => []
  | n + 1, c :: q => c :: bfs n (q ++ c.children)

/-- The loop of `find_unique_vars_in` (node_util.h:40-54) for nodes with heap indices. -/
def addVars (seen : List (Name × Nat)) : List RNode → List (Name × Nat)
  | [] => seen
  | .var n a :: cs => addVars (if seen.contains (n, a) then seen else seen ++ [(n, a)]) cs
  | _ :: cs => addVars seen cs

/-- `find_unique_vars_in` (node_util.h:30-56) -/
def uniqueVars (n : RNode) : List (Name × Nat) := addVars [] (bfs (sizes n.children) n.children)

end RNode

mutual
/-- A parsed atom with its variables replaced (unification_tree.cpp:64-71). -/
def Node.fill (f : Name → R RNode) : Node → R RNode
  | .var n => f n
  | .cons n => pure (.cons n)
  | .int v => pure (.int v)
  | .fn n cs => do
    let ns ← Node.fills f cs
    pure (.fn n ns)
  | .efn n cs => do
    let ns ← Node.fills f cs
    pure (.efn n ns)
def Node.fills (f : Name → R RNode) : List Node → R (List RNode)
  | [] => pure []
  | c :: cs => do
    let n ← Node.fill f c
    let ns ← Node.fills f cs
    pure (n :: ns)
end

/-- The contents of a `query_node` (query_node.h:15-23; `goal = true`) or a `var_binding_node`
(var_binding_node.h:23-34).  `exec` is the executor pointed to, `id` the number of the node.  `title` is
`resolved_query_name`; `bindings`, `firstFact` are `var_bindings`, `first_fact_binding`; `final` is the list in
`child`, if it was set. -/
structure UInfo where
  exec : Nat
  id : Nat
  goal : Bool
  title : Name
  bindings : List Binding
  firstFact : Nat
  final : Option (List Binding)
  deriving Repr

/-- The tree: the children of a `query_node` are its `var_binding_node`s, the only child of a `var_binding_node` is
the `query_node` in `child`, if it was set. -/
inductive UTree where
  | node (i : UInfo) (kids : List UTree)
  deriving Repr

namespace Org

/-- `std::transform` over executors with a running counter (unification_tree.cpp:33-51). -/
def treesOf (f : Nat → Nat → R (UTree × Nat)) : List Nat → Nat → R (List UTree × Nat)
  | [], c => pure ([], c)
  | k :: ks, c => do
    let (t, c) ← f k c
    let (ts, c) ← treesOf f ks c
    pure (t :: ts, c)

/-- The function of the `std::transform` in `make_tree` (unification_tree.cpp:36-51): the node for the alternative `k`.
`next` is `make_tree`, the number is the counter. -/
def clauseTree (fuel : Nat) (o : Org) (next : Nat → Nat → R (UTree × Nat)) (k c : Nat) : R (UTree × Nat) := do
  let e ← o.exec k
  match e.state with
  | .success => do
    let bs ← o.answer fuel k
    pure (.node ⟨k, c, false, [], [], 0, some bs⟩ [], c + 1)
  | .archived => do
    let g ← orFault e.children.getLast?
    let (t, c') ← next g (c + 1)
    pure (.node ⟨k, c, false, [], [], 0, none⟩ [t], c')
  | _ => pure (.node ⟨k, c, false, [], [], 0, none⟩ [], c + 1)

/-- `make_tree` with the counter (unification_tree.cpp:22-54): the node for the executor `g`.  The first number bounds the
depth; children are created after their parents, so the number of executors is always enough. -/
def goalTree (fuel : Nat) (o : Org) : Nat → Nat → Nat → R (UTree × Nat)
  | 0, _, _ => .error .hang
  | n + 1, g, c => do
    let e ← o.exec g
    let (ts, c') ← treesOf (clauseTree fuel o (goalTree fuel o n)) e.children (c + 1)
    pure (.node ⟨g, c, true, [], [], 0, none⟩ ts, c')

/-- The atom an executor works on or has worked on: `get_cur_or_solved_term_code` (executor.h:250-253). -/
def topAtom (o : Org) (e : Exec) : R CAtom :=
  match e.codes with
  | [] => .error .memory -- assert(!term_codes.empty())
  | t :: _ => o.code t

/-- `point_node_to_heap` (node_util.cpp:49-59) for a variable of an atom with these registers: all occurrences of a variable
in an atom have the same register, the one listed by `find_var_reg_substitutions`. -/
def pointVar (e : Exec) (subst : List VarReg) (v : Name) : R Nat := do
  let r ← orFault (subst.find? (·.name = v))
  let c ← (if r.perm then e.perm r.reg else e.reg r.reg)
  c.addr

/-- `resolve_query_node_name` (unification_tree.cpp:56-74); `none` if the executor is still running. -/
def goalName (fuel : Nat) (o : Org) (e : Exec) : R (Option RNode) :=
  if e.state = .running then pure none
  else do
    let a ← o.topAtom e
    let n ← a.parsed.fill fun v => do
      let i ← pointVar e a.subst v
      nodeRep (preOf o.execs e) e.hp o.st fuel i
    pure (some n)

/-- `find_substitutions` (substitution_util.cpp:264-295) and `erase_similar` (unification_tree.cpp:170-200) for one of the two
parts: what the variables are bound to, except for variables bound to themselves. -/
def shownBindings (rep : Nat → R RNode) : List (Name × Nat) → R (List Binding)
  | [] => pure []
  | (v, a) :: vs => do
    let n ← rep a
    let bs ← shownBindings rep vs
    match n with
    | .var w b =>
      if v = w ∧ a = b then pure bs
      else pure (⟨v, w⟩ :: bs)
    | n => do
      let s ← n.str
      pure (⟨v, s⟩ :: bs)

/-- What `resolve_parent` does to one `var_binding_node` (unification_tree.cpp:92-131): the shown bindings, those of the
variables of the goal `name` first. -/
def clauseBindings (fuel : Nat) (o : Org) (name : RNode) (e : Exec) : R (List Binding × Nat) := do
  let a ← o.topAtom e
  let fs ← pointSubs e a.subst
  let rep := nodeRep (preOf o.execs e) e.hp o.st fuel
  let qb ← shownBindings rep (match name with | .cons _ => [] | n => n.uniqueVars)
  let fb ← shownBindings rep fs
  pure (qb ++ fb, qb.length)

mutual
/-- `resolve_query_atoms_name` (unification_tree.cpp:76-91) and the second half of `resolve_parent`
(unification_tree.cpp:133-153) for a `query_node`. -/
def resolveGoal (fuel : Nat) (o : Org) : UTree → R UTree
  | .node i kids => do
    let e ← o.exec i.exec
    let n ← o.goalName fuel e
    match n with
    | none => pure (.node { i with title := n!"cant determine name yet" } kids)
    | some n => do
      let s ← n.str
      if e.failed then pure (.node { i with title := s } kids)
      else do
        let kids ← resolveClauses fuel o n kids
        pure (.node { i with title := s } kids)
/-- `resolve_parent` (unification_tree.cpp:92-153) for the `var_binding_node`s of the goal `n`. -/
def resolveClauses (fuel : Nat) (o : Org) (n : RNode) : List UTree → R (List UTree)
  | [] => pure []
  | .node i kids :: ts => do
    let e ← o.exec i.exec
    let t ← (if e.failed ∨ e.state = .running then pure (.node i kids)
      else do
        let (bs, k) ← o.clauseBindings fuel n e
        let kids ← resolveNext fuel o kids
        pure (.node { i with bindings := bs, firstFact := k } kids))
    let ts ← resolveClauses fuel o n ts
    pure (t :: ts)
/-- The continuation of a `var_binding_node`, if there is one (unification_tree.cpp:133-153). -/
def resolveNext (fuel : Nat) (o : Org) : List UTree → R (List UTree)
  | [] => pure []
  | t :: ts => do
    let t ← resolveGoal fuel o t
    let ts ← resolveNext fuel o ts
    pure (t :: ts)
end

/-- `make_tree` without the counter (unification_tree.cpp:14-19), called by `get_unification_tree`
(bfs_organizer.cpp:176-184).  Left out: the replacement for a tree that does not fit into the memory. -/
def unificationTree (fuel : Nat) (o : Org) : R UTree := do
  let (t, _) ← goalTree fuel o o.execs.length 0 0
  resolveGoal fuel o t

end Org
end PBfs
