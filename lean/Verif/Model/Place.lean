import Verif.Model.Source
import Verif.Model.Draw
/-!
# Where the code in the executors comes from

Every `compiled_atom` has a `code_info` (compiled_atom.h:31): where in the program or the query it stands.  `Model/Code` leaves
it out.  Here it is kept beside the interpreter: for every rule of the program the positions of its atoms, for every executor those of
its `term_codes`.  Each function of `Model/Organizer` that changes `term_codes` is repeated with the positions; what happens to
the interpreter itself is taken from there.

They are shown when the mouse is over a node or an edge of the unification tree (TreeView.js:164-180, 214-285).
-/
namespace PBfs

/-- `BUILT_IN_PREDICATES_LINE_NUMBER` (config.h:16) -/
def builtinLine : Nat := 1696969

/-- `code_info_for_built_in` (source_code_info.h:24-28) -/
def builtinInfo (text : Name) : Info := ⟨builtinLine, builtinLine, text⟩

/-- The positions of the atoms of rules, by name and arity. -/
abbrev Places := List (FV × List (List Info))

/-- `map[k] = v`, see `Program.assign` -/
def Places.assign (p : Places) (f : FV) (rs : List (List Info)) : Places :=
  match p with
  | [] => [(f, rs)]
  | (g, qs) :: p => if f = g then (g, rs) :: p else (g, qs) :: assign p f rs

/-- See `Program.addRule`. -/
def Places.addRule (p : Places) (f : FV) (r : List Info) : Places :=
  match p with
  | [] => [(f, [r])]
  | (g, qs) :: p => if f = g then (g, qs ++ [r]) :: p else (g, qs) :: addRule p f r

/-- The built-in predicates (built_in_pred_comp.cpp:11-61, append.cpp:13, 24, 37). -/
def builtinPlaces : Places :=
  [(⟨n!"is", 2⟩, [[builtinInfo n!"Lhs is Rhs"]]),
   (⟨n!"==", 2⟩, [[builtinInfo n!"Lhs == Rhs"]]),
   (⟨n!"\\==", 2⟩, [[builtinInfo n!"Lhs \\== Rhs"]]),
   (⟨n!"append", 3⟩, [[builtinInfo n!"append([], List2, List2)"],
     [builtinInfo n!"append([X | Xs], Ys, [X | Rs])", builtinInfo n!"append(Xs, Ys, Rs)"]])]

/-- An interpreter with the positions. -/
structure Placed where
  org : Org
  /-- those of `program_code` -/
  program : Places
  /-- those of `built_in_preds` -/
  builtins : Places
  /-- for every executor those of its `term_codes`, the top first -/
  places : List (List Info)

namespace Placed

def own (a : Placed) (id : Nat) : List Info := (a.places[id]?).getD []

/-- The positions after an instruction of the executor `id`, see `Org.call`, `Org.proceed`, `Org.deallocate`. -/
def move (a : Placed) (id : Nat) (i : Instr) : R (List (List Info)) :=
  match i with
  | .call f =>
    match a.org.program.rules? f with
    | none => pure a.places
    | some _ => pure (a.places.set id ((a.own id).take 1) ++ ((List.lookup f a.program).getD []).map (· ++ (a.own id).drop 1))
  | .proceed => do
    let e ← a.org.exec id
    let done ← (if e.failed then pure false else a.org.allDealloc (e.codes.drop 1))
    if done then pure (a.places.set id ((a.own id).take 1))
    else pure (a.places.set id ((a.own id).take 1) ++ [(a.own id).drop 1])
  | .deallocate => pure (a.places.set id ((a.own id).drop 1))
  | _ => pure a.places

/-- `Org.instr` -/
def instr (fuel : Nat) (a : Placed) (id : Nat) (i : Instr) : R Placed := do
  let o ← a.org.instr fuel id i
  let pl ← a.move id i
  pure { a with org := o, places := pl }

/-- `Org.instrs` -/
def instrs (fuel : Nat) (id : Nat) : List Instr → Placed → R Placed
  | [], a => pure a
  | i :: is, a => do
    let a ← a.instr fuel id i
    let e ← a.org.exec id
    if e.failed then pure { a with org := a.org.setExec id e.clear, places := a.places.set id ((a.own id).take 1) }
    else instrs fuel id is a

/-- `Org.turnOf` -/
def turnOf (fuel : Nat) (a : Placed) (id : Nat) : R (Placed × Org.Turn) := do
  let e ← a.org.exec id
  match e.codes with
  | [] => .error .memory
  | t :: _ => do
    let c ← a.org.code t
    let a := { a with org := a.org.setExec id { e with regs := Org.resize c.regCount e.regs } }
    let a ← a.instrs fuel id c.instrs
    let e ← a.org.exec id
    match e.state with
    | .rtErr => do
      let err ← orFault e.err
      pure (a, .error err)
    | .success => do
      let bs ← a.org.answer fuel id
      pure (a, .answer bs)
    | _ => pure (a, .continue)

/-- `Org.turn` -/
def turn (fuel : Nat) (a : Placed) : R (Placed × Org.Turn) :=
  match a.org.queue with
  | [] => pure (a, .continue)
  | id :: q => turnOf fuel { a with org := { a.org with queue := q } } id

/-- `Org.getAnswer` -/
def getAnswer (fuel : Nat) : List Bool → Placed → R (Placed × Org.Res)
  | clock, a =>
    match a.org.queue with
    | [] => pure (a, .noAnswer)
    | _ :: _ =>
      match clock with
      | [] => pure (a, .running)
      | true :: _ => pure (a, .error ⟨.outOfTime, []⟩)
      | false :: clock => do
        let (a, t) ← a.turn fuel
        match t with
        | .continue => getAnswer fuel clock a
        | .answer bs => pure (a, .answer bs)
        | .error e => pure (a, .error e)

/-- `compile_program` (compiler.cpp:474-483): the rules are collected by name and arity. -/
def collect (rs : List (FV × Info × List (CAtom × Info))) : Places :=
  rs.foldl (fun p r => p.addRule r.1 (r.2.2.map (·.2))) []

/-- `load_program` (bfs_organizer.cpp:20-47), see `Org.loadProgram`. -/
def loadProgram (ord : HashOrder) (text : List Char) (a : Placed) : Placed × Org.Load :=
  let l := a.org.loadProgramText ord text
  match parseProgramAt text with
  | .ok p =>
    match compileProgramAt ord p a.org.st with
    | .ok (rs, _) => ({ a with org := l.1, program := a.builtins.foldl (fun p e => p.assign e.1 e.2) (collect rs) }, l.2)
    | .error _ => ({ a with org := l.1 }, l.2)
  | _ => ({ a with org := l.1 }, l.2)

/-- `load_query` (bfs_organizer.cpp:109-134), see `Org.loadQuery`. -/
def loadQuery (ord : HashOrder) (text : List Char) (a : Placed) : Placed × Org.Load :=
  let l := a.org.loadQueryText ord text
  match parseQueryAt (appendDot text) with
  | .ok q =>
    match compileQueryAt ord q a.org.st with
    | .ok (cs, _) => ({ a with org := l.1, places := [cs.map (·.2)] }, l.2)
    | .error _ => ({ a with org := l.1 }, l.2)
  | _ => ({ a with org := l.1 }, l.2)

/-- The constructor (bfs_organizer.cpp:186-188). -/
def init : Except (CErr × Storage) Placed := do
  let o ← Org.init
  pure ⟨o, builtinPlaces, builtinPlaces, [[]]⟩

/-! ## What is shown -/

/-- `current_query_node_line_string`, `current_fact_line_string` (TreeView.js:169-172, 221-224) and the text after it: "Line 3: p(X)". -/
def lineText (i : Info) : Name :=
  (if i.lineBegin = builtinLine then n!"built-in predicate" else n!"Line " ++ (Nat.repr i.lineBegin).toList) ++ n!": " ++ i.value

/-- `get_code_info` of `get_cur_or_solved_term_code` (query_node.h:95-97, 112-114; var_binding_node.h:158-169; executor.h:250-253). -/
def info (a : Placed) (id : Nat) : R Info := do
  let e ← a.org.exec id
  let _ ← a.org.topAtom e
  orFault (a.own id).head?

/-- `get_var_bindings_as_str` (var_binding_node.h:60-66) -/
def bindingsText (bs : List Binding) : Name := bs.flatMap fun b => b.str ++ n!" "

/-- The text at a goal (TreeView.js:178). -/
def goalTip (a : Placed) : UTree → R Name
  | .node i _ => do
    let p ← a.info i.exec
    pure (lineText p)

/-- The text at the edge for an alternative (TreeView.js:237-239, 257-258, 277-279): bindings only if it did not fail; an
alternative that is to be continued has no text. -/
def clauseTip (a : Placed) : UTree → R (Option Name)
  | .node i _ => do
    let p ← a.info i.exec
    let e ← a.org.exec i.exec
    if e.state = .running then pure none
    else if e.failed then pure (some (lineText p))
    else pure (some (lineText p ++ n!"\n" ++ bindingsText i.bindings))

end Placed
end PBfs
