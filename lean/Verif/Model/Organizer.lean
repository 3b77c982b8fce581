import Verif.Model.Compile
import Verif.Model.Machine
import Verif.Model.Render
/-!
# The organizer

`src/wam/bfs_organizer/bfs_organizer.cpp` and the instructions `call`, `proceed`, `deallocate`
(`src/wam/instructions/instructions.cpp:346-437`).
-/
namespace PBfs

/-- `wam::bfs_organizer` (include/prolog_bfs/wam/bfs_organizer/bfs_organizer.h:29-55).  The tree of
executors (`init_executor` and all `children`) is the list `execs` in order of creation, `init_executor`
at position 0; `queue` is `executors`.  `gen` counts the successful `load_program`s.  Left out: the time
limit (the clock is an input of `getAnswer`).  The counter is a `Nat` (C++: unsigned int). -/
structure Org where
  execs : List Exec
  queue : List Nat
  calls : Nat
  st : Storage
  program : Program
  builtins : Program
  query : Rule
  gen : Nat
  deriving Repr

/-- `executor::heap_at` (executor.cpp:52-69) including the recursion into the parents.  The first
argument bounds the depth; parents are created before their children, so `id + 1` is always enough. -/
def heapAtF (execs : List Exec) : Nat → Nat → Nat → Option Cell
  | 0, _, _ => none
  | n + 1, id, a =>
    match execs[id]? with
    | none => none
    | some e =>
      e.hp.at? (match e.parent with
        | none => fun _ => none
        | some p => heapAtF execs n p) a

/-- The heap an executor sees below its own part. -/
def preOf (execs : List Exec) (e : Exec) : Nat → Option Cell :=
  match e.parent with
  | none => fun _ => none
  | some p => heapAtF execs (p + 1) p

namespace Org

def exec (o : Org) (id : Nat) : R Exec := orFault o.execs[id]?

def setExec (o : Org) (id : Nat) (e : Exec) : Org := { o with execs := o.execs.set id e }

/-- A pointer into a program that has been replaced (or, after `clear_memory`, into a query). -/
def stale (o : Org) (t : TCode) : Bool := t.gen ≠ 0 ∧ t.gen ≠ o.gen

/-- Dereferencing a `compiled_atom*`. -/
def code (o : Org) (t : TCode) : R CAtom := if o.stale t then .error .dangling else .ok t.atom

/-- One of the new executors of `call` (instructions.cpp:367-384, executor.h:183-200). -/
def callChild (o : Org) (id : Nat) (e : Exec) (r : Rule) : Exec where
  parent := some id
  hp := ⟨e.hp.size, [], []⟩
  children := []
  regs := e.regs
  mode := .read
  s := 0
  state := .running
  codes := r.map (⟨o.gen, ·⟩) ++ e.codes.drop 1
  envs := e.envs
  err := none

/-- `wam::call` (instructions.cpp:346-389) -/
def call (o : Org) (id : Nat) (e : Exec) (f : FV) : Org :=
  let o := { o with calls := o.calls + 1 }
  match o.program.rules? f with
  | none => o.setExec id e.setFailed
  | some rules =>
    let ids := List.range' o.execs.length rules.length
    let old := { e.clear with children := e.children ++ ids, state := .archived }
    { (o.setExec id old) with
      execs := (o.setExec id old).execs ++ rules.map (o.callChild id e)
      queue := o.queue ++ ids }

/-- The test of `check_success` (executor.h:270-279) on the codes below the top. -/
def allDealloc (o : Org) : List TCode → R Bool
  | [] => pure true
  | t :: ts => do
    let a ← o.code t
    if a.isDealloc then allDealloc o ts else pure false

/-- The new executor of `proceed` (executor.h:156-181) -/
def proceedChild (id : Nat) (e : Exec) : Exec where
  parent := some id
  hp := ⟨e.hp.size, [], []⟩
  children := []
  regs := e.regs
  mode := .read
  s := 0
  state := .running
  codes := e.codes.drop 1
  envs := e.envs
  err := none

/-- `wam::proceed` (instructions.cpp:391-413) -/
def proceed (o : Org) (id : Nat) (e : Exec) : R Org := do
  let done ← (if e.failed then pure false else o.allDealloc (e.codes.drop 1))
  if done then pure (o.setExec id { e.clear with state := .success })
  else
    let new := o.execs.length
    let old := { e with
      codes := e.codes.take 1, envs := e.envs.take 1, children := e.children ++ [new], state := .archived }
    let o' := o.setExec id old
    pure { o' with execs := o'.execs ++ [proceedChild id e], queue := o.queue ++ [new] }

/-- `wam::deallocate` (instructions.cpp:423-437) -/
def deallocate (o : Org) (id : Nat) (e : Exec) : R Org :=
  match e.envs with
  | [] => .error .memory
  | _ :: envs =>
    pure { o.setExec id { e with envs := envs, codes := e.codes.drop 1 } with queue := o.queue ++ [id] }

/-- One instruction, executed by the executor `id`. -/
def instr (fuel : Nat) (o : Org) (id : Nat) (i : Instr) : R Org := do
  let e ← o.exec id
  match i with
  | .call f => pure (o.call id e f)
  | .proceed => o.proceed id e
  | .deallocate => o.deallocate id e
  | i => do
    let e' ← stepData (preOf o.execs e) fuel o.st i e
    pure (o.setExec id e')

/-- The instruction loop of `exec_executors` (bfs_organizer.cpp:84-97): stop at failure and at thrown
errors (which have set the state `RUNTIME_EXCEPTION_FAIL`). -/
def instrs (fuel : Nat) (id : Nat) : List Instr → Org → R Org
  | [], o => pure o
  | i :: is, o => do
    let o ← o.instr fuel id i
    let e ← o.exec id
    if e.failed then pure (o.setExec id e.clear) else instrs fuel id is o

/-- The registers of an atom pointed to the heap: `point_var_reg_substs_to_heap`
(substitution_util.cpp:185-212). -/
def pointSubs (e : Exec) : List VarReg → R (List (Name × Nat))
  | [] => pure []
  | v :: vs => do
    let c ← (if v.perm then e.perm v.reg else e.reg v.reg)
    let a ← c.addr
    let rest ← pointSubs e vs
    pure ((v.name, a) :: rest)

/-- The walk to the root of `find_substitutions_from_orig_query` (substitution_util.cpp:219-237), from the
executor `p`.  The first argument bounds the number of steps. -/
def collectSubs (o : Org) : Nat → Nat → R (List (Name × Nat))
  | 0, _ => .error .hang
  | n + 1, p => do
    let e ← o.exec p
    match e.codes with
    | [t] => do
      let a ← o.code t
      let subs ← (if a.fromQuery then pointSubs e a.subst else pure [])
      match e.parent with
      | none => pure subs
      | some q => do
        let f ← o.exec q
        match f.parent with
        | none => .error .memory
        | some r => do
          let rest ← collectSubs o n r
          pure (subs ++ rest)
    | _ => .error .memory -- assert(term_codes.size() == 1)

/-- The loop building the answer (substitution_util.cpp:247-260): the first entry of every name wins. -/
def renderSubs (rep : Nat → R Name) : List (Name × Nat) → List Binding → R (List Binding)
  | [], acc => pure acc
  | (v, a) :: rest, acc =>
    if acc.any (·.name = v) then renderSubs rep rest acc
    else do
      let s ← rep a
      renderSubs rep rest (acc ++ [⟨v, s⟩])

/-- `find_substitutions_from_orig_query` (substitution_util.cpp:214-262) -/
def answer (fuel : Nat) (o : Org) (id : Nat) : R (List Binding) := do
  let e ← o.exec id
  match e.parent with
  | none => .error .memory
  | some p => do
    let subs ← o.collectSubs (p + 1) p
    renderSubs (stringRep (preOf o.execs e) e.hp o.st subs fuel false) subs []

/-- What one turn of the main loop leads to. -/
inductive Turn where
  | continue
  | answer (bs : List Binding)
  | error (e : RtErr)
  deriving DecidableEq, Repr

/-- `registers.resize(n)` -/
def resize (n : Nat) (l : List Cell) : List Cell := l.take n ++ List.replicate (n - l.length) Cell.zero

/-- The execution of one executor taken from the front of the queue (bfs_organizer.cpp:71-101). -/
def turnOf (fuel : Nat) (o : Org) (id : Nat) : R (Org × Turn) := do
  let e ← o.exec id
  match e.codes with
  | [] => .error .memory
  | t :: _ => do
    let a ← o.code t
    let o := o.setExec id { e with regs := resize a.regCount e.regs }
    let o ← o.instrs fuel id a.instrs
    let e ← o.exec id
    match e.state with
    | .rtErr => do
      let err ← orFault e.err
      pure (o, .error err)
    | .success => do
      let bs ← o.answer fuel id
      pure (o, .answer bs)
    | _ => pure (o, .continue)

/-- One iteration of the main loop (bfs_organizer.cpp:63-102), queue not empty. -/
def turn (fuel : Nat) (o : Org) : R (Org × Turn) :=
  match o.queue with
  | [] => pure (o, .continue)
  | id :: q => turnOf fuel { o with queue := q } id

/-- What `get_answer` returns; `running` means that the given clock readings were not enough to finish. -/
inductive Res where
  | answer (bs : List Binding)
  | noAnswer
  | error (e : RtErr)
  | running
  deriving DecidableEq, Repr

/-- `get_answer` / `exec_executors` (bfs_organizer.cpp:50-106), without memory exhaustion.  The list
contains for every iteration of the loop whether the clock shows that the time limit is exceeded. -/
def getAnswer (fuel : Nat) : List Bool → Org → R (Org × Res)
  | clock, o =>
    match o.queue with
    | [] => pure (o, .noAnswer)
    | _ :: _ =>
      match clock with
      | [] => pure (o, .running)
      | true :: _ => pure (o, .error ⟨.outOfTime, []⟩)
      | false :: clock => do
        let (o, t) ← o.turn fuel
        match t with
        | .continue => getAnswer fuel clock o
        | .answer bs => pure (o, .answer bs)
        | .error e => pure (o, .error e)

/-- `clear_memory` (bfs_organizer.cpp:136-151).  `init_executor` stays, without its children; the atoms of
the query, to which its `term_codes` point, are freed (line 145), so these pointers are stale from now on. -/
def clearMemory (o : Org) : Org :=
  { o with
    st := ⟨[], []⟩
    queue := []
    query := []
    program := []
    builtins := []
    execs := o.execs.take 1 |>.map fun e => { e with codes := e.codes.map fun t => ⟨o.gen, t.atom⟩, children := [] }
    gen := o.gen + 1 }

/-- `merge_program_and_built_in_preds` (bfs_organizer.cpp:24-34) -/
def mergeBuiltins (builtins : Program) (p : Program) : Program :=
  builtins.foldl (fun p e => p.assign e.1 e.2) p

/-- What a call of `load_program` or `load_query` leads to. -/
inductive Load where
  /-- the returned `compiler::error` is empty -/
  | ok
  /-- a `compiler::error` is returned -/
  | rejected (e : CErr)
  /-- another exception leaves the function -/
  | exception
  deriving DecidableEq, Repr

def Load.ofErr : CErr → Load
  | .outOfRange => .exception
  | e => .rejected e

/-- `load_program` / `load_term_lines` (bfs_organizer.cpp:20-22, 37-47).  The argument is what the parser
makes of the text: `none` if it throws. -/
def loadProgram (ord : HashOrder) (parsed : Option (List Clause)) (o : Org) : Org × Load :=
  match parsed with
  | none => (o, .rejected .parse)
  | some cs =>
    match compileProgram ord cs [] o.st with
    | .error (e, st) => ({ o with st := st }, Load.ofErr e)
    | .ok (p, st) =>
      ({ o with st := st, program := mergeBuiltins o.builtins p, gen := o.gen + 1 }, .ok)

/-- The executor a query starts with (bfs_organizer.cpp:121-129). -/
def initExec (q : Rule) : Exec where
  parent := none
  hp := ⟨0, [], []⟩
  children := []
  regs := []
  mode := .read
  s := 0
  state := .running
  codes := q.map (⟨0, ·⟩)
  envs := []
  err := none

/-- `load_query` (bfs_organizer.cpp:109-134), after parsing. -/
def loadQuery (ord : HashOrder) (parsed : Option (List Node)) (o : Org) : Org × Load :=
  let o := { o with queue := [], calls := 0 }
  match parsed with
  | none => (o, .rejected .parse)
  | some atoms =>
    match compileQuery ord atoms o.st with
    | .error (e, st) => ({ o with st := st }, Load.ofErr e)
    | .ok (q, st) => ({ o with st := st, query := q, execs := [initExec q], queue := [0] }, .ok)

/-- The constructor (bfs_organizer.cpp:186-188). -/
def init : Except (CErr × Storage) Org := do
  let (b, st) ← compileBuiltins ⟨[], []⟩
  pure { execs := [initExec []], queue := [], calls := 0, st := st, program := b, builtins := b,
         query := [], gen := 1 }

end Org
end PBfs
