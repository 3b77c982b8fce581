import Verif.Model.Heap
import Verif.Model.Arith
import Verif.Model.Code
/-!
# The abstract machine: executors and the instructions that only touch their own executor

`src/wam/instructions/instructions.cpp` and the built-in predicates.
-/
namespace PBfs

/-- `wam::mode` (include/prolog_bfs/wam/executor/util/mode.h) -/
inductive Mode where
  | read
  | write
  deriving DecidableEq, Repr

/-- `EXEC_STATE` (include/prolog_bfs/wam/executor/util/exec_state.h) -/
inductive EState where
  | fail
  | rtErr
  | success
  | running
  | archived
  deriving DecidableEq, Repr

/-- `ERROR_TYPE` of run-time errors
(include/prolog_bfs/wam/bfs_organizer/data/error/runtime_error_type.h) -/
inductive ErrKind where
  | notInstantiated
  | notArithmetic
  | divByZero
  | outOfTime
  | outOfMemory
  deriving DecidableEq, Repr

/-- `wam::runtime_error` (include/prolog_bfs/wam/bfs_organizer/data/error/runtime_error.h:13-44): kind,
the atom being executed (from its source position), and the variable piece of the explanation (the
variable name resp. functor that is mentioned). -/
structure RtErr where
  kind : ErrKind
  mention : Name
  deriving DecidableEq, Repr

/-- A pointer to a compiled atom (`compiled_atom*` in `executor::term_codes`).  The atom is copied;
`gen` says which container owns it: 0 for the current query, otherwise the number of the
`load_program` that built it, so that a pointer into a freed program can be recognized. -/
structure TCode where
  gen : Nat
  atom : CAtom
  deriving Repr

/-- `wam::executor` (executor.h:44-91).  Pointers to other executors are their positions in the store
of the organizer.  Stacks are lists whose head is the top.  `mode` and `s` are uninitialised in C++
until the first `get_structure`. -/
structure Exec where
  parent : Option Nat
  hp : Hp
  children : List Nat
  regs : List Cell
  mode : Mode
  s : Nat
  state : EState
  codes : List TCode
  envs : List (List Cell)
  err : Option RtErr
  deriving Repr

/-- A value-initialised `heap_reg` (heap_reg.h:19; vector::resize, vector(n)): all fields 0, i.e. CONS 0. -/
def Cell.zero : Cell := .cons 0

/-- `executor::failed` (executor.h:261-263) -/
def Exec.failed (e : Exec) : Bool := e.state = .fail || e.state = .rtErr

/-- `executor::set_failed` (executor.h:257-259) -/
def Exec.setFailed (e : Exec) : Exec := { e with state := .fail }

/-- `executor::clear` (executor.h:225-231) -/
def Exec.clear (e : Exec) : Exec := { e with codes := e.codes.take 1, envs := e.envs.take 1 }

/-- `registers.at(x)` -/
def Exec.reg (e : Exec) (x : Nat) : R Cell := orFault e.regs[x]?

/-- `registers.at(x) = c` -/
def Exec.setReg (e : Exec) (x : Nat) (c : Cell) : R Exec :=
  if x < e.regs.length then .ok { e with regs := e.regs.set x c } else .error .memory

/-- `cur_permanent_registers().at(y)` (executor.h:99-102) -/
def Exec.perm (e : Exec) (y : Nat) : R Cell :=
  match e.envs with
  | [] => .error .memory
  | env :: _ => orFault env[y]?

/-- `cur_permanent_registers().at(y) = c` (executor.h:99-102) -/
def Exec.setPerm (e : Exec) (y : Nat) (c : Cell) : R Exec :=
  match e.envs with
  | [] => .error .memory
  | env :: rest => if y < env.length then .ok { e with envs := env.set y c :: rest } else .error .memory

/-- `push_back` (executor.h:121-123) -/
def Exec.push (e : Exec) (c : Cell) : Exec := { e with hp := e.hp.push c }

/-- `push_back_unbound_REF` (executor.h:137-139): the new cell points to itself. -/
def Exec.pushRef (e : Exec) (v : Int) : Exec := e.push (.ref e.hp.size v)

/-- The cell pushed by `pushRef`, i.e. `heap_back` afterwards (executor.cpp:21-29). -/
def Exec.newRef (e : Exec) (v : Int) : Cell := .ref e.hp.size v

/-- `get_heap_i` of a register (heap_reg.h:60-63) -/
def Cell.addr (c : Cell) : R Nat := orFault c.ptr

section
variable (pre : Nat → Option Cell)

/-- `deref` on an executor -/
def Exec.deref (e : Exec) (a : Nat) : R Nat := PBfs.deref pre e.hp a

/-- `heap_at` on an executor -/
def Exec.heapAt (e : Exec) (a : Nat) : R Cell := orFault (e.hp.at? pre a)

/-- Outcome of `unify`: the heap after it, or failure (the heap is kept, too: it is not looked at
again, but stays in the executor). -/
structure UnifyRes where
  hp : Hp
  ok : Bool
  deriving Repr

/-- The addresses pushed for two structures (instructions.cpp:252-255, 263-266): after the loop the last
pair is on top, with the address belonging to `d2` above the one belonging to `d1`. -/
def pushArgs (d1 d2 : Nat) : Nat → List Nat → List Nat
  | 0, pdl => pdl
  | n + 1, pdl => (d2 + n + 1) :: (d1 + n + 1) :: pushArgs d1 d2 n pdl

/-- The loop of `wam::unify` (instructions.cpp:219-279).  The stack `PDL` is a list with its top first.
The first argument bounds the number of iterations. -/
def unifyLoop : Nat → Hp → List Nat → R UnifyRes
  | _, h, [] => .ok ⟨h, true⟩
  | _, _, [_] => .error .memory -- top() of an empty stack
  | 0, _, _ => .error .hang
  | n + 1, h, a :: b :: pdl => do
    let d1 ← PBfs.deref pre h a
    let d2 ← PBfs.deref pre h b
    if d1 = d2 then unifyLoop n h pdl
    else
      let r1 ← orFault (h.at? pre d1)
      let r2 ← orFault (h.at? pre d2)
      if r1.isRef then
        let h ← h.bind pre d1 d2
        unifyLoop n h pdl
      else if r2.isRef then
        let h ← h.bind pre d2 d1
        unifyLoop n h pdl
      else
        match r1, r2 with
        | .int v, .int w => if v = w then unifyLoop n h pdl else .ok ⟨h, false⟩
        | .cons i, .cons j => if i = j then unifyLoop n h pdl else .ok ⟨h, false⟩
        | .fn f k, .fn g _ => if f = g then unifyLoop n h (pushArgs d1 d2 k pdl) else .ok ⟨h, false⟩
        | .efn f k, .efn g _ => if f = g then unifyLoop n h (pushArgs d1 d2 k pdl) else .ok ⟨h, false⟩
        | .str _, .str _ => .error .memory -- assert(false)
        | _, _ => .ok ⟨h, false⟩

/-- `wam::unify` (instructions.cpp:210-280) -/
def unify (fuel : Nat) (h : Hp) (a b : Nat) : R UnifyRes := unifyLoop pre fuel h [a, b]

/-- `unify` on an executor. -/
def Exec.unify (fuel : Nat) (e : Exec) (a b : Nat) : R Exec := do
  let r ← PBfs.unify pre fuel e.hp a b
  pure { e with hp := r.hp, state := if r.ok then e.state else .fail }

/-- `get_structure` (instructions.cpp:55-75) -/
def getStructure (c : Cell) (x : Nat) (e : Exec) : R Exec := do
  let r ← e.reg x
  let a ← r.addr
  let d ← e.deref pre a
  let cell ← e.heapAt pre d
  if cell.isRef then
    let e' := e.push c
    let hp ← e'.hp.bind pre d (e'.hp.size - 1)
    pure { e' with hp := hp, mode := .write }
  else if cell = c then pure { e with s := d + 1, mode := .read }
  else pure e.setFailed

/-- `unify_structure` (instructions.cpp:77-105) -/
def unifyStructure (c : Cell) (x : Nat) (e : Exec) : R Exec :=
  match e.mode with
  | .read => do
    let d ← e.deref pre e.s
    let cell ← e.heapAt pre d
    let e' ← (if cell.isRef then do
        let e' := e.push c
        let hp ← e'.hp.bind pre d (e'.hp.size - 1)
        pure { e' with hp := hp }
      else if cell = c then pure e
      else pure e.setFailed)
    pure { e' with s := e'.s + 1 }
  | .write => do
    let e' := e.push c
    let e' ← e'.setReg x (.str (e'.hp.size - 1))
    pure { e' with s := e'.s + 1 }

/-- The WRITE branch of `unify_value` and `unify_permanent_value` (instructions.cpp:154-172, 187-205):
push a cell for the value the register stands for. -/
def pushValue (r : Cell) (e : Exec) : R Exec := do
  let a ← r.addr
  let d ← e.deref pre a
  let cell ← e.heapAt pre d
  match cell with
  | .cons _ | .int _ | .ref _ _ => pure (e.push cell)
  | .fn _ _ | .efn _ _ => pure (e.push (.str d))
  | .str _ => .error .memory -- assert(false)

/-- `unify_value` and `unify_permanent_value` (instructions.cpp:144-208) with the content `r` of the
register. -/
def unifyVal (fuel : Nat) (r : Cell) (e : Exec) : R Exec := do
  let e' ← (match e.mode with
    | .read => do
      let a ← r.addr
      e.unify pre fuel a e.s
    | .write => pushValue pre r e)
  pure { e' with s := e'.s + 1 }

/-! ## Built-in predicates -/

/-- `functor_equals` (src/wam/built_in_predicates/equals.cpp:9-18): arguments `i, i+1, …`, `k` of them
left; `eq` is `heap_reg_equals`. -/
def functorEquals (eq : Nat → Nat → R Bool) (l r i : Nat) : Nat → R Bool
  | 0 => pure true
  | k + 1 => do
    let b ← eq (l + 1 + i) (r + 1 + i)
    if b then functorEquals eq l r (i + 1) k else pure false

/-- `heap_reg_equals` (equals.cpp:20-39); the first argument bounds the depth of the recursion. -/
def heapRegEquals (h : Hp) : Nat → Nat → Nat → R Bool
  | 0, _, _ => .error .hang
  | n + 1, l, r => do
    let l ← PBfs.deref pre h l
    let r ← PBfs.deref pre h r
    let cl ← orFault (h.at? pre l)
    let cr ← orFault (h.at? pre r)
    if cl ≠ cr then pure false
    else match cl with
      | .ref _ _ => pure (l == r)
      | .fn _ k => functorEquals (heapRegEquals h n) l r 0 k
      | .efn _ k => functorEquals (heapRegEquals h n) l r 0 k
      | _ => pure true

/-- `equals_check` (equals.cpp:41-47) -/
def equalsCheck (fuel : Nat) (l r : Nat) (e : Exec) : R Exec := do
  let cl ← e.reg l
  let a ← cl.addr
  let cr ← e.reg r
  let b ← cr.addr
  let eq ← heapRegEquals pre e.hp fuel a b
  pure (if eq then e else e.setFailed)

/-- `not_equals_check` (src/wam/built_in_predicates/not_equals.cpp:9-23) -/
def notEqualsCheck (fuel : Nat) (l r : Nat) (e : Exec) : R Exec := do
  let e ← equalsCheck pre fuel l r e
  pure (if e.failed then { e with state := .running } else e.setFailed)

/-- Digits of a number, as `std::to_string`. -/
def natStr (n : Nat) : Name := (Nat.toDigits 10 n)

/-- `std::to_string(int)` -/
def intStr (v : Int) : Name :=
  if 0 ≤ v then natStr v.natAbs else '-' :: natStr v.natAbs

/-- `functor_view::to_string` (functor_view.h:33-35) -/
def FV.str (f : FV) : Name := f.name ++ n!"/" ++ natStr f.arity

/-- `executor::functor_of(FUN_index)` (executor.cpp:9-11), called with an index into `storage` where an
address is expected (err_handling.cpp:10): `storage.functors[heap_at(i).index]`. -/
def functorOfAddr (st : Storage) (h : Hp) (i : Int) : R FV := do
  let cell ← orFault (if 0 ≤ i then h.at? pre i.toNat else none)
  orFault (st.functorAt cell.index)

/-- `check_and_throw_is_evaluable` (src/wam/runtime_errors/err_handling.cpp:8-27). -/
def checkEvaluable (st : Storage) (h : Hp) (c : Cell) : R (Option RtErr) :=
  match c with
  | .fn f _ => do
    let fv ← functorOfAddr pre st h f
    pure (some ⟨.notArithmetic, fv.str⟩)
  | .cons i => do
    let fv ← functorOfAddr pre st h i
    pure (some ⟨.notArithmetic, fv.str⟩)
  | .ref _ v => do
    let n ← orFault (st.varAt v)
    pure (some ⟨.notInstantiated, n⟩)
  | _ => pure none

/-- `eval_arithmetic_reg` and `eval_arithmetic_func`
(src/wam/built_in_predicates/arithmetic/util/expr_evaluator.cpp:12-58); a thrown run-time error is
`.inl`.  The first argument bounds the depth of the recursion. -/
def evalArith (st : Storage) (h : Hp) : Nat → Nat → R (RtErr ⊕ Int)
  | 0, _ => .error .hang
  | n + 1, a => do
    let d ← PBfs.deref pre h a
    let c ← orFault (h.at? pre d)
    let err ← checkEvaluable pre st h c
    match err with
    | some e => pure (.inl e)
    | none =>
      match c with
      | .int v => pure (.inr v)
      | .efn f _ => do
        let l ← evalArith st h n (d + 1)
        match l with
        | .inl e => pure (.inl e)
        | .inr l => do
          let r ← evalArith st h n (d + 2)
          match r with
          | .inl e => pure (.inl e)
          | .inr r =>
            -- arithmetic_checks.cpp:8-18
            if f = 4 ∧ r = 0 then pure (.inl ⟨.divByZero, []⟩)
            else do
              let v ← arithOp f l r
              pure (.inr v)
      | _ => .error .memory -- assert(false)

/-- `wam::preds::is` (src/wam/built_in_predicates/arithmetic/is.cpp:9-31).  `lhs` is a reference into
the heap; if it points into the own part of the heap, `push_back` may move the memory away before
`bind_to` writes through it.  (`heap_modify` also copies an unchanged parent cell into
`changes_to_parent`; that does not change what `heap_at` returns, so it is left out.) -/
def isPred (fuel : Nat) (st : Storage) (l r : Nat) (e : Exec) : R Exec := do
  let cr ← e.reg r
  let b ← cr.addr
  let v ← evalArith pre st e.hp fuel b
  match v with
  | .inl err => pure { e with state := .rtErr, err := some err }
  | .inr v => do
    let cl ← e.reg l
    let a ← cl.addr
    let d ← e.deref pre a
    let cell ← e.heapAt pre d
    match cell with
    | .int w => pure (if w = v then e else e.setFailed)
    | .ref _ _ =>
      if e.hp.start ≤ d then .error .dangling
      else
        let e' := e.push (.int v)
        let hp ← e'.hp.bind pre d (e'.hp.size - 1)
        pure { e' with hp := hp }
    | _ => pure e.setFailed

/-! ## One instruction -/

/-- The instructions that only change their own executor; `call`, `proceed` and `deallocate` also
change the organizer and are in `Verif.Model.Organizer`. -/
def stepData (fuel : Nat) (st : Storage) (i : Instr) (e : Exec) : R Exec :=
  match i with
  | .putStructure c x => -- instructions.cpp:16-22
    let e := e.push c
    e.setReg x (.str (e.hp.size - 1))
  | .setVariable x v => -- instructions.cpp:24-30
    (e.pushRef v).setReg x (e.newRef v)
  | .setPermVariable y v => -- instructions.cpp:32-39
    (e.pushRef v).setPerm y (e.newRef v)
  | .setValue x => do -- instructions.cpp:41-46
    let c ← e.reg x
    pure (e.push c)
  | .setPermValue y => do -- instructions.cpp:48-53
    let c ← e.perm y
    pure (e.push c)
  | .getStructure c x => getStructure pre c x e
  | .unifyStructure c x => unifyStructure pre c x e
  | .unifyVariable x v => do -- instructions.cpp:107-124
    let e' ← (match e.mode with
      | .read => e.setReg x (.str e.s)
      | .write => (e.pushRef v).setReg x (e.newRef v))
    pure { e' with s := e'.s + 1 }
  | .unifyPermVariable y v => do -- instructions.cpp:126-142
    let e' ← (match e.mode with
      | .read => e.setPerm y (.str e.s)
      | .write => (e.pushRef v).setPerm y (e.newRef v))
    pure { e' with s := e'.s + 1 }
  | .unifyValue x => do -- instructions.cpp:144-175
    let r ← e.reg x
    unifyVal pre fuel r e
  | .unifyPermValue y => do -- instructions.cpp:177-208
    let r ← e.perm y
    unifyVal pre fuel r e
  | .putVariable x a v => do -- instructions.cpp:282-289
    let e' ← (e.pushRef v).setReg x (e.newRef v)
    e'.setReg a (e.newRef v)
  | .putPermVariable y a v => do -- instructions.cpp:291-300
    let e' ← (e.pushRef v).setPerm y (e.newRef v)
    e'.setReg a (e.newRef v)
  | .putValue x a => do -- instructions.cpp:302-307
    let c ← e.reg x
    e.setReg a c
  | .putPermValue y a => do -- instructions.cpp:309-315
    let c ← e.perm y
    e.setReg a c
  | .getVariable x a => do -- instructions.cpp:317-322
    let c ← e.reg a
    e.setReg x c
  | .getPermVariable y a => do -- instructions.cpp:324-329
    let c ← e.reg a
    e.setPerm y c
  | .getValue x a => do -- instructions.cpp:331-336
    let c ← e.reg x
    let p ← c.addr
    let c' ← e.reg a
    let q ← c'.addr
    e.unify pre fuel p q
  | .getPermValue y a => do -- instructions.cpp:338-344
    let c ← e.perm y
    let p ← c.addr
    let c' ← e.reg a
    let q ← c'.addr
    e.unify pre fuel p q
  | .builtin .is l r => isPred pre fuel st l r e
  | .builtin .eq l r => equalsCheck pre fuel l r e
  | .builtin .neq l r => notEqualsCheck pre fuel l r e
  | .allocate n => -- instructions.cpp:415-421
    pure { e with envs := List.replicate n Cell.zero :: e.envs }
  | .call _ | .proceed | .deallocate => .error .memory -- not data instructions

end

end PBfs
