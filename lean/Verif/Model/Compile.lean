import Verif.Model.Code
/-!
# The compiler

From parsed clauses to instruction lists: `src/wam/compiler/compiler.cpp`.
-/
namespace PBfs

/-- The exceptions of the compiler.  `parse`, `undefinedVar` and `redefinition` are thrown as
`compiler::error` and caught by the organizer; `outOfRange` stands for `std::out_of_range` thrown by
`std::stoi` (compiler.cpp:179, 216, 309, 339) and `std::unordered_map::at` (arith_functor.cpp:38),
which nobody catches. -/
inductive CErr where
  | parse
  | undefinedVar
  | redefinition
  | outOfRange
  deriving DecidableEq, Repr

/-- Result of compiling: a value, or an exception together with the storage at this point (`storage` is
passed by reference, so what was added before the exception stays). -/
abbrev CR := Except (CErr × Storage)

/-- One node of an atom in breadth-first order: its number in this order, the node, and the number of
its first child. -/
structure Item where
  id : Nat
  node : Node
  cstart : Nat
  deriving Repr

/-- Pairs `(k, c₀), (k+1, c₁), …` -/
def number (k : Nat) : List Node → List (Nat × Node)
  | [] => []
  | c :: cs => (k, c) :: number (k + 1) cs

/-- The queue loop of `bfs_order` (include/prolog_bfs/wam/compiler/util/node_iteration.h:18-41).
`next` is the number of nodes queued so far.  The first argument bounds the number of iterations. -/
def bfsLoop : Nat → List (Nat × Node) → Nat → List Item
  | 0, _, _ => []
  | _ + 1, [], _ => []
  | n + 1, (i, nd) :: q, next =>
    ⟨i, nd, next⟩ :: bfsLoop n (q ++ number next nd.children) (next + nd.children.length)

/-- All nodes strictly below the atom in breadth-first order, i.e. `bfs_order(atom, true, …)`
(node_iteration.h:18-41); the arguments of the atom come first and have the numbers `0 … n-1`.
For a constant atom (which the callers treat separately) the result is the single node itself:
assign_registers (compiler.cpp:28-42) and flatten_program (compiler.cpp:119-122) give it the
register 0, as if it were its own only argument. -/
def atomArgs (atom : Node) : List Node :=
  match atom with
  | .cons c => [.cons c]
  | a => a.children

/-- see `atomArgs` -/
def items (atom : Node) : List Item :=
  bfsLoop (Node.sizes (atomArgs atom)) (number 0 (atomArgs atom)) (atomArgs atom).length

/-! ## Register assignment -/

/-- State of `assign_registers` (compiler.cpp:46-108): the registers of the variables seen so far
(`first_occurences`), and the next free register. -/
structure RegSt where
  varX : List (Name × Nat)
  ctr : Nat
  deriving Repr

/-- `assign_term_x_regs` (compiler.cpp:66-102) for one atom with `nargs` arguments: the x register of
every node in breadth-first order.  Arguments which are not variables keep their argument register;
variables get a register at their first occurrence, other nodes always get a new one. -/
def assignItems (nargs : Nat) : List Item → RegSt → List Nat × RegSt
  | [], st => ([], st)
  | it :: rest, st =>
    match it.node with
    | .var v =>
      match st.varX.lookup v with
      | some r =>
        let (xs, st') := assignItems nargs rest st
        (r :: xs, st')
      | none =>
        let (xs, st') := assignItems nargs rest ⟨(v, st.ctr) :: st.varX, st.ctr + 1⟩
        (st.ctr :: xs, st')
    | _ =>
      if it.id < nargs then
        let (xs, st') := assignItems nargs rest st
        (it.id :: xs, st')
      else
        let (xs, st') := assignItems nargs rest { st with ctr := st.ctr + 1 }
        (st.ctr :: xs, st')

/-- A node of an atom together with its x register and the x registers of its children. -/
structure AItem where
  id : Nat
  node : Node
  x : Nat
  kids : List (Node × Nat)
  deriving Repr

/-- Children with their registers, read off the register list of the whole atom. -/
def kidsOf (xs : List Nat) (start : Nat) : List Node → List (Node × Nat)
  | [] => []
  | c :: cs => (c, xs.getD start 0) :: kidsOf xs (start + 1) cs

/-- All nodes of an atom with their registers.  (Every number is in range: `items` numbers the nodes
by their position, theorem `items_ids`.) -/
def annotate (its : List Item) (xs : List Nat) : List AItem :=
  its.map fun it => ⟨it.id, it.node, xs.getD it.id 0, kidsOf xs it.cstart it.node.children⟩

/-- `assign_registers` (compiler.cpp:27-109) for one atom whose variables may already have registers
(`varX`, from the head of the clause); the counter starts at the arity. -/
def assignAtom (varX : List (Name × Nat)) (atom : Node) : List AItem × RegSt :=
  let its := items atom
  let n := (atomArgs atom).length
  let (xs, st) := assignItems n its ⟨varX, n⟩
  (annotate its xs, st)

/-- `assign_registers(atom)` (compiler.cpp:27-109) for a single atom: nodes, variable registers, and the
number of registers. -/
def assignSingle (atom : Node) : List AItem × List (Name × Nat) × Nat :=
  let (ais, st) := assignAtom [] atom
  (ais, st.varX, st.ctr)

/-- `assign_registers(head, first_body_atom)` (compiler.cpp:27-109): head and first body atom share the
registers of variables, but the counter of each starts at its own arity.  If one of the two is a
constant, the other one is treated alone and the number of registers is one larger. -/
def assignPair (head body : Node) :
    (List AItem × List (Name × Nat)) × (List AItem × List (Name × Nat)) × Nat :=
  match body with
  | .cons _ =>
    let (h, hv, n) := assignSingle head
    let (b, bv, _) := assignSingle body
    ((h, hv), (b, bv), 1 + n)
  | _ =>
    match head with
    | .cons _ =>
      let (h, hv, _) := assignSingle head
      let (b, bv, n) := assignSingle body
      ((h, hv), (b, bv), 1 + n)
    | _ =>
      let (h, st) := assignAtom [] head
      let (b, st') := assignAtom st.varX body
      ((h, st.varX), (b, st'.varX), max st.ctr st'.ctr)

/-- `seen_variables` (compiler.cpp:603-611, 625): name, `first_occurrence`, `is_permanent`. -/
structure VarInfo where
  name : Name
  first : Nat
  perm : Bool
  deriving Repr

/-- One variable occurrence in head or first body atom (compiler.cpp:632-635, 644-647). -/
def noteFirst (k : Nat) (v : Name) : List VarInfo → List VarInfo
  | [] => [⟨v, k, false⟩]
  | i :: is => if i.name = v then { i with first := k } :: is else i :: noteFirst k v is

/-- One variable occurrence in a later atom (compiler.cpp:662-671). -/
def noteLater (k : Nat) (v : Name) : List VarInfo → List VarInfo
  | [] => [⟨v, k, false⟩]
  | i :: is => if i.name = v then { i with perm := i.first != k } :: is else i :: noteLater k v is

/-- The loop over the remaining atoms (compiler.cpp:652-675); constant atoms are skipped and not
counted. -/
def permLater : Nat → List Node → List VarInfo → List VarInfo
  | _, [], m => m
  | k, a :: as, m =>
    if a.isCons then permLater k as m
    else permLater (k + 1) as ((Node.varss a.children).foldl (fun m v => noteLater k v m) m)

/-- The names of the permanent variables: `assign_permanent_registers` (compiler.cpp:620-688).
Occurrences are visited left to right instead of breadth first; this only influences the order of
the map, and that is an arbitrary permutation anyway (`permVars`). -/
def permVarsRaw (prog : Bool) (atoms : List Node) : List Name :=
  match atoms, prog with
  | [], _ => []
  | [_], _ => []
  | [_, _], true => []
  | a :: as, false =>
    let m := (Node.varss a.children).foldl (fun m v => noteFirst 0 v m) []
    ((permLater 1 as m).filter (·.perm)).map (·.name)
  | a :: b :: as, true =>
    let m := (Node.varss a.children).foldl (fun m v => noteFirst 0 v m) []
    let m' := (Node.varss b.children).foldl (fun m v => noteFirst 1 v m) m
    ((permLater (if b.isCons then 1 else 2) as m').filter (·.perm)).map (·.name)

/-- The order in which `std::unordered_map` enumerates its keys (compiler.cpp:677-685): unknown, so it
is a parameter.  It must return a permutation. -/
abbrev HashOrder := List Name → List Name

/-- `ord` enumerates the same names, each as often. -/
def HashOrder.OK (ord : HashOrder) : Prop := ∀ l, (ord l).Perm l

/-- The permanent variables in the order of their y registers. -/
def permVars (ord : HashOrder) (prog : Bool) (atoms : List Node) : List Name :=
  ord (permVarsRaw prog atoms)

/-! ## Instruction generation -/

/-- `wam::helper::seen_register` (include/prolog_bfs/wam/compiler/util/seen_register.h) -/
inductive SReg where
  | x (n : Nat)
  | y (n : Nat)
  deriving DecidableEq, Repr

/-- The state threaded through code generation: `seen_registers` (the keys; all stored values that are
ever read are `true`, and `operator[]` on a missing key is always followed by setting it) and
`storage`. -/
structure GenSt where
  seen : List SReg
  st : Storage
  deriving Repr

def GenSt.mark (g : GenSt) (r : SReg) : GenSt := { g with seen := r :: g.seen }

def GenSt.has (g : GenSt) (r : SReg) : Bool := g.seen.contains r

/-- `std::stoi` as used on integer literals (compiler.cpp:179, 216, 309, 339). -/
def stoi (v : Int) (g : GenSt) : CR Int :=
  if -2147483648 ≤ v ∧ v ≤ 2147483647 then .ok v else .error (.outOfRange, g.st)

/-- The heap cell of a node that is not a variable (compiler.cpp:177-208, 214-228, 307-333, 337-350). -/
def structCell (n : Node) (g : GenSt) : CR (Cell × GenSt) :=
  match n with
  | .int v => do
    let v ← stoi v g
    pure (.int v, g)
  | .cons c =>
    let (i, st) := g.st.functorIndexOf ⟨c, 0⟩
    pure (.cons i, { g with st := st })
  | .fn f cs =>
    let (i, st) := g.st.functorIndexOf ⟨f, cs.length⟩
    pure (.fn i cs.length, { g with st := st })
  | .efn f _ =>
    match arithIndex f with
    | some i => pure (.efn i 2, g)
    | none => .error (.outOfRange, g.st)
  | .var _ => .error (.outOfRange, g.st) -- never called on variables

/-- `compiler::check_and_throw_undefined_var` (src/wam/compiler/checks/undefined_var.cpp:9-26). -/
def definedVars (yOf xOf : Name → Option Nat) (g : GenSt) (cs : List Node) : Bool :=
  (Node.varss cs).all fun v =>
    match yOf v with
    | some y => g.has (.y y)
    | none => match xOf v with
      | some x => g.has (.x x)
      | none => false

/-- One child of a structure in `to_query_instructions` (compiler.cpp:213-256). -/
def queryKid (yOf : Name → Option Nat) (c : Node) (x : Nat) (g : GenSt) :
    CR (Instr × GenSt) :=
  let xcase : CR (Instr × GenSt) :=
    if g.has (.x x) then pure (.setValue x, g)
    else
      let g := g.mark (.x x)
      let (v, st) := g.st.pushBackVar c.name
      pure (.setVariable x v, { g with st := st })
  match c with
  | .int _ => do
    let (cell, g) ← structCell c g
    pure (.putStructure cell x, g)
  | .cons _ => do
    let (cell, g) ← structCell c g
    pure (.putStructure cell x, g)
  | .var n =>
    match yOf n with
    | some y =>
      if g.has (.y y) then pure (.setPermValue y, g)
      else
        let g := g.mark (.y y)
        let (v, st) := g.st.pushBackVar n
        pure (.setPermVariable y v, { g with st := st })
    | none => xcase
  | _ => xcase

/-- All children of a structure (compiler.cpp:213-256). -/
def queryKids (yOf : Name → Option Nat) : List (Node × Nat) → GenSt → CR (List Instr × GenSt)
  | [], g => pure ([], g)
  | (c, x) :: ks, g => do
    let (i, g) ← queryKid yOf c x g
    let (is, g) ← queryKids yOf ks g
    pure (i :: is, g)

/-- One node of the flattened atom in `to_query_instructions` (compiler.cpp:143-257). -/
def queryItem (yOf xOf : Name → Option Nat) (a : AItem) (g : GenSt) :
    CR (List Instr × GenSt) :=
  match a.node with
  | .var n =>
    match yOf n with
    | some y =>
      if g.has (.y y) then pure ([.putPermValue y a.id], g)
      else
        let g := g.mark (.y y)
        let (v, st) := g.st.pushBackVar n
        pure ([.putPermVariable y a.id v], { g with st := st })
    | none =>
      if g.has (.x a.x) then pure ([.putValue a.x a.id], g)
      else
        let g := g.mark (.x a.x)
        let (v, st) := g.st.pushBackVar n
        pure ([.putVariable a.x a.id v], { g with st := st })
  | .efn _ cs =>
    let g := g.mark (.x a.x)
    if definedVars yOf xOf g cs then do
      let (cell, g) ← structCell a.node g
      let (is, g) ← queryKids yOf a.kids g
      pure (.putStructure cell a.x :: is, g)
    else .error (.undefinedVar, g.st)
  | _ => do
    let g := g.mark (.x a.x)
    let (cell, g) ← structCell a.node g
    let (is, g) ← queryKids yOf a.kids g
    pure (.putStructure cell a.x :: is, g)

def queryItems (yOf xOf : Name → Option Nat) : List AItem → GenSt → CR (List Instr × GenSt)
  | [], g => pure ([], g)
  | a :: as, g => do
    let (is, g) ← queryItem yOf xOf a g
    let (js, g) ← queryItems yOf xOf as g
    pure (is ++ js, g)

/-- Kept by `flatten_program` (compiler.cpp:123-129): arguments and structures. -/
def AItem.kept (nargs : Nat) (a : AItem) : Bool :=
  a.id < nargs || a.node.isFn || a.node.isEfn

/-- `flatten_program` (compiler.cpp:116-131) -/
def flattenProgram (nargs : Nat) (as : List AItem) : List AItem := as.filter (·.kept nargs)

/-- `flatten_query` (compiler.cpp:588-601): the arguments are moved to the end, the nodes before them
reversed. -/
def flattenQuery (nargs : Nat) (as : List AItem) : List AItem :=
  let f := flattenProgram nargs as
  (f.drop nargs).reverse ++ f.take nargs

/-- `to_query_instructions` (compiler.cpp:134-261) -/
def toQuery (yOf xOf : Name → Option Nat) (atom : Node) (as : List AItem) (g : GenSt) :
    CR (List Instr × GenSt) := do
  let (is, g) ← queryItems yOf xOf (flattenQuery (atomArgs atom).length as) g
  pure (is ++ [.call atom.fv], g)

/-- One child of a structure in `to_program_instructions` (compiler.cpp:336-377). -/
def programKid (yOf : Name → Option Nat) (c : Node) (x : Nat) (g : GenSt) :
    CR (Instr × GenSt) :=
  match c with
  | .int _ => do
    let (cell, g) ← structCell c g
    pure (.unifyStructure cell x, g)
  | .cons _ => do
    let (cell, g) ← structCell c g
    pure (.unifyStructure cell x, g)
  | _ =>
    let y? := match c with
      | .var n => yOf n
      | _ => none
    if g.has (.x x) then
      match y? with
      | some y => pure (.unifyPermValue y, g)
      | none => pure (.unifyValue x, g)
    else
      let g := g.mark (.x x)
      let (v, st) := g.st.pushBackVar c.name
      let g := { g with st := st }
      match y? with
      | some y => pure (.unifyPermVariable y v, g.mark (.y y))
      | none => pure (.unifyVariable x v, g)

def programKids (yOf : Name → Option Nat) :
    List (Node × Nat) → GenSt → CR (List Instr × GenSt)
  | [], g => pure ([], g)
  | (c, x) :: ks, g => do
    let (i, g) ← programKid yOf c x g
    let (is, g) ← programKids yOf ks g
    pure (i :: is, g)

/-- One node of the flattened head in `to_program_instructions` (compiler.cpp:272-378). -/
def programItem (yOf : Name → Option Nat) (a : AItem) (g : GenSt) : CR (List Instr × GenSt) :=
  match a.node with
  | .var n =>
    if g.has (.x a.x) then
      match yOf n with
      | some y => pure ([.getPermValue y a.id], g)
      | none => pure ([.getValue a.x a.id], g)
    else
      let g := g.mark (.x a.x)
      match yOf n with
      | some y => pure ([.getPermVariable y a.id], g.mark (.y y))
      | none => pure ([.getVariable a.x a.id], g)
  | _ => do
    let (cell, g) ← structCell a.node g
    let (is, g) ← programKids yOf a.kids g
    pure (.getStructure cell a.x :: is, g)

def programItems (yOf : Name → Option Nat) : List AItem → GenSt → CR (List Instr × GenSt)
  | [], g => pure ([], g)
  | a :: as, g => do
    let (is, g) ← programItem yOf a g
    let (js, g) ← programItems yOf as g
    pure (is ++ js, g)

/-- `to_program_instructions` (compiler.cpp:263-382) -/
def toProgram (yOf : Name → Option Nat) (atom : Node) (as : List AItem) (g : GenSt) :
    CR (List Instr × GenSt) := do
  let (is, g) ← programItems yOf (flattenProgram (atomArgs atom).length as) g
  pure (is ++ [.proceed], g)

/-- `find_var_reg_substitutions` (src/wam/compiler/util/node_util.cpp:13-39): every variable once, in
the order of first occurrence. -/
def varRegs (yOf : Name → Option Nat) : List AItem → List Name → List VarReg
  | [], _ => []
  | a :: as, handled =>
    match a.node with
    | .var n =>
      if handled.contains n then varRegs yOf as handled
      else
        match yOf n with
        | some y => ⟨n, y, true⟩ :: varRegs yOf as (n :: handled)
        | none => ⟨n, a.x, false⟩ :: varRegs yOf as (n :: handled)
    | _ => varRegs yOf as handled

/-- `remove_x_a_regs` (compiler.cpp:384-391) -/
def dropX (seen : List SReg) : List SReg :=
  seen.filter fun r => match r with
    | .x _ => false
    | .y _ => true

/-- `compile_query_atom` (compiler.cpp:429-453).  `pre` are the instructions already in the buffer (an
`allocate` for the first atom of a query). -/
def compileQueryAtom (yOf : Name → Option Nat) (pre : List Instr) (fromQuery : Bool) (atom : Node)
    (g : GenSt) : CR (CAtom × GenSt) := do
  let (as, varX, n) := assignSingle atom
  let (is, g) ← toQuery yOf (varX.lookup ·) atom as g
  pure (⟨n, pre ++ is, varRegs yOf as [], atom, fromQuery⟩, { g with seen := dropX g.seen })

def compileQueryAtoms (yOf : Name → Option Nat) (pre : List Instr) (fromQuery : Bool) :
    List Node → GenSt → CR (List CAtom × GenSt)
  | [], g => pure ([], g)
  | a :: as, g => do
    let (c, g) ← compileQueryAtom yOf pre fromQuery a g
    let (cs, g) ← compileQueryAtoms yOf [] fromQuery as g
    pure (c :: cs, g)

/-- The optional `allocate` (compiler.cpp:408-410, 508-510). -/
def allocInstrs (n : Nat) : List Instr := if n = 0 then [] else [.allocate n]

/-- `compile_query` (compiler.cpp:393-427), after parsing. -/
def compileQuery (ord : HashOrder) (atoms : List Node) (st : Storage) :
    CR (Rule × Storage) := do
  let ys := permVars ord false atoms
  let (cs, g) ← compileQueryAtoms (indexOf? · ys) (allocInstrs ys.length) true atoms ⟨[], st⟩
  pure (cs, g.st)

/-- The registers of functors and constants of the head are forgotten (compiler.cpp:522-528). -/
def eraseStructRegs (head : Node) (as : List AItem) (seen : List SReg) : List SReg :=
  if head.isCons then seen
  else
    seen.filter fun r =>
      !(as.any fun a => (a.node.isFn || a.node.isCons) && r == .x a.x)

/-- The deallocate atom (compiler.cpp:570-579). -/
def deallocAtom : CAtom := ⟨0, [.deallocate], [], .cons n!"DEALLOCATE", false⟩

def deallocAtoms (n : Nat) : List CAtom := if n = 0 then [] else [deallocAtom]

/-- `check_and_throw_redefinition_of_built_in_pred`
(src/wam/compiler/checks/redefinition_of_built_in_pred.cpp:8-18). -/
def redefines (head : Node) : Bool :=
  head.fv = ⟨n!"append", 3⟩ || head.fv = ⟨n!"is", 2⟩

/-- `compile_program_term` (compiler.cpp:487-585) for a clause: the functor of the head and the rule. -/
def compileClause (ord : HashOrder) (builtIn : Bool) (head : Node) (body : List Node) (st : Storage) :
    CR (FV × Rule × Storage) := do
  let ys := permVars ord true (head :: body)
  let yOf := (indexOf? · ys)
  if !builtIn && redefines head then .error (.redefinition, st)
  match body with
  | [] =>
    let (hs, _, n) := assignSingle head
    let (is, g) ← toProgram yOf head hs ⟨[], st⟩
    pure (head.fv, [⟨n, allocInstrs ys.length ++ is, varRegs yOf hs [], head, false⟩] ++
      deallocAtoms ys.length, g.st)
  | b :: bs =>
    let ((hs, _), (fs, fv), n) := assignPair head b
    let (is, g) ← toProgram yOf head hs ⟨[], st⟩
    let g := { g with seen := eraseStructRegs head hs g.seen }
    let (js, g) ← toQuery yOf (fv.lookup ·) b fs g
    let (cs, g) ← compileQueryAtoms yOf [] false bs { g with seen := dropX g.seen }
    pure (head.fv,
      [⟨n, allocInstrs ys.length ++ is, varRegs yOf hs [], head, false⟩,
       ⟨n, js, varRegs yOf fs [], b, false⟩] ++ cs ++ deallocAtoms ys.length, g.st)

/-- A parsed clause: head and body atoms (`program_grammar.h:36-48`); the parser result of a program
is a list of these, comments left out. -/
structure Clause where
  head : Node
  body : List Node
  deriving Repr

/-- `compile_program` (compiler.cpp:455-485), after parsing. -/
def compileProgram (ord : HashOrder) : List Clause → Program → Storage → CR (Program × Storage)
  | [], p, st => pure (p, st)
  | c :: cs, p, st => do
    let (f, r, st) ← compileClause ord false c.head c.body st
    compileProgram ord cs (p.addRule f r) st

/-! ## Built-in predicates -/

/-- `get_binary_pred` (built_in_pred_comp.cpp:11-22) -/
def binaryHead (n : Name) : Node := .fn n [.var n!"Lhs", .var n!"Rhs"]

/-- One built-in implemented in C++ (built_in_pred_comp.cpp:35-46): its head is compiled as a fact and
the call of the C++ function is inserted before the final `proceed`. -/
def compileBinary (b : Builtin) (n : Name) (st : Storage) : CR (FV × Rule × Storage) := do
  let (f, r, st) ← compileClause id true (binaryHead n) [] st
  let (as, _, _) := assignSingle (binaryHead n)
  match r, as with
  | [a], l :: r' :: _ =>
    let last := a.instrs.drop (a.instrs.length - 1)
    pure (f, [{ a with instrs := a.instrs.dropLast ++ [.builtin b l.x r'.x] ++ last }], st)
  | _, _ => .error (.outOfRange, st) -- never: a fact compiles to one atom and there are two arguments

/-- The clauses of `append/3` (src/wam/built_in_predicates/append.cpp:7-46). -/
def appendClauses : List Clause :=
  [⟨.fn n!"append" [.nil, .var n!"List2", .var n!"List2"], []⟩,
   ⟨.fn n!"append" [.fn n!"[" [.var n!"X", .var n!"Xs"], .var n!"Ys", .fn n!"[" [.var n!"X", .var n!"Rs"]],
    [.fn n!"append" [.var n!"Xs", .var n!"Ys", .var n!"Rs"]]⟩]

/-- `compile_built_in_predicates` (built_in_pred_comp.cpp:24-61). -/
def compileBuiltins (st : Storage) : CR (Program × Storage) := do
  let (f, r, st) ← compileBinary .is n!"is" st
  let p := Program.addRule [] f r
  let (f, r, st) ← compileBinary .eq n!"==" st
  let p := p.addRule f r
  let (f, r, st) ← compileBinary .neq n!"\\==" st
  let p := p.addRule f r
  let add (c : Clause) (p : Program) (st : Storage) : CR (Program × Storage) := do
    let (f, r, st) ← compileClause id true c.head c.body st
    pure (p.addRule f r, st)
  match appendClauses with
  | [c1, c2] =>
    let (p, st) ← add c1 p st
    add c2 p st
  | _ => .error (.outOfRange, st) -- never: there are two clauses

end PBfs
