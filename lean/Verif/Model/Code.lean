import Verif.Model.Basic
/-!
# Compiled code

The compiler produces lists of `std::function<void(executor&)>` built with `std::bind`; here every
such closure is a value of `Instr`.
-/
namespace PBfs

/-- The built-in predicates implemented in C++
(src/wam/compiler/built_in_pred_comp.cpp:29-33). -/
inductive Builtin where
  | is
  | eq
  | neq
  deriving DecidableEq, Repr

/-- The instructions (include/prolog_bfs/wam/instructions/instructions.h), with their bound
arguments.  `x`, `a` are indices of `registers`, `y` of the permanent registers, `v` is an index of
`storage.variables`. -/
inductive Instr where
  | putStructure (c : Cell) (x : Nat)
  | setVariable (x : Nat) (v : Int)
  | setPermVariable (y : Nat) (v : Int)
  | setValue (x : Nat)
  | setPermValue (y : Nat)
  | getStructure (c : Cell) (x : Nat)
  | unifyStructure (c : Cell) (x : Nat)
  | unifyVariable (x : Nat) (v : Int)
  | unifyPermVariable (y : Nat) (v : Int)
  | unifyValue (x : Nat)
  | unifyPermValue (y : Nat)
  | putVariable (x a : Nat) (v : Int)
  | putPermVariable (y a : Nat) (v : Int)
  | putValue (x a : Nat)
  | putPermValue (y a : Nat)
  | getVariable (x a : Nat)
  | getPermVariable (y a : Nat)
  | getValue (x a : Nat)
  | getPermValue (y a : Nat)
  | builtin (b : Builtin) (l r : Nat)
  | call (f : FV)
  | proceed
  | allocate (n : Nat)
  | deallocate
  deriving DecidableEq, Repr

/-- `wam::var_reg_substitution` (include/prolog_bfs/wam/data/var_reg_substitution.h): a variable of an
atom and the register it lives in. -/
structure VarReg where
  name : Name
  reg : Nat
  perm : Bool
  deriving DecidableEq, Repr

/-- `wam::compiled_atom` (include/prolog_bfs/wam/data/compiled_atom.h:19-91).  Left out: source
positions and the back pointer to the rule. -/
structure CAtom where
  regCount : Nat
  instrs : List Instr
  subst : List VarReg
  parsed : Node
  fromQuery : Bool
  deriving Repr

/-- `compiled_atom::is_deallocate` (compiled_atom.h:66-70): exactly one instruction. -/
def CAtom.isDealloc (a : CAtom) : Bool := a.instrs.length == 1

/-- `wam::rule` (include/prolog_bfs/wam/data/rule.h:11-62): the compiled atoms, the head first. -/
abbrev Rule := List CAtom

/-- A compiled program: `std::unordered_map<functor_view, std::vector<rule>>`, as an association list
with distinct keys.  Its order is never observable: only `find`, `operator[]` and insertion are used
(bfs_organizer.cpp:24-34, 94-96; instructions.cpp:356, 364; compiler.cpp:474-483). -/
abbrev Program := List (FV × List Rule)

/-- `operator[]`/`find` of the map. -/
def Program.rules? (p : Program) (f : FV) : Option (List Rule) := List.lookup f p

/-- `map[k] = v` -/
def Program.assign (p : Program) (f : FV) (rs : List Rule) : Program :=
  match p with
  | [] => [(f, rs)]
  | (g, qs) :: p => if f = g then (g, rs) :: p else (g, qs) :: assign p f rs

/-- Adding one rule at the end of the rules of its functor (compiler.cpp:474-483). -/
def Program.addRule (p : Program) (f : FV) (r : Rule) : Program :=
  match p with
  | [] => [(f, [r])]
  | (g, qs) :: p => if f = g then (g, qs ++ [r]) :: p else (g, qs) :: addRule p f r

end PBfs
