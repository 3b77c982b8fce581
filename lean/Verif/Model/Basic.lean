/-!
# Basic data of the interpreter

Names, heap cells (`heap_reg`), functor views, the global symbol storage and
parsed nodes.
-/
namespace PBfs

/-- A C++ `std::string`.  Modelled as a list of characters. -/
abbrev Name := List Char

open Lean in
/-- `n!"abc"` is the list of the characters of `abc` (so that the kernel can compute with it). -/
macro:max "n!" s:str : term => do
  let elems := s.getString.toList.map fun c => Syntax.mkCharLit c
  `(([ $(elems.toArray),* ] : List Char))

/-- `wam::functor_view` (include/prolog_bfs/wam/data/functor_view.h:11-44): name and arity,
compared componentwise (functor_view.h:38-40). -/
structure FV where
  name : Name
  arity : Nat
  deriving DecidableEq, Repr

/-- `wam::heap_reg` (include/prolog_bfs/wam/data/heap_reg.h:14-83).
The struct `{index, var_index, type}` becomes one constructor per tag, carrying exactly the
fields that are set for this tag; the others are 0 in the C++ code, so that the componentwise
`operator==` (src/wam/data/heap_reg.cpp:19-27) is equality of `Cell`s.
Simplifications: heap addresses are `Nat` (C++: `int`, i.e. heaps of less than 2^31 cells), arities
are `Nat` (C++: cast to `short`).  Indices into `storage` keep their `short` range: see `toShort`. -/
inductive Cell where
  /-- `CONS`, index into `storage.functors` -/
  | cons (i : Int)
  /-- `INT`, the value -/
  | int (v : Int)
  /-- `REF`, address and index into `storage.variables`; unbound iff it points to itself -/
  | ref (a : Nat) (v : Int)
  /-- `FUN`, index into `storage.functors`, and arity -/
  | fn (f : Int) (n : Nat)
  /-- `EVAL_FUN`, index of an arithmetic functor, and arity -/
  | efn (f : Nat) (n : Nat)
  /-- `STR`, address -/
  | str (a : Nat)
  deriving DecidableEq, Repr

/-- `heap_reg::get_heap_i` (heap_reg.h:60-63); `none` is the failing assertion. -/
def Cell.ptr : Cell → Option Nat
  | .ref a _ => some a
  | .str a => some a
  | _ => none

/-- `heap_reg::is_REF` (heap_reg.h:23-25). -/
def Cell.isRef : Cell → Bool
  | .ref _ _ => true
  | _ => false

/-- The field `index` of a `heap_reg` (heap_reg.h:15). -/
def Cell.index : Cell → Int
  | .cons i => i
  | .int v => v
  | .ref a _ => a
  | .fn f _ => f
  | .efn f _ => f
  | .str a => a

/-- Everything the C++ program must never do, and not terminating. -/
inductive Fault where
  /-- failed `assert`, null pointer, index out of range, `vector::at` exception -/
  | memory
  /-- use of a reference or pointer to freed or moved memory -/
  | dangling
  /-- signed overflow: conversion of an out-of-range `double` to `int` -/
  | overflow
  /-- no result within the given number of steps (an endless loop or recursion has no result for any) -/
  | hang
  deriving DecidableEq, Repr

abbrev R := Except Fault

/-- Turns a missing value (failed assertion, index out of range) into a fault. -/
def orFault (o : Option α) : R α :=
  match o with
  | some a => .ok a
  | none => .error .memory

/-- Conversion of a `size_t` to `short` (16 bit two's complement), as done by the return types of
`storage::functor_index_of` and `storage::push_back_var` (storage.h:27-43). -/
def toShort (n : Nat) : Int :=
  if n % 65536 < 32768 then ((n % 65536 : Nat) : Int) else ((n % 65536 : Nat) : Int) - 65536

/-- `wam::storage` (include/prolog_bfs/wam/bfs_organizer/data/storage.h:19-51).  The map
`functor_index_map` always maps `functors[i]` to `i` (both are only changed together, lines 33-35),
so it is represented by `functors` itself. -/
structure Storage where
  functors : List FV
  vars : List Name
  deriving DecidableEq, Repr

/-- Position of the first element equal to `x`: `functor_index_map.find`. -/
def indexOf? [DecidableEq α] (x : α) : List α → Option Nat
  | [] => none
  | y :: ys => if x = y then some 0 else (indexOf? x ys).map (· + 1)

/-- `storage::functor_index_of` (storage.h:27-38). -/
def Storage.functorIndexOf (s : Storage) (f : FV) : Int × Storage :=
  match indexOf? f s.functors with
  | some i => (toShort i, s)
  | none => (toShort s.functors.length, { s with functors := s.functors ++ [f] })

/-- `storage::push_back_var` (storage.h:40-43).  Variables are never shared. -/
def Storage.pushBackVar (s : Storage) (n : Name) : Int × Storage :=
  (toShort s.vars.length, { s with vars := s.vars ++ [n] })

/-- `storage.functors[i]` (executor.cpp:10, 13, 72, 75); `none` is an access out of range. -/
def Storage.functorAt (s : Storage) (i : Int) : Option FV :=
  if 0 ≤ i then s.functors[i.toNat]? else none

/-- `storage.variables[i].name` (executor.cpp:79); `none` is an access out of range. -/
def Storage.varAt (s : Storage) (i : Int) : Option Name :=
  if 0 ≤ i then s.vars[i.toNat]? else none

/-- A parsed term or atom: `node` (include/prolog_bfs/wam/compiler/util/node.h:32-227) without
registers and source positions.  `cons`, `var`, `int`, `fn`, `efn` are the types CONSTANT, VARIABLE,
INT, FUNCTOR, EVALUABLE_FUNCTOR.  Simplification: an INT node carries the number, not its text
(the range check of `std::stoi` is made by the compiler model). -/
inductive Node where
  | var (n : Name)
  | cons (n : Name)
  | int (v : Int)
  | fn (n : Name) (cs : List Node)
  | efn (n : Name) (cs : List Node)
  deriving Repr

namespace Node

/-- `node::children` (node.h:46); empty when the pointer is null. -/
def children : Node → List Node
  | .fn _ cs => cs
  | .efn _ cs => cs
  | _ => []

/-- `node::is_variable` (node.h:100-102) -/
def isVar : Node → Bool
  | .var _ => true
  | _ => false

/-- `node::is_constant` (node.h:92-94) -/
def isCons : Node → Bool
  | .cons _ => true
  | _ => false

/-- `node::is_functor` (node.h:104-106) -/
def isFn : Node → Bool
  | .fn _ _ => true
  | _ => false

/-- `node::is_evaluable_functor` (node.h:108-110) -/
def isEfn : Node → Bool
  | .efn _ _ => true
  | _ => false

/-- `node::name` (node.h:43); not meaningful for integers, where it is the digits. -/
def name : Node → Name
  | .var n => n
  | .cons n => n
  | .int _ => []
  | .fn n _ => n
  | .efn n _ => n

/-- `node::to_functor_view` (node.h:169-172) -/
def fv (n : Node) : FV := ⟨n.name, n.children.length⟩

mutual
/-- Number of nodes of a term. -/
def size : Node → Nat
  | .fn _ cs => 1 + sizes cs
  | .efn _ cs => 1 + sizes cs
  | _ => 1
/-- Number of nodes of a list of terms. -/
def sizes : List Node → Nat
  | [] => 0
  | c :: cs => size c + sizes cs
end

mutual
/-- Structural equality of nodes, as a Boolean. -/
def beq : Node → Node → Bool
  | .var a, .var b => a == b
  | .cons a, .cons b => a == b
  | .int a, .int b => a == b
  | .fn a as, .fn b bs => a == b && beqs as bs
  | .efn a as, .efn b bs => a == b && beqs as bs
  | _, _ => false
def beqs : List Node → List Node → Bool
  | [], [] => true
  | a :: as, b :: bs => beq a b && beqs as bs
  | _, _ => false
end

mutual
/-- The variables of a term, left to right, with repetitions. -/
def vars : Node → List Name
  | .var n => [n]
  | .fn _ cs => varss cs
  | .efn _ cs => varss cs
  | _ => []
def varss : List Node → List Name
  | [] => []
  | c :: cs => vars c ++ varss cs
end

/-- The list term `[e₁,…,eₙ|tail]` as built by the constructors of `node` from parsed lists
(src/wam/compiler/util/node.cpp:127-157): `[(e₁,[(e₂,…tail))`. -/
def listWith (tail : Node) : List Node → Node
  | [] => tail
  | e :: es => .fn n!"[" [e, listWith tail es]

/-- The empty list: a FUNCTOR node named `[` without children (node.cpp:93, 127-131). -/
def nil : Node := .fn n!"[" []

/-- `[e₁,…,eₙ]` -/
def list (es : List Node) : Node := listWith nil es

end Node

/-- Names of the arithmetic functors in the order of their index
(src/wam/built_in_predicates/arithmetic/util/arith_functor.cpp:15-21). -/
def arithNames : List Name := [n!"^", n!"+", n!"-", n!"*", n!"//"]

/-- `wam::arithmetic::to_index` (arith_functor.cpp:37-39); `none` is the exception of `at`. -/
def arithIndex (n : Name) : Option Nat := indexOf? n arithNames

end PBfs
