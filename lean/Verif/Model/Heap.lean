import Verif.Model.Basic
/-!
# The layered heap of an executor

Every executor owns the upper part of its heap and sees the rest through its parent;
it may overwrite cells of the lower part only in its private map `changes_to_parent`.
-/
namespace PBfs

/-- The heap related fields of `wam::executor` (include/prolog_bfs/wam/executor/executor.h:59-65):
`heap_start_index`, `changes_to_parent`, `heap`.  The map is a list of pairs; the first entry for an
address is the current one. -/
structure Hp where
  start : Nat
  changes : List (Nat × Cell)
  own : List Cell
  deriving DecidableEq, Repr

namespace Hp

/-- `executor::heap_size` (executor.h:146-148) -/
def size (h : Hp) : Nat := h.start + h.own.length

/-- `executor::heap_at` (src/wam/executor/executor.cpp:52-69).  `pre` is `heap_at` of the parent;
`none` is a failed assertion or a missing parent. -/
def at? (pre : Nat → Option Cell) (h : Hp) (i : Nat) : Option Cell :=
  if h.start ≤ i then h.own[i - h.start]?
  else match h.changes.lookup i with
    | some c => some c
    | none => pre i

/-- `executor::push_back` (executor.h:121-123) -/
def push (h : Hp) (c : Cell) : Hp := { h with own := h.own ++ [c] }

/-- Writing through the reference returned by `executor::heap_modify` (executor.cpp:31-50): the own
part is changed in place, everything below only in the private map. -/
def write (h : Hp) (i : Nat) (c : Cell) : Hp :=
  if h.start ≤ i then { h with own := h.own.set (i - h.start) c }
  else { h with changes := (i, c) :: h.changes }

/-- `heap_modify(i).bind_to(t)` (executor.cpp:31-50, heap_reg.h:65-68): only a REF can be bound
(assertion), and it keeps its variable index. -/
def bind (pre : Nat → Option Cell) (h : Hp) (i t : Nat) : R Hp :=
  match h.at? pre i with
  | some (.ref _ v) => .ok (h.write i (.ref t v))
  | _ => .error .memory

end Hp

/-- The loop of `wam::deref` (src/wam/instructions/util/instructions_util.cpp:28-44), for at most
`n` cells. -/
def derefN (pre : Nat → Option Cell) (h : Hp) : Nat → Nat → R Nat
  | 0, _ => .error .hang
  | n + 1, a =>
    match h.at? pre a with
    | none => .error .memory
    | some (.ref b _) => if b = a then .ok a else derefN pre h n b
    | some (.str b) => if b = a then .ok a else derefN pre h n b
    | some _ => .ok a

/-- `wam::deref` (instructions_util.cpp:28-44).  A chain without repetition visits at most
`heap_size` cells, so the bound only cuts off endless loops (theorem `deref_hang_forever`). -/
def deref (pre : Nat → Option Cell) (h : Hp) (a : Nat) : R Nat :=
  derefN pre h (h.size + 1) a

end PBfs
