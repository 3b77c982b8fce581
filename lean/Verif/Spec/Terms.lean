import Verif.Proof.Heap
/-!
# The terms in a heap

What term an address of a heap stands for, without any algorithm: variables are the addresses of unbound
references.
-/
namespace PBfs

/-- Terms whose variables are addresses; functors and constants by their index in the storage. -/
inductive OTerm where
  | var (a : Nat)
  | cons (i : Int)
  | int (v : Int)
  | fn (f : Int) (ts : List OTerm)
  | efn (f : Nat) (ts : List OTerm)

/-- Address `a` of the heap stands for the (finite) term `t`. -/
inductive Reads (H : HV) : Nat → OTerm → Prop
  | ref {a b v t} : H a = some (.ref b v) → b ≠ a → Reads H b t → Reads H a t
  | str {a b t} : H a = some (.str b) → Reads H b t → Reads H a t
  | var {a v} : H a = some (.ref a v) → Reads H a (.var a)
  | cons {a i} : H a = some (.cons i) → Reads H a (.cons i)
  | int {a v} : H a = some (.int v) → Reads H a (.int v)
  | fn {a f n ts} : H a = some (.fn f n) → ts.length = n → (∀ (i : Nat) t, ts[i]? = some t → Reads H (a + 1 + i) t) →
      Reads H a (.fn f ts)
  | efn {a f n ts} : H a = some (.efn f n) → ts.length = n → (∀ (i : Nat) t, ts[i]? = some t → Reads H (a + 1 + i) t) →
      Reads H a (.efn f ts)

end PBfs
