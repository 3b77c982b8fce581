import Verif.Proof.Heap
import Verif.Spec.Logic
/-! # Parts of the heap that hold ground terms -/
namespace PBfs

/-- The addresses in `S` hold ground terms, and no cell elsewhere belongs to these terms: pointers and
arguments stay in `S`, and no cell is an unbound variable. -/
structure Region (H : HV) (S : Nat → Prop) : Prop where
  ref : ∀ {a b v}, S a → H a = some (.ref b v) → b ≠ a ∧ S b
  str : ∀ {a b}, S a → H a = some (.str b) → S b
  fn : ∀ {a f n}, S a → H a = some (.fn f n) → ∀ i, i < n → S (a + 1 + i)
  efn : ∀ {a f n}, S a → H a = some (.efn f n) → ∀ i, i < n → S (a + 1 + i)

/-- Address of level `k` in tower `t` (0 or 1). -/
def towerAt (t k : Nat) : Nat := if k = 0 then t else 6 * k - 4 + 3 * t

/-- The cells of two towers: at the foot the constant with index `c`, and above it structures with the index `f`,
each with two pointers to the one below it in the same tower. -/
def towerCell (c f : Int) (x : Nat) : Cell :=
  if x < 2 then .cons c else if (x - 2) % 3 = 0 then .fn f 2 else .str (towerAt ((x - 2) / 3 % 2) ((x - 2) / 6))

/-- A heap with two towers of `n` structures and nothing else. -/
def Towers (H : HV) (n : Nat) (c f : Int) : Prop := ∀ x, H x = if x < 6 * n + 2 then some (towerCell c f x) else none

/-- Such a heap. -/
def towers (n : Nat) : Hp := ⟨0, [], (List.range (6 * n + 2)).map (towerCell 0 1)⟩

/-- `a`, `g(a,a)`, `g(g(a,a),g(a,a))`, … -/
def bushy : Nat → Tree
  | 0 => .cons n!"a"
  | n + 1 => .fn n!"g" [bushy n, bushy n]

end PBfs
