import Verif.Proof.Reach
/-! # Concrete interpreters, used to show that hypotheses can be met -/
namespace PBfs

/-- A new interpreter with a program and a query loaded. -/
def demo (p : List Clause) (q : List Node) : Org :=
  ((Org.init0.loadProgram id (some p)).1.loadQuery id (some q)).1

theorem demo_reach (p q) : Reach (demo p q) := .query _ _ (.program _ _ (.init Org.init_eq))

/-- The reports of the first `n` work steps; `none` if something undefined happens. -/
def Org.reportsOf (fuel n : Nat) (o : Org) : Option (List Org.Res) :=
  match o.iterate fuel n with
  | .ok r => some (reports r.2)
  | .error _ => none

namespace Demo
/-- `p(a). p(b). r(X) :- p(X), q(X). q(b).` -/
def prog : List Clause :=
  [⟨.fn n!"p" [.cons n!"a"], []⟩, ⟨.fn n!"p" [.cons n!"b"], []⟩,
   ⟨.fn n!"r" [.var n!"X"], [.fn n!"p" [.var n!"X"], .fn n!"q" [.var n!"X"]]⟩,
   ⟨.fn n!"q" [.cons n!"b"], []⟩]

/-- two answers -/
example : (demo prog [.fn n!"p" [.var n!"X"]]).reportsOf 20 20 =
    some [.answer [⟨n!"X", n!"a"⟩], .answer [⟨n!"X", n!"b"⟩]] := by decide +kernel

/-- one answer, found on the longer branch -/
example : (demo prog [.fn n!"r" [.var n!"X"]]).reportsOf 20 20 =
    some [.answer [⟨n!"X", n!"b"⟩]] := by decide +kernel

/-- an error and an answer: `e(X) :- X is a + 1.  e(1).`, query `e(X)` -/
def progE : List Clause :=
  [⟨.fn n!"e" [.var n!"X"], [.fn n!"is" [.var n!"X", .efn n!"//" [.int 1, .int 0]]]⟩,
   ⟨.fn n!"e" [.int 1], []⟩]

example : (demo progE [.fn n!"e" [.var n!"X"]]).reportsOf 20 20 =
    some [.answer [⟨n!"X", n!"1"⟩], .error ⟨.divByZero, []⟩] := by decide +kernel
end Demo
end PBfs
