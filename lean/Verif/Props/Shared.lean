import Verif.Proof.Shared
/-! # C26: variables shared between goals (continued; see Props/Goals.lean for environments at run time) -/
namespace PBfs

/-- **C26, clauses:** compiled code of a clause keeps the variables that its goals share. -/
theorem C26_clause_keeps_shared {ord : HashOrder} (ho : ord.OK) {bi head body st f r st'}
    (h : compileClause ord bi head body st = .ok (f, r, st')) : KeepsShared true (head :: body) r := compileClause_keeps ho h

/-- **C26, queries:** compiled code of a query keeps the variables that its goals share. -/
theorem C26_query_keeps_shared {ord : HashOrder} (ho : ord.OK) {atoms st q st'} (h : compileQuery ord atoms st = .ok (q, st')) :
    KeepsShared false atoms q := compileQuery_keeps ho h

namespace SharedExample

/-- `r(X, f(Y)) :- p(X), q(X, Y).` -/
def head : Node := .fn n!"r" [.var n!"X", .fn n!"f" [.var n!"Y"]]
def body : List Node := [.fn n!"p" [.var n!"X"], .fn n!"q" [.var n!"X", .var n!"Y"]]

/-- The clause is compiled. -/
example : (match compileClause id false head body ⟨[], []⟩ with | .ok (_, r, _) => r.length == 4 | .error _ => false) = true := by decide +kernel

/-- Both its variables are shared: a call lies between the head and the second goal. -/
example : SharedVar true (head :: body) n!"X" ∧ SharedVar true (head :: body) n!"Y" :=
  ⟨⟨[], head, [.fn n!"p" [.var n!"X"]], .fn n!"q" [.var n!"X", .var n!"Y"], [], rfl, by simp, by decide +kernel, by decide +kernel⟩,
   ⟨[], head, [.fn n!"p" [.var n!"X"]], .fn n!"q" [.var n!"X", .var n!"Y"], [], rfl, by simp, by decide +kernel, by decide +kernel⟩⟩

/-- The registers that its instructions set and use, in order. -/
example : (match compileClause id false head body ⟨[], []⟩ with
    | .ok (_, r, _) => (r.flatMap (·.instrs)).map fun i => (i.setsPerm, i.usesPerm)
    | .error _ => []) =
  [(none, none), (some 0, none), (none, none), (some 1, none), (none, none), (none, some 0), (none, none), (none, some 0), (none, some 1),
    (none, none), (none, none)] := by decide +kernel

end SharedExample
end PBfs
