import Verif.Props.Sound
import Verif.Proof.Untangled
/-! # Properties of compiled clauses -/
namespace PBfs

/-- The arguments `ps` are in the argument registers of `e`. -/
def ArgsIn (st : Storage) (e : Exec) (ps : List Nat) : Prop :=
  ∀ (i p : Nat), ps[i]? = some p → p < e.hp.size ∧ ∃ cell, e.regs[i]? = some cell ∧ cell.ptr = some p ∧ ValidCell st cell

theorem choose_list {α : Type} {P : Nat → α → Nat → Prop} : ∀ {k : Nat} {l : List α}, (∀ i n, l[i]? = some n → ∃ p, P (k + i) n p) →
    ∃ ps : List Nat, ∀ i, (l[i]? = none ∧ ps[i]? = none) ∨ ∃ n p, l[i]? = some n ∧ ps[i]? = some p ∧ P (k + i) n p
  | k, [], _ => ⟨[], fun i => .inl ⟨rfl, rfl⟩⟩
  | k, a :: l, h => by
    obtain ⟨p, hp⟩ := h 0 a rfl
    obtain ⟨ps, hps⟩ := choose_list (k := k + 1) (l := l) (P := P) (fun i n hn => by
      rw [Nat.add_assoc, Nat.add_comm 1 i]; exact h (i + 1) n hn)
    refine ⟨p :: ps, fun i => ?_⟩
    cases i with
    | zero => exact .inr ⟨a, p, rfl, rfl, hp⟩
    | succ i =>
      have := hps i
      rw [Nat.add_assoc, Nat.add_comm 1 i] at this
      exact this

/-- **C24 (partial)** Running the compiled head of a clause and then the compiled first goal behaves like the
source.  For every clause of which no two values compete for a register (`Clause.untangled`, a condition on the
source text), every storage containing the symbols of the clause and every executor whose argument registers
point to the arguments of a call: if the head matches, the argument registers afterwards point to the arguments
of the first goal, and the solutions of the heap are exactly the assignments of values to the variables of the
clause (one value per variable, *any* values for variables that unification does not relate) such that the
arguments of the call equal the arguments of the head; if the head does not match there is no such assignment.
The head can only run forever if it contains a variable twice.
Missing: clauses whose values compete for registers, for which the statement is false (`C24_shares_witness`,
`C24_lost_witness`); goals after the first are covered end-to-end by C01 and C02. -/
theorem C24_first_goal_partial {st : Storage} (hst : StOK st) {ord : HashOrder} (ho : ord.OK)
    {bi : Bool} {head b : Node} {bs : List Node} {st0 st1 : Storage} {f : FV} {r : Rule}
    (hc : compileClause ord bi head (b :: bs) st0 = .ok (f, r, st1)) (hle : StLe st1 st)
    (hwf : Clause.wf ⟨head, b :: bs⟩) (hu : Clause.untangled ⟨head, b :: bs⟩ = true)
    (hh : head.isCons = false) (hb : b.isCons = false) :
    ∃ (hc bc : CAtom) (rest : List CAtom) (ny : Nat) (is js : List Instr),
      r = hc :: bc :: rest ∧ hc.instrs = allocInstrs ny ++ (is ++ [.proceed]) ∧ bc.instrs = js ++ [.call b.fv] ∧
      ∀ pre fuel (e : Exec) (args : List Nat), WF st pre e.hp → e.state = .running →
        e.regs.length = hc.regCount → (ny ≠ 0 → ∃ env es, e.envs = env :: es ∧ env.length = ny) →
        args.length = head.children.length → ArgsIn st e args →
        (runData pre fuel st is e = .error .hang ∧ ¬ (Node.varss head.children).Nodup) ∨
        ∃ e1, runData pre fuel st is e = .ok e1 ∧
          ((e1.state = .fail ∧ ∀ (σ : Nat → Tree) (ρ : Name → Tree), TreeSol (interpOf st) (e.hp.at? pre) σ →
              args.map σ ≠ head.children.map (Node.eval treeAlg ρ)) ∨
           (e1.state = .running ∧ ∃ e2 ps, runData pre fuel st js e1 = .ok e2 ∧ e2.state = .running ∧
              WF st pre e2.hp ∧ ArgsIn st e2 ps ∧
              (∀ (D : Type) (A : Alg D) (σ : Nat → D), Mod (toIAlg A (interpOf st)) (e2.hp.at? pre) σ →
                Mod (toIAlg A (interpOf st)) (e.hp.at? pre) σ ∧
                ∃ ρ : Name → D, args.map σ = head.children.map (Node.eval A ρ) ∧
                  ps.map σ = b.children.map (Node.eval A ρ)) ∧
              (∀ σ (ρ : Name → Tree), TreeSol (interpOf st) (e.hp.at? pre) σ →
                args.map σ = head.children.map (Node.eval treeAlg ρ) →
                ∃ σ', (∀ a, a < e.hp.size → σ' a = σ a) ∧ TreeSol (interpOf st) (e2.hp.at? pre) σ' ∧
                  ps.map σ' = b.children.map (Node.eval treeAlg ρ)))) := by
  have hI := interpOf_ok hst
  have hargs : ∀ n : Node, n.isCons = false → atomArgs n = n.children := by
    intro n hn; cases n <;> simp_all [atomArgs, Node.isCons]
  obtain ⟨yOf, ny, c0, bcs, S, rfl, ylt, yinj, H, F, hreg, _, _⟩ :=
    compileClause_sem hst hI ho hc hle hwf (untangled_clause ho hu)
  cases F with
  | @cons _ S' bc _ cs _ G F =>
  obtain ⟨is, hi, _, _, _, hrun⟩ := H.code
  obtain ⟨js, hj, _, _, _, grun⟩ := G.code
  refine ⟨c0, bc, cs ++ deallocAtoms ny, ny, is, js, rfl, hi, hj, ?_⟩
  intro pre fuel e args wf hs hr henv hlen hin
  have hfree := treeAlg_free hst hI
  rcases hrun pre fuel e args wf hs hr henv (by rw [hargs _ hh]; exact hlen) hin with ⟨e1, ν1, h1, q1, s1⟩ | hang
  · refine .inr ⟨e1, h1, ?_⟩
    simp only [hargs _ hh, Node.evals_eq_map] at s1
    rcases s1.state with hrun | hfail
    · refine .inr ⟨hrun, ?_⟩
      have hq := q1 hrun
      have hregs : bc.regCount = c0.regCount := hreg bc rfl
      obtain ⟨e2, ν2, h2, q2, b2⟩ := grun pre fuel ν1 e1 (by rw [hregs]; exact hq) hrun
      have hx : ∀ (i : Nat) (n : Node), b.children[i]? = some n → ∃ p : Nat, (p < e2.hp.size ∧ ∃ cell, e2.regs[i]? = some cell ∧
          cell.ptr = some p ∧ ValidCell st cell) ∧ Den (interpOf st) (e2.hp.at? pre) ν2 p n := by
        intro i n hn
        obtain ⟨cell, hcell, p, hp, hlt, hv, hd⟩ := q2.x i n (G.args i n (by rw [hargs _ hb]; exact hn))
        exact ⟨p, ⟨hlt, cell, hcell, hp, hv⟩, hd⟩
      obtain ⟨ps, hps⟩ := choose_list (k := 0) (P := fun (i : Nat) (n : Node) (p : Nat) => (p < e2.hp.size ∧ ∃ cell, e2.regs[i]? = some cell ∧
          cell.ptr = some p ∧ ValidCell st cell) ∧ Den (interpOf st) (e2.hp.at? pre) ν2 p n) (l := b.children) (by simpa using hx)
      simp only [Nat.zero_add] at hps
      have hval : ∀ (D : Type) (A : Alg D) (σ : Nat → D) (ρ : Name → D),
          Mod (toIAlg A (interpOf st)) (e2.hp.at? pre) σ → Agree ν2 σ ρ →
          ps.map σ = b.children.map (Node.eval A ρ) := by
        intro D A σ ρ m g
        apply List.ext_getElem?
        intro i
        rw [List.getElem?_map, List.getElem?_map]
        rcases hps i with ⟨h, h'⟩ | ⟨n, p, h, h', _, hd⟩
        · rw [h, h']; rfl
        · rw [h, h']; exact congrArg some (hd D A σ ρ m g)
      refine ⟨e2, ps, h2, b2.state.trans hrun, q2.good, ?_, ?_, ?_⟩
      · intro i p hp
        rcases hps i with ⟨_, h⟩ | ⟨n, p', _, h, h', _⟩
        · rw [h] at hp; cases hp
        · rw [h] at hp; cases hp; exact h'
      · intro D A σ m
        have ag : Agree ν2 σ (fun n => match ν2 n with | some a => σ a | none => σ 0) := by
          intro n a hn; simp only [hn]
        obtain ⟨m1, g1⟩ := b2.sem D A σ _ m ag
        obtain ⟨m0, g0⟩ := s1.sound hrun D A σ _ m1 g1
        exact ⟨m0, _, g0, hval D A σ _ m ag⟩
      · intro σ ρ m ha
        obtain ⟨_, σ1, a1, m1, g1⟩ := s1.complete Tree treeAlg σ ρ hfree m ha
        obtain ⟨σ2, a2, m2, g2⟩ := b2.ext Tree treeAlg σ1 ρ m1 g1
        exact ⟨σ2, fun a ha => (a2 a (Nat.lt_of_lt_of_le ha s1.size)).trans (a1 a ha), m2, hval _ _ _ _ m2 g2⟩
    · refine .inl ⟨hfail, fun σ ρ m ha => ?_⟩
      have := (s1.complete Tree treeAlg σ ρ hfree m ha).1
      rw [hfail] at this; cases this
  · exact .inl ⟨hang.1, by have := hang.2.twice; rwa [hargs _ hh] at this⟩

/-! ### The hypotheses can be met, and where the claim is false -/
namespace ClauseExamples

/-- `anc(X,Y) :- par(X,Z), anc(Z,Y).` -/
def anc : Clause := ⟨.fn n!"anc" [.var n!"X", .var n!"Y"], [.fn n!"par" [.var n!"X", .var n!"Z"], .fn n!"anc" [.var n!"Z", .var n!"Y"]]⟩

/-- `len(s(N),f(X)) :- len(N,X).` -/
def len : Clause := ⟨.fn n!"len" [.fn n!"s" [.var n!"N"], .fn n!"f" [.var n!"X"]], [.fn n!"len" [.var n!"N", .var n!"X"]]⟩

/-- `p(X,Y) :- q(Z,W).` -/
def two : Clause := ⟨.fn n!"p" [.var n!"X", .var n!"Y"], [.fn n!"q" [.var n!"Z", .var n!"W"]]⟩

/-- `p(X) :- q(a,b,X).` -/
def third : Clause := ⟨.fn n!"p" [.var n!"X"], [.fn n!"q" [.cons n!"a", .cons n!"b", .var n!"X"]]⟩

/-- Two constants (not mentioned in the clauses above) at the beginning of the storage. -/
def base : Storage := ⟨[⟨n!"c", 0⟩, ⟨n!"d", 0⟩], []⟩

/-- Address and cell the argument registers lead to when the clause, called with the constants `c` and `d`
at addresses 0 and 1, has built its first goal. -/
def firstCall (cl : Clause) (nargs : Nat) : Option (List (Nat × Cell)) :=
  match compileClause id false cl.head cl.body base with
  | .ok (_, hc :: bc :: _, st) =>
    let n := (permVars id true (cl.head :: cl.body)).length
    let e : Exec := ⟨none, ⟨0, [], [.cons 0, .cons 1]⟩, [], (List.range hc.regCount).map (fun i => .ref (min i 1) 0), .read, 0, .running, [],
      [List.replicate n .zero], none⟩
    match runData (fun _ => none) 100 st (hc.instrs.filter fun i => i.isData && i != .allocate n) e with
    | .ok e1 =>
      match runData (fun _ => none) 100 st (bc.instrs.filter (·.isData)) e1 with
      | .ok e2 => (e2.regs.take nargs).mapM fun c =>
        match c.ptr with
        | some p => match deref (fun _ => none) e2.hp p with
          | .ok a => (e2.hp.at? (fun _ => none) a).map fun c => (a, c)
          | .error _ => none
        | none => none
      | .error _ => none
    | .error _ => none
  | _ => none

/-- The hypotheses on the clause can be met; the competing clauses are excluded. -/
example : anc.untangled = true ∧ len.untangled = true ∧ two.untangled = false ∧ third.untangled = false := by decide

/-- `anc(c,d)` calls `par(c,Z)` with a new variable `Z`. -/
example : firstCall anc 2 = some [(0, .cons 0), (2, .ref 2 0)] := by decide +kernel

/-- The other hypotheses can be met: `anc` compiles, and the storage it leaves is in order. -/
example : ∃ f r st, compileClause id false anc.head anc.body base = .ok (f, r, st) ∧ StOK st ∧ anc.wf :=
  ⟨_, _, _, rfl, ⟨by decide +kernel, by decide +kernel⟩, by unfold Clause.wf; decide⟩

end ClauseExamples

open ClauseExamples in
/-- **C24 is false in general**: in `p(X,Y) :- q(Z,W).` the variables `Z`, `W` of the goal get the registers of
`X`, `Y`: called as `p(c,d)` the clause calls `q(c,d)` instead of `q(Z,W)` with two new variables. -/
theorem C24_shares_witness : firstCall two 2 = some [(0, .cons 0), (1, .cons 1)] := by decide +kernel

open ClauseExamples in
/-- **C24 is false in general**: in `p(X) :- q(a,b,X).` the constant `b` overwrites the register of `X`: called as
`p(c)` (constant 0) the clause calls `q(a,b,b)` instead of `q(a,b,c)`. -/
theorem C24_lost_witness : firstCall third 3 = some [(2, .cons 2), (3, .cons 3), (3, .cons 3)] := by decide +kernel

end PBfs
