import Verif.Proof.Load
import Verif.Props.Builtins
/-! # C12 – C16: the predicates `==/2`, `\==/2`, `is/2` as they are called by programs -/
namespace PBfs

/-- The predicate `f` has one rule without a body; its code, which ends with `proceed`, takes `n` registers and does
`ds` before that. -/
def Org.Code (o : Org) (f : FV) (n : Nat) (ds : List Instr) : Prop :=
  ∃ sub src, o.program.rules? f = some [[⟨n, ds ++ [.proceed], sub, src, false⟩]]

/-- A call: the arguments are in the registers 0 and 1, and the code `ds` is executed with `n` registers. -/
def callRun (pre : Nat → Option Cell) (fuel : Nat) (st : Storage) (n : Nat) (ds : List Instr) (e : Exec) : R Exec :=
  runData pre fuel st ds { e with regs := Org.resize n e.regs }

/-- The code of a built-in predicate hands over its first argument as left, its second as right operand. -/
theorem Serves.code {o : Org} {ord p} (hs : Serves o ord p) (b : Builtin) : ∃ n ds, o.Code ⟨b.name, 2⟩ n ds ∧
    ∀ {st pre fuel e x y}, TwoArgs st pre e 0 1 x y → ∃ regs l r, TwoArgs st pre { e with regs := regs } l r x y ∧
      callRun pre fuel st n ds e = stepData pre fuel st (.builtin b l r) { e with regs := regs } := by
  have inv := hs.inv
  obtain ⟨sub, src, h⟩ := inv.builtins.own b
  refine ⟨4, [.getVariable 2 0, .getVariable 3 1, .builtin b 2 3], ⟨sub, src, ?_⟩, ?_⟩
  · rw [inv.own _ (by cases b <;> simp [builtinFVs, Builtin.name]), h]; rfl
  · intro st pre fuel e x y T
    obtain ⟨c0, a0, b0⟩ := T.left
    obtain ⟨c1, a1, b1⟩ := T.right
    have r0 : (Org.resize 4 e.regs)[0]? = some c0 := resize_get a0 (by omega)
    have r1 : (Org.resize 4 e.regs)[1]? = some c1 := resize_get a1 (by omega)
    have hl := resize_length 4 e.regs
    unfold callRun
    generalize Org.resize 4 e.regs = rs at *
    obtain ⟨x2, x3, rfl⟩ : ∃ x2 x3, rs = [c0, c1, x2, x3] := by
      match rs, hl with
      | [x0, x1, x2, x3], _ => cases r0; cases r1; exact ⟨x2, x3, rfl⟩
    refine ⟨[c0, c1, c0, c1], 2, 3, ⟨T.wf, ⟨c0, rfl, b0⟩, ⟨c1, rfl, b1⟩, T.la, T.lb, T.run⟩, ?_⟩
    have s1 : stepData pre fuel st (.getVariable 2 0) { e with regs := [c0, c1, x2, x3] } = .ok { e with regs := [c0, c1, c0, x3] } := rfl
    have s2 : stepData pre fuel st (.getVariable 3 1) { e with regs := [c0, c1, c0, x3] } = .ok { e with regs := [c0, c1, c0, c1] } := rfl
    have f1 : Exec.failed { e with regs := [c0, c1, c0, x3] } = false := by simp [Exec.failed, T.run]
    have f2 : Exec.failed { e with regs := [c0, c1, c0, c1] } = false := by simp [Exec.failed, T.run]
    rw [runData, s1]
    simp only [ok_bind, f1, Bool.false_eq_true, if_false]
    rw [runData, s2]
    simp only [ok_bind, f2, Bool.false_eq_true, if_false]
    rw [runData]
    simp only [runData]
    cases stepData pre fuel st (.builtin b 2 3) { e with regs := [c0, c1, c0, c1] } with
    | error => rfl
    | ok e1 => simp [ok_bind, pure, Except.pure]

/-- **C12, for the predicate**: whatever has happened before, a call `X == Y` succeeds exactly if its two
arguments stand for the same finite term, and binds nothing: heap and environments are those of the caller. -/
theorem C12_predicate {o : Org} {ord p} (hs : Serves o ord p) : ∃ n ds, o.Code ⟨n!"==", 2⟩ n ds ∧
    ∀ {st pre fuel e x y}, TwoArgs st pre e 0 1 x y →
      (∀ e', callRun pre fuel st n ds e = .ok e' → e'.hp = e.hp ∧ e'.envs = e.envs ∧
        (e'.state = .running ∧ (∃ t, Reads (e.hp.at? pre) x t ∧ Reads (e.hp.at? pre) y t) ∨
         e'.state = .fail ∧ ¬ ∃ t, Reads (e.hp.at? pre) x t ∧ Reads (e.hp.at? pre) y t)) ∧
      ∀ s, Reads (e.hp.at? pre) x s ∨ Reads (e.hp.at? pre) y s → s.depth < fuel → ∃ e', callRun pre fuel st n ds e = .ok e' := by
  obtain ⟨n, ds, h1, h2⟩ := hs.code .eq
  refine ⟨n, ds, h1, fun {st pre fuel e x y} T => ?_⟩
  obtain ⟨regs, l, r, T', he⟩ := h2 (fuel := fuel) T
  rw [he]
  refine ⟨fun e' h => ?_, (C12_eq_is_identity T').2⟩
  rcases (C12_eq_is_identity T').1 e' h with ⟨rfl, ht⟩ | ⟨rfl, ht⟩
  · exact ⟨rfl, rfl, .inl ⟨T.run, ht⟩⟩
  · exact ⟨rfl, rfl, .inr ⟨rfl, ht⟩⟩

/-- **C13, for the predicate**: a call `X \== Y` succeeds exactly if the arguments are not the same finite
term, and binds nothing. -/
theorem C13_predicate {o : Org} {ord p} (hs : Serves o ord p) : ∃ n ds, o.Code ⟨n!"\\==", 2⟩ n ds ∧
    ∀ {st pre fuel e x y e'}, TwoArgs st pre e 0 1 x y → callRun pre fuel st n ds e = .ok e' →
      e'.hp = e.hp ∧ e'.envs = e.envs ∧
      (e'.state = .fail ∧ (∃ t, Reads (e.hp.at? pre) x t ∧ Reads (e.hp.at? pre) y t) ∨
       e'.state = .running ∧ ¬ ∃ t, Reads (e.hp.at? pre) x t ∧ Reads (e.hp.at? pre) y t) := by
  obtain ⟨n, ds, h1, h2⟩ := hs.code .neq
  refine ⟨n, ds, h1, fun {st pre fuel e x y e'} T h => ?_⟩
  obtain ⟨regs, l, r, T', he⟩ := h2 (fuel := fuel) T
  rw [he] at h
  have hc := C13_neq_complement (st := st) (pre := pre) (fuel := fuel) (l := l) (r := r) T'.run
  cases hq : stepData pre fuel st (.builtin .eq l r) { e with regs := regs } with
  | error f => rw [hq] at hc; simp only at hc; rw [hc] at h; cases h
  | ok e1 =>
    rw [hq] at hc
    simp only at hc
    have h12 := (C12_eq_is_identity T').1 e1 hq
    have ne : { e with regs := regs } ≠ Exec.setFailed { e with regs := regs } := by
      intro h
      have := congrArg Exec.state h
      rw [T'.run] at this; cases this
    rcases hc with ⟨rfl, hc⟩ | ⟨rfl, hc⟩ <;> rw [hc] at h <;> cases h
    · rcases h12 with ⟨_, ht⟩ | ⟨h, _⟩
      · exact ⟨rfl, rfl, .inl ⟨rfl, ht⟩⟩
      · exact absurd h ne
    · rcases h12 with ⟨h, _⟩ | ⟨_, ht⟩
      · exact absurd h.symm ne
      · exact ⟨rfl, rfl, .inr ⟨T.run, ht⟩⟩

/-- **C14, for the predicate**: a call `X is E` evaluates its second argument and compares the value with, or
gives it to, its first argument. -/
theorem C14_predicate {o : Org} {ord p} (hs : Serves o ord p) : ∃ n ds, o.Code ⟨n!"is", 2⟩ n ds ∧
    ∀ {st pre fuel e x y t v s}, TwoArgs st pre e 0 1 x y → Reads (e.hp.at? pre) y t → t.Value (fun _ _ _ => False) v → t.depth < fuel →
      Reads (e.hp.at? pre) x s → (∀ d, s = .var d → d < e.hp.start) →
      ∃ regs e', callRun pre fuel st n ds e = .ok e' ∧ IsDone pre { e with regs := regs } x s v e' := by
  obtain ⟨n, ds, h1, h2⟩ := hs.code .is
  refine ⟨n, ds, h1, fun {st pre fuel e x y t v s} T hy hv hf hx hd => ?_⟩
  obtain ⟨regs, l, r, T', he⟩ := h2 (fuel := fuel) T
  rw [he]
  exact ⟨regs, C14_is_exact T' hy hv hf hx hd⟩

/-- **C16, for the predicate (part that holds)**: the same for powers that a `float` can represent. -/
theorem C16_predicate_partial {o : Org} {ord p} (hs : Serves o ord p) : ∃ n ds, o.Code ⟨n!"is", 2⟩ n ds ∧
    ∀ {st pre fuel e x y t v s}, TwoArgs st pre e 0 1 x y → Reads (e.hp.at? pre) y t → t.Value FloatPow v → t.depth < fuel →
      Reads (e.hp.at? pre) x s → (∀ d, s = .var d → d < e.hp.start) →
      ∃ regs e', callRun pre fuel st n ds e = .ok e' ∧ IsDone pre { e with regs := regs } x s v e' := by
  obtain ⟨n, ds, h1, h2⟩ := hs.code .is
  refine ⟨n, ds, h1, fun {st pre fuel e x y t v s} T hy hv hf hx hd => ?_⟩
  obtain ⟨regs, l, r, T', he⟩ := h2 (fuel := fuel) T
  rw [he]
  exact ⟨regs, C16_pow_exact_partial T' hy hv hf hx hd⟩

/-- **C15, for the predicate (part that holds)**: what `C15_error_kinds_partial` says of the right operand
holds of the second argument of `is`. -/
theorem C15_predicate_partial {o : Org} {ord p} (hs : Serves o ord p) : ∃ n ds, o.Code ⟨n!"is", 2⟩ n ds ∧
    ∀ {st pre fuel e x y t e'}, TwoArgs st pre e 0 1 x y → Reads (e.hp.at? pre) y t → callRun pre fuel st n ds e = .ok e' →
      (∃ err, e'.state = .rtErr ∧ e'.err = some err ∧ t.Bad err.kind ∧ ∀ v, ¬ t.Value MachinePow v) ∨
      (e'.state ≠ .rtErr ∧ (∃ v, t.Value MachinePow v) ∧ ∀ k, ¬ t.Bad k) := by
  obtain ⟨n, ds, h1, h2⟩ := hs.code .is
  refine ⟨n, ds, h1, fun {st pre fuel e x y t e'} T hy h => ?_⟩
  obtain ⟨regs, l, r, T', he⟩ := h2 (fuel := fuel) T
  rw [he] at h
  rcases (C15_error_kinds_partial (fuel := fuel) T' hy).1 e' h with ⟨err, rfl, hb⟩ | h
  · exact .inl ⟨err, rfl, rfl, hb⟩
  · exact .inr h

namespace BuiltinExamples
/-- The hypotheses are met: `X is 7 - 2 * 3` is called, `X` being at 0. -/
example : (∃ o ord, Serves o ord []) ∧ TwoArgs st (fun _ => none) exec 0 1 0 1 :=
  ⟨⟨_, id, .init Org.init_eq⟩, args 0 1 0 1 (by omega) (by omega) rfl rfl⟩
end BuiltinExamples
end PBfs
