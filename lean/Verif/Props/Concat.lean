import Verif.Props.Both
import Verif.Props.Append
/-! # C95: `append/3` with a list of known length -/
namespace PBfs
open Org

/-! ## Turns and answers of a search -/

theorem CostsA.costs {P q n a} (h : CostsA P q n a) : Costs P q n := by
  induction h with
  | nil => exact .nil
  | cons t _ _ ih1 ih2 => exact .cons t ih1 ih2

theorem CostsA.unique {P q n a} (h : CostsA P q n a) : ∀ {m b}, CostsA P q m b → n = m ∧ a = b := by
  induction h with
  | nil => intro m b h; cases h; exact ⟨rfl, rfl⟩
  | cons t _ _ ih1 ih2 =>
    intro m b h
    cases h with
    | cons t' h1 h2 =>
      obtain ⟨rfl, rfl⟩ := t.det t'
      obtain ⟨rfl, rfl⟩ := ih1 h1
      obtain ⟨rfl, rfl⟩ := ih2 h2
      exact ⟨rfl, rfl⟩

theorem CostsA.search {o o' : Org} {p atoms fuel k ts n a} (hc : CostsA (inForce p) [.goals (atoms.map (.goal ·.fv)) (Insts.query atoms)] n a) (h : Asked o p atoms)
    (hr : o.iterate fuel k = .ok (o', ts)) :
    ts.length ≤ n ∧ (n ≤ k → o'.queue = []) ∧ (o'.queue = [] → ts.length = n ∧ ((reports ts).filter Res.isAnswer).length = a) := by
  obtain ⟨h1, h2, h3⟩ := hc.costs.search h hr
  refine ⟨h1, h2, fun hq => ⟨h3.1 hq, ?_⟩⟩
  obtain ⟨items, rs, a1, a2, a3⟩ := C42_breadth_first_resolution_partial h hr
  rw [hq] at a3
  rw [← says_answers a2]
  exact ((a1.costsA (List.length_eq_zero_iff.1 a3)).unique hc).2

/-! ## The clauses of `append/3` -/

def append0 : Clause := ⟨.fn n!"append" [.fn n!"[" [], .var n!"List2", .var n!"List2"], []⟩
def append1 : Clause :=
  ⟨.fn n!"append" [.fn n!"[" [.var n!"X", .var n!"Xs"], .var n!"Ys", .fn n!"[" [.var n!"X", .var n!"Rs"]], [.fn n!"append" [.var n!"Xs", .var n!"Ys", .var n!"Rs"]]⟩

theorem append_only (p : List Clause) : (inForce p).filter (·.head.fv = ⟨n!"append", 3⟩) = [append0, append1] := by
  rw [inForce, List.filter_append, List.filter_filter]
  have h1 : (p.filter fun c => decide (c.head.fv = ⟨n!"append", 3⟩) && !builtinFVs.contains c.head.fv) = [] := by
    refine List.filter_eq_nil_iff.2 fun c _ h => ?_
    simp only [Bool.and_eq_true, decide_eq_true_eq] at h
    rw [h.1] at h
    exact absurd h.2 (by decide)
  rw [h1]
  decide

/-- Instances of a call of `append/3` whose first argument is a list of `n` elements. -/
def Calls (n : Nat) (S : Insts) : Prop := ∀ ρ gs, S ρ gs → ∃ es b c, es.length = n ∧ gs = [⟨n!"append", [properList itreeAlg es, b, c]⟩]

/-- Some of them are true. -/
def Joins (S : Insts) : Prop := ∃ ρ es b, S ρ [⟨n!"append", [properList itreeAlg es, b, listTo itreeAlg es b]⟩]

theorem properList_cons (e : ITree) (es) : properList itreeAlg (e :: es) = itreeAlg.fn n!"[" [e, properList itreeAlg es] := rfl

theorem enter0 {n S ρ gs} (hS : Calls n S) (h : (S.enter append0) ρ gs) : n = 0 ∧ ∃ b, S ρ [⟨n!"append", [properList itreeAlg [], b, b]⟩] := by
  obtain ⟨τ, rest, h1, rfl⟩ := h
  obtain ⟨es, b, c, hn, e⟩ := hS _ _ h1
  obtain ⟨e1, rfl⟩ := List.cons.inj e
  have e2 := congrArg GAtom.args e1
  obtain ⟨e3, e4⟩ := List.cons.inj e2
  cases es with
  | cons x es =>
    have := (itreeAlg_sharp.fn_inj e3).2
    cases this
  | nil => exact ⟨hn.symm, τ n!"List2", h1⟩

theorem enter1 {n S ρ gs} (hS : Calls n S) (h : (S.enter append1) ρ gs) :
    ∃ x es b r, n = es.length + 1 ∧ gs = [⟨n!"append", [properList itreeAlg es, b, r]⟩] ∧ S ρ [⟨n!"append", [properList itreeAlg (x :: es), b, itreeAlg.fn n!"[" [x, r]]⟩] := by
  obtain ⟨τ, rest, h1, rfl⟩ := h
  obtain ⟨es, b, c, hn, e⟩ := hS _ _ h1
  obtain ⟨e1, rfl⟩ := List.cons.inj e
  have e2 := congrArg GAtom.args e1
  obtain ⟨e3, e4⟩ := List.cons.inj e2
  cases es with
  | nil =>
    have := (itreeAlg_sharp.fn_inj e3).2
    cases this
  | cons x es =>
    have e5 := (itreeAlg_sharp.fn_inj e3).2
    obtain ⟨e6, e7⟩ := List.cons.inj e5
    have e8 : τ n!"Xs" = properList itreeAlg es := (List.cons.inj e7).1
    refine ⟨τ n!"X", es, τ n!"Ys", τ n!"Rs", hn.symm, ?_, ?_⟩
    · rw [← e8]; rfl
    · rw [properList_cons, ← e8]
      exact h1

theorem append0_none : NoGoal (append0.todo ++ []) := by
  rw [show append0.todo ++ [] = [] from rfl]
  intro f h
  cases h

theorem append1_some : ¬ NoGoal (append1.todo ++ []) := by
  rw [show append1.todo ++ [] = [.goal ⟨n!"append", 3⟩] from rfl]
  exact fun h => h _ (List.mem_singleton_self _)

theorem costsA_append {p} : ∀ n S, Calls n S → ∃ m a, CostsA (inForce p) [.goals [.goal ⟨n!"append", 3⟩] S] m a ∧ m ≤ 3 * (n + 1) ∧
    (Joins S ∧ m = 3 * (n + 1) ∧ a = 1 ∨ ¬ Joins S ∧ a = 0) := by
  intro n
  have call : ∀ {S n1 a1 n2 a2}, CostsA (inForce p) [.clause append0 [] S] n1 a1 → CostsA (inForce p) [.clause append1 [] S] n2 a2 →
      CostsA (inForce p) [.goals [.goal ⟨n!"append", 3⟩] S] (n1 + n2 + 1) (a1 + a2) := by
    intro S n1 a1 n2 a2 h1 h2
    have h : CostsA (inForce p) [.clause append0 [] S, .clause append1 [] S] (n1 + n2) (a1 + a2) := by
      cases h1 with
      | @cons _ _ _ _ x _ y _ t h3 h4 =>
        cases h4
        have := CostsA.cons t h3 h2
        rwa [show x + n2 + 1 = x + 0 + 1 + n2 by omega] at this
    have := CostsA.cons (STurn.call (P := inForce p) (f := ⟨n!"append", 3⟩) (ts := []) (S := S) (by decide)) (by rw [append_only]; exact h) .nil
    simpa [tellsAnswer] using this
  have reject : ∀ {S} {c : Clause}, (S.enter c).Empty → CostsA (inForce p) [.clause c [] S] 1 0 := fun h => by simpa [tellsAnswer] using CostsA.cons (STurn.reject h) .nil .nil
  induction n with
  | zero =>
    intro S hS
    have h1 := reject (S := S) (c := append1) fun ρ gs h => by
      obtain ⟨_, _, _, _, h, _⟩ := enter1 hS h
      cases h
    by_cases h0 : (S.enter append0).Empty
    · refine ⟨_, _, call (reject h0) h1, by omega, .inr ⟨?_, rfl⟩⟩
      rintro ⟨ρ, es, b, hj⟩
      obtain ⟨es', b', c', hl, e⟩ := hS _ _ hj
      have e2 := congrArg GAtom.args (List.cons.inj e).1
      have e3 := (List.cons.inj e2).1
      cases List.length_eq_zero_iff.1 hl
      cases es with
      | cons x es => cases (itreeAlg_sharp.fn_inj e3).2
      | nil => exact h0 ρ [] ⟨fun _ => b, [], hj, rfl⟩
    · have h2 : CostsA (inForce p) [.clause append0 [] S] 1 1 := by simpa [tellsAnswer] using CostsA.cons (STurn.answer (P := inForce p) h0 append0_none) .nil .nil
      refine ⟨_, _, call h2 h1, by omega, .inl ⟨?_, rfl, rfl⟩⟩
      have : ∃ ρ gs, (S.enter append0) ρ gs := Classical.byContradiction fun h => h0 fun ρ gs hg => h ⟨ρ, gs, hg⟩
      obtain ⟨ρ, gs, hg⟩ := this
      obtain ⟨_, b, hb⟩ := enter0 hS hg
      exact ⟨ρ, [], b, hb⟩
  | succ n ih =>
    intro S hS
    have h1 := reject (S := S) (c := append0) fun ρ gs h => by
      obtain ⟨h, _⟩ := enter0 hS h
      cases h
    have hj : Joins S → Joins (S.enter append1) := by
      rintro ⟨ρ, es, b, hj⟩
      obtain ⟨es', b', c', hl, e⟩ := hS _ _ hj
      have e2 := congrArg GAtom.args (List.cons.inj e).1
      have e3 := (List.cons.inj e2).1
      cases es with
      | nil =>
        cases es' with
        | nil => cases hl
        | cons x es' => cases (itreeAlg_sharp.fn_inj e3).2
      | cons x es =>
        exact ⟨ρ, es, b, fun y => if y = n!"X" then x else if y = n!"Xs" then properList itreeAlg es else if y = n!"Ys" then b else listTo itreeAlg es b, [], hj, rfl⟩
    by_cases h0 : (S.enter append1).Empty
    · refine ⟨_, _, call h1 (reject h0), by omega, .inr ⟨fun h => ?_, rfl⟩⟩
      obtain ⟨ρ, es, b, h⟩ := hj h
      exact h0 _ _ h
    · obtain ⟨m, a, h2, h3, h4⟩ := ih (S.enter append1) fun ρ gs h => by
        obtain ⟨x, es, b, r, e1, e2, _⟩ := enter1 hS h
        exact ⟨es, b, r, by omega, e2⟩
      have h5 : CostsA (inForce p) [.clause append1 [] S] (m + 0 + 1) (0 + a + 0) := CostsA.cons (STurn.enter (P := inForce p) h0 append1_some) h2 .nil
      refine ⟨_, _, call h1 h5, by omega, ?_⟩
      rcases h4 with ⟨h6, h7, h8⟩ | ⟨h6, h7⟩
      · refine .inl ⟨?_, by omega, by omega⟩
        obtain ⟨ρ, es, b, hg⟩ := h6
        obtain ⟨x, es', b', r, e1, e2, hs⟩ := enter1 hS hg
        have e3 := congrArg GAtom.args (List.cons.inj e2).1
        obtain ⟨e4, e5⟩ := List.cons.inj e3
        obtain ⟨e6, e7⟩ := List.cons.inj e5
        refine ⟨ρ, x :: es, b, ?_⟩
        rw [properList_cons, e4, ← properList_cons, e6]
        show S ρ [⟨n!"append", [_, b', itreeAlg.fn n!"[" [x, listTo itreeAlg es b']]⟩]
        rw [← e6, (List.cons.inj e7).1, e6]
        exact hs
      · exact .inr ⟨fun h => h6 (hj h), by omega⟩

theorem eval_list {ρ : Name → ITree} : ∀ es : List Node, (Node.list es).eval itreeAlg ρ = properList itreeAlg (es.map (·.eval itreeAlg ρ))
  | [] => rfl
  | e :: es => by
    have := eval_list (ρ := ρ) es
    simp only [Node.list, Node.listWith, Node.eval, Node.evals, List.map_cons, properList_cons] at this ⊢
    rw [this]

theorem properList_inj : ∀ {xs ys : List ITree}, properList itreeAlg xs = properList itreeAlg ys → xs = ys
  | [], [], _ => rfl
  | [], _ :: _, h => by cases (itreeAlg_sharp.fn_inj h).2
  | _ :: _, [], h => by cases (itreeAlg_sharp.fn_inj h).2
  | x :: xs, y :: ys, h => by
    obtain ⟨h1, h2⟩ := List.cons.inj (itreeAlg_sharp.fn_inj h).2
    rw [h1, properList_inj (List.cons.inj h2).1]

/-! ## The theorem -/

/-- **C95**: `append([e₁,…,eₙ],y,z)` in any program, where the terms may contain variables anywhere.  The search ends after at most `3(n+1)` iterations.  If
`z` and the list `e₁,…,eₙ` with `y` for its end have a common instance (in trees that may be infinite, as unification is without occurs check), it takes
exactly `3(n+1)` iterations and reports exactly one answer; otherwise it reports none. -/
theorem C95_append {o o' : Org} {p es y z fuel k ts} (h : Asked o p [.fn n!"append" [Node.list es, y, z]]) (hr : o.iterate fuel k = .ok (o', ts)) :
    ts.length ≤ 3 * (es.length + 1) ∧ (3 * (es.length + 1) ≤ k → o'.queue = []) ∧
    (o'.queue = [] →
      ((∃ ρ, z.eval itreeAlg ρ = listTo itreeAlg (es.map (·.eval itreeAlg ρ)) (y.eval itreeAlg ρ)) →
        ts.length = 3 * (es.length + 1) ∧ ((reports ts).filter Res.isAnswer).length = 1) ∧
      ((¬ ∃ ρ, z.eval itreeAlg ρ = listTo itreeAlg (es.map (·.eval itreeAlg ρ)) (y.eval itreeAlg ρ)) →
        ((reports ts).filter Res.isAnswer).length = 0)) := by
  have hi : ∀ ρ gs, Insts.query [.fn n!"append" [Node.list es, y, z]] ρ gs ↔
      gs = [⟨n!"append", [properList itreeAlg (es.map (·.eval itreeAlg ρ)), y.eval itreeAlg ρ, z.eval itreeAlg ρ]⟩] := by
    intro ρ gs
    rw [← eval_list]
    exact Iff.rfl
  obtain ⟨m, a, h1, h2, h3⟩ := costsA_append (p := p) es.length (Insts.query [.fn n!"append" [Node.list es, y, z]])
    fun ρ gs hg => ⟨_, _, _, by simp, (hi ρ gs).1 hg⟩
  obtain ⟨a1, a2, a3⟩ := CostsA.search h1 h hr
  have hj : Joins (Insts.query [.fn n!"append" [Node.list es, y, z]]) ↔
      ∃ ρ, z.eval itreeAlg ρ = listTo itreeAlg (es.map (·.eval itreeAlg ρ)) (y.eval itreeAlg ρ) := by
    constructor
    · rintro ⟨ρ, xs, b, hg⟩
      have e := congrArg GAtom.args (List.cons.inj ((hi _ _).1 hg)).1
      obtain ⟨e1, e2⟩ := List.cons.inj e
      obtain ⟨e3, e4⟩ := List.cons.inj e2
      rw [properList_inj e1, e3] at e4
      exact ⟨ρ, (List.cons.inj e4).1.symm⟩
    · rintro ⟨ρ, e⟩
      refine ⟨ρ, es.map (·.eval itreeAlg ρ), y.eval itreeAlg ρ, (hi _ _).2 ?_⟩
      rw [e]
  rw [hj] at h3
  refine ⟨by omega, fun hk => a2 (by omega), fun hq => ?_⟩
  obtain ⟨b1, b2⟩ := a3 hq
  rcases h3 with ⟨c1, c2, c3⟩ | ⟨c1, c2⟩
  · exact ⟨fun _ => ⟨by omega, by omega⟩, fun hn => absurd c1 hn⟩
  · exact ⟨fun hn => absurd hn c1, fun _ => by omega⟩

end PBfs

namespace PBfs.ConcatExamples
open PBfs Org SoundExamples

/-- `append([A,b],Y,[a|Z])`: variables in all three arguments. -/
def ask : List Node := [.fn n!"append" [Node.list [.var n!"A", .cons n!"b"], .var n!"Y", Node.listWith (.var n!"Z") [.cons n!"a"]]]

/-- `append([a,b],Y,[Z])`: the third list is too short. -/
def askShort : List Node := [.fn n!"append" [Node.list [.cons n!"a", .cons n!"b"], .var n!"Y", Node.list [.var n!"Z"]]]

/-- The hypotheses of C95 are met, with a common instance: 9 iterations and one answer. -/
example : Asked (demo [] ask) [] ask ∧
    ((demo [] ask).iterate 40 100).toOption.map (fun r => (r.2.length, r.1.queue.length, ((reports r.2).filter Res.isAnswer).length)) = some (9, 0, 1) :=
  ⟨asked_demo (by decide +kernel) (by decide +kernel) (safe_of_b (by decide +kernel)) (by decide) (by simp [ask]) (by decide +kernel), by decide +kernel⟩

/-- They are met without a common instance as well: the search ends early and without an answer. -/
example : Asked (demo [] askShort) [] askShort ∧
    ((demo [] askShort).iterate 40 100).toOption.map (fun r => (r.2.length, r.1.queue.length, ((reports r.2).filter Res.isAnswer).length)) = some (6, 0, 0) :=
  ⟨asked_demo (by decide +kernel) (by decide +kernel) (safe_of_b (by decide +kernel)) (by decide) (by simp [askShort]) (by decide +kernel), by decide +kernel⟩

end PBfs.ConcatExamples
