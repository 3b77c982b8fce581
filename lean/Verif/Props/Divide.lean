import Verif.Props.Concat
/-! # C96: `append/3` with a third list of known length -/
namespace PBfs
open Org

open Classical in
/-- How many of the numbers below `n` have the property. -/
noncomputable def howMany : Nat → (Nat → Prop) → Nat
  | 0, _ => 0
  | n + 1, Q => (if Q 0 then 1 else 0) + howMany n fun i => Q (i + 1)

theorem howMany_congr : ∀ {n} {Q Q' : Nat → Prop}, (∀ i, i < n → (Q i ↔ Q' i)) → howMany n Q = howMany n Q'
  | 0, _, _, _ => rfl
  | n + 1, Q, Q', h => by
    have h0 := h 0 (by omega)
    simp only [howMany]
    rw [howMany_congr fun i hi => h (i + 1) (by omega)]
    by_cases hq : Q 0
    · rw [if_pos hq, if_pos (h0.1 hq)]
    · rw [if_neg hq, if_neg fun h => hq (h0.2 h)]

theorem howMany_none : ∀ {n} {Q : Nat → Prop}, (∀ i, i < n → ¬ Q i) → howMany n Q = 0
  | 0, _, _ => rfl
  | n + 1, Q, h => by
    simp only [howMany, h 0 (by omega), if_false]
    rw [howMany_none fun i hi => h (i + 1) (by omega)]

theorem howMany_all : ∀ {n} {Q : Nat → Prop}, (∀ i, i < n → Q i) → howMany n Q = n
  | 0, _, _ => rfl
  | n + 1, Q, h => by
    simp only [howMany, h 0 (by omega), if_true]
    rw [howMany_all fun i hi => h (i + 1) (by omega)]
    omega

theorem howMany_le : ∀ {n} {Q : Nat → Prop}, howMany n Q ≤ n
  | 0, _ => Nat.le_refl 0
  | n + 1, Q => by
    have := howMany_le (n := n) (Q := fun i => Q (i + 1))
    simp only [howMany]
    split <;> omega

theorem costsA_call {p S n1 a1 n2 a2} (h1 : CostsA (inForce p) [.clause append0 [] S] n1 a1) (h2 : CostsA (inForce p) [.clause append1 [] S] n2 a2) :
    CostsA (inForce p) [.goals [.goal ⟨n!"append", 3⟩] S] (n1 + n2 + 1) (a1 + a2) := by
  have h : CostsA (inForce p) [.clause append0 [] S, .clause append1 [] S] (n1 + n2) (a1 + a2) := by
    cases h1 with
    | @cons _ _ _ _ x _ y _ t h3 h4 =>
      cases h4
      have := CostsA.cons t h3 h2
      rwa [show x + n2 + 1 = x + 0 + 1 + n2 by omega] at this
  have := CostsA.cons (STurn.call (P := inForce p) (f := ⟨n!"append", 3⟩) (ts := []) (S := S) (by decide)) (by rw [append_only]; exact h) .nil
  simpa [tellsAnswer] using this

/-- Instances of a call of `append/3` whose third argument is a list of `n` elements. -/
def CallsOn (n : Nat) (S : Insts) : Prop := ∀ ρ gs, S ρ gs → ∃ a b es, es.length = n ∧ gs = [⟨n!"append", [a, b, properList itreeAlg es]⟩]

/-- For some of them the first argument is the list of the first `i` elements and the second that of the others. -/
def Divides (S : Insts) (i : Nat) : Prop :=
  ∃ ρ es, S ρ [⟨n!"append", [properList itreeAlg (es.take i), properList itreeAlg (es.drop i), properList itreeAlg es]⟩]

/-- For some of them the first argument is the first `i` elements with any end. -/
def BeginsOn (S : Insts) (i : Nat) : Prop :=
  ∃ ρ es t b, S ρ [⟨n!"append", [listTo itreeAlg (es.take i) t, b, properList itreeAlg es]⟩]

theorem entered0 {n S} (hS : CallsOn n S) : (∃ ρ gs, (S.enter append0) ρ gs) ↔ Divides S 0 := by
  constructor
  · rintro ⟨ρ, gs, τ, rest, h1, rfl⟩
    obtain ⟨a, b, es, hn, e⟩ := hS _ _ h1
    obtain ⟨e1, rfl⟩ := List.cons.inj e
    have e2 := congrArg GAtom.args e1
    obtain ⟨_, e4⟩ := List.cons.inj e2
    obtain ⟨_, e5⟩ := List.cons.inj e4
    have e6 : τ n!"List2" = properList itreeAlg es := (List.cons.inj e5).1
    refine ⟨ρ, es, ?_⟩
    show S ρ [⟨n!"append", [itreeAlg.fn n!"[" [], properList itreeAlg es, properList itreeAlg es]⟩]
    rw [← e6]
    exact h1
  · rintro ⟨ρ, es, h⟩
    exact ⟨ρ, [], fun _ => properList itreeAlg es, [], h, rfl⟩

theorem entered1 {n S ρ gs} (hS : CallsOn n S) (h : (S.enter append1) ρ gs) :
    ∃ x es a b, n = es.length + 1 ∧ gs = [⟨n!"append", [a, b, properList itreeAlg es]⟩] ∧
      S ρ [⟨n!"append", [itreeAlg.fn n!"[" [x, a], b, properList itreeAlg (x :: es)]⟩] := by
  obtain ⟨τ, rest, h1, rfl⟩ := h
  obtain ⟨a, b, es, hn, e⟩ := hS _ _ h1
  obtain ⟨e1, rfl⟩ := List.cons.inj e
  have e2 := congrArg GAtom.args e1
  obtain ⟨_, e3⟩ := List.cons.inj e2
  obtain ⟨_, e4⟩ := List.cons.inj e3
  have e5 := (List.cons.inj e4).1
  cases es with
  | nil => cases (itreeAlg_sharp.fn_inj e5).2
  | cons x es =>
    obtain ⟨e6, e7⟩ := List.cons.inj (itreeAlg_sharp.fn_inj e5).2
    have e8 : τ n!"Rs" = properList itreeAlg es := (List.cons.inj e7).1
    refine ⟨τ n!"X", es, τ n!"Xs", τ n!"Ys", hn.symm, ?_, ?_⟩
    · rw [← e8]; rfl
    · rw [properList_cons, ← e8]
      exact h1

theorem divides_succ {n S} (hS : CallsOn (n + 1) S) (i : Nat) : Divides S (i + 1) ↔ Divides (S.enter append1) i := by
  constructor
  · rintro ⟨ρ, es, h⟩
    obtain ⟨a, b, es', hn, e⟩ := hS _ _ h
    have e2 := congrArg GAtom.args (List.cons.inj e).1
    have e3 := properList_inj (List.cons.inj (List.cons.inj (List.cons.inj e2).2).2).1
    subst e3
    cases es with
    | nil => cases hn
    | cons x es =>
      exact ⟨ρ, es, fun y => if y = n!"X" then x else if y = n!"Xs" then properList itreeAlg (es.take i) else if y = n!"Ys" then properList itreeAlg (es.drop i) else
        properList itreeAlg es, [], h, rfl⟩
  · rintro ⟨ρ, es, h⟩
    obtain ⟨x, es', a, b, _, e, hs⟩ := entered1 hS h
    have e2 := congrArg GAtom.args (List.cons.inj e).1
    obtain ⟨e3, e4⟩ := List.cons.inj e2
    obtain ⟨e5, e6⟩ := List.cons.inj e4
    have e7 := properList_inj (List.cons.inj e6).1
    subst e7
    refine ⟨ρ, x :: es, ?_⟩
    show S ρ [⟨n!"append", [itreeAlg.fn n!"[" [x, properList itreeAlg (es.take i)], properList itreeAlg (es.drop i), _]⟩]
    rw [e3, e5]
    exact hs

theorem begins_succ {n S} (hS : CallsOn (n + 1) S) (i : Nat) : BeginsOn S (i + 1) ↔ BeginsOn (S.enter append1) i := by
  constructor
  · rintro ⟨ρ, es, t, b, h⟩
    obtain ⟨a, b', es', hn, e⟩ := hS _ _ h
    have e2 := congrArg GAtom.args (List.cons.inj e).1
    have e3 := properList_inj (List.cons.inj (List.cons.inj (List.cons.inj e2).2).2).1
    subst e3
    cases es with
    | nil => cases hn
    | cons x es =>
      exact ⟨ρ, es, t, b, fun y => if y = n!"X" then x else if y = n!"Xs" then listTo itreeAlg (es.take i) t else if y = n!"Ys" then b else
        properList itreeAlg es, [], h, rfl⟩
  · rintro ⟨ρ, es, t, b, h⟩
    obtain ⟨x, es', a, b', _, e, hs⟩ := entered1 hS h
    have e2 := congrArg GAtom.args (List.cons.inj e).1
    obtain ⟨e3, e4⟩ := List.cons.inj e2
    obtain ⟨e5, e6⟩ := List.cons.inj e4
    have e7 := properList_inj (List.cons.inj e6).1
    subst e7
    refine ⟨ρ, x :: es, t, b, ?_⟩
    show S ρ [⟨n!"append", [itreeAlg.fn n!"[" [x, listTo itreeAlg (es.take i) t], b, _]⟩]
    rw [e3, e5]
    exact hs

theorem Divides.begins {S i} : Divides S i → BeginsOn S i := fun ⟨ρ, es, h⟩ => ⟨ρ, es, itreeAlg.fn n!"[" [], _, h⟩

theorem costsA_divide {p} : ∀ n S, CallsOn n S →
    CostsA (inForce p) [.goals [.goal ⟨n!"append", 3⟩] S] (3 * (1 + howMany n fun i => BeginsOn S (i + 1))) (howMany (n + 1) (Divides S)) := by
  have reject : ∀ {S} {c : Clause}, (S.enter c).Empty → CostsA (inForce p) [.clause c [] S] 1 0 := fun h => by simpa [tellsAnswer] using CostsA.cons (STurn.reject h) .nil .nil
  have first : ∀ {n S}, CallsOn n S → CostsA (inForce p) [.clause append0 [] S] 1 (howMany 1 (Divides S)) := by
    intro n S hS
    by_cases h : Divides S 0
    · have h0 : ¬ (S.enter append0).Empty := fun he => by
        obtain ⟨ρ, gs, hg⟩ := (entered0 hS).2 h
        exact he ρ gs hg
      simp only [howMany, if_pos h]
      simpa [tellsAnswer] using CostsA.cons (STurn.answer (P := inForce p) h0 append0_none) .nil .nil
    · simp only [howMany, if_neg h]
      exact reject fun ρ gs hg => h ((entered0 hS).1 ⟨ρ, gs, hg⟩)
  intro n
  induction n with
  | zero =>
    intro S hS
    have h1 := reject (S := S) (c := append1) fun ρ gs h => by
      obtain ⟨_, _, _, _, h, _⟩ := entered1 hS h
      cases h
    exact costsA_call (first hS) h1
  | succ n ih =>
    intro S hS
    have hE : CallsOn n (S.enter append1) := fun ρ gs h => by
      obtain ⟨x, es, a, b, e1, e2, _⟩ := entered1 hS h
      exact ⟨a, b, es, by omega, e2⟩
    have ed : howMany (n + 2) (Divides S) = howMany 1 (Divides S) + howMany (n + 1) (Divides (S.enter append1)) := by
      rw [howMany_congr (Q := Divides (S.enter append1)) fun i _ => (divides_succ hS i).symm]
      simp only [howMany]
      omega
    have eb : (howMany (n + 1) fun i => BeginsOn S (i + 1)) = howMany (n + 1) (BeginsOn (S.enter append1)) := howMany_congr fun i _ => begins_succ hS i
    by_cases h0 : (S.enter append1).Empty
    · have h2 := costsA_call (first hS) (reject h0)
      have e1 : howMany (n + 1) (Divides (S.enter append1)) = 0 := howMany_none fun i _ ⟨ρ, es, h⟩ => h0 _ _ h
      have e2 : howMany (n + 1) (BeginsOn (S.enter append1)) = 0 := howMany_none fun i _ ⟨ρ, es, t, b, h⟩ => h0 _ _ h
      rw [ed, eb, e1, e2]
      exact h2
    · have h5 := CostsA.cons (STurn.enter (P := inForce p) h0 append1_some) (ih _ hE) .nil
      have h2 := costsA_call (first hS) h5
      have hb : BeginsOn (S.enter append1) 0 := by
        have : ∃ ρ gs, (S.enter append1) ρ gs := Classical.byContradiction fun h => h0 fun ρ gs hg => h ⟨ρ, gs, hg⟩
        obtain ⟨ρ, gs, hg⟩ := this
        obtain ⟨a, b, es, _, rfl⟩ := hE _ _ hg
        exact ⟨ρ, es, a, b, hg⟩
      have e2 : howMany (n + 1) (BeginsOn (S.enter append1)) = 1 + howMany n fun i => BeginsOn (S.enter append1) (i + 1) := by
        simp only [howMany, if_pos hb]
      rw [ed, eb, e2]
      refine cast ?_ h2
      congr 1
      · omega
      · simp [tellsAnswer]

/-! ## The theorem -/

/-- **C96**: `append(x,y,[e₁,…,eₙ])` in any program, where the terms may contain variables anywhere.  The search ends after at most `3(n+1)` iterations:
three, and three more for each `i` from 1 to `n` such that `x` and the list of the first `i` elements with some end have a common instance.  It reports exactly
one answer for each `i` from 0 to `n` such that `x` and the list of the first `i` elements have a common instance under which `y` is the list of the others
(in trees that may be infinite, as unification is without occurs check). -/
theorem C96_append {o o' : Org} {p es x y fuel k ts} (h : Asked o p [.fn n!"append" [x, y, Node.list es]]) (hr : o.iterate fuel k = .ok (o', ts)) :
    ts.length ≤ 3 * (es.length + 1) ∧ (3 * (es.length + 1) ≤ k → o'.queue = []) ∧
    (o'.queue = [] →
      ts.length = 3 * (1 + howMany es.length fun i => ∃ ρ t, x.eval itreeAlg ρ = listTo itreeAlg ((es.map (·.eval itreeAlg ρ)).take (i + 1)) t) ∧
      ((reports ts).filter Res.isAnswer).length = howMany (es.length + 1) fun i => ∃ ρ,
        x.eval itreeAlg ρ = properList itreeAlg ((es.map (·.eval itreeAlg ρ)).take i) ∧ y.eval itreeAlg ρ = properList itreeAlg ((es.map (·.eval itreeAlg ρ)).drop i)) := by
  have hi : ∀ ρ gs, Insts.query [.fn n!"append" [x, y, Node.list es]] ρ gs ↔
      gs = [⟨n!"append", [x.eval itreeAlg ρ, y.eval itreeAlg ρ, properList itreeAlg (es.map (·.eval itreeAlg ρ))]⟩] := by
    intro ρ gs
    rw [← eval_list]
    exact Iff.rfl
  have h1 := costsA_divide (p := p) es.length (Insts.query [.fn n!"append" [x, y, Node.list es]]) fun ρ gs hg => ⟨_, _, _, by simp, (hi ρ gs).1 hg⟩
  obtain ⟨a1, a2, a3⟩ := CostsA.search h1 h hr
  have hle := howMany_le (n := es.length) (Q := fun i => BeginsOn (Insts.query [.fn n!"append" [x, y, Node.list es]]) (i + 1))
  refine ⟨by omega, fun hk => a2 (by omega), fun hq => ?_⟩
  obtain ⟨b1, b2⟩ := a3 hq
  rw [b1, b2]
  constructor
  · congr 2
    refine howMany_congr fun i _ => ⟨?_, ?_⟩
    · rintro ⟨ρ, xs, t, b, hg⟩
      have e := congrArg GAtom.args (List.cons.inj ((hi _ _).1 hg)).1
      obtain ⟨e1, e2⟩ := List.cons.inj e
      obtain ⟨e3, e4⟩ := List.cons.inj e2
      have e5 := properList_inj (List.cons.inj e4).1
      subst e5
      exact ⟨ρ, t, e1.symm⟩
    · rintro ⟨ρ, t, e⟩
      refine ⟨ρ, es.map (·.eval itreeAlg ρ), t, y.eval itreeAlg ρ, (hi _ _).2 ?_⟩
      rw [e]
  · refine howMany_congr fun i _ => ⟨?_, ?_⟩
    · rintro ⟨ρ, xs, hg⟩
      have e := congrArg GAtom.args (List.cons.inj ((hi _ _).1 hg)).1
      obtain ⟨e1, e2⟩ := List.cons.inj e
      obtain ⟨e3, e4⟩ := List.cons.inj e2
      have e5 := properList_inj (List.cons.inj e4).1
      subst e5
      exact ⟨ρ, e1.symm, e3.symm⟩
    · rintro ⟨ρ, e1, e2⟩
      refine ⟨ρ, es.map (·.eval itreeAlg ρ), (hi _ _).2 ?_⟩
      rw [e1, e2]

/-- **C96, all ways**: with two different variables that are not in the list, whatever the list contains, the search takes exactly `3(n+1)` iterations and reports exactly
`n+1` answers. -/
theorem C96_all {o o' : Org} {p es v w fuel k ts} (h : Asked o p [.fn n!"append" [.var v, .var w, Node.list es]]) (hvw : v ≠ w)
    (hv : ∀ e ∈ es, v ∉ e.vars) (hw : ∀ e ∈ es, w ∉ e.vars) (hr : o.iterate fuel k = .ok (o', ts)) (hq : o'.queue = []) :
    ts.length = 3 * (es.length + 1) ∧ ((reports ts).filter Res.isAnswer).length = es.length + 1 := by
  obtain ⟨_, _, h3⟩ := C96_append h hr
  obtain ⟨h4, h5⟩ := h3 hq
  have hc : ∀ (f : List ITree → ITree × ITree), ∃ ρ : Name → ITree, f (es.map (·.eval itreeAlg ρ)) = (ρ v, ρ w) := by
    intro f
    let ρ0 : Name → ITree := fun _ => itreeAlg.int 0
    let z := f (es.map (·.eval itreeAlg ρ0))
    refine ⟨fun u => if u = v then z.1 else if u = w then z.2 else ρ0 u, ?_⟩
    have : es.map (·.eval itreeAlg fun u => if u = v then z.1 else if u = w then z.2 else ρ0 u) = es.map (·.eval itreeAlg ρ0) := by
      refine List.map_congr_left fun e he => Node.eval_congr _ _ fun u hu => ?_
      have h1 : u ≠ v := fun h => hv e he (h ▸ hu)
      have h2 : u ≠ w := fun h => hw e he (h ▸ hu)
      simp only [if_neg h1, if_neg h2]
    rw [this]
    simp only [if_true, if_neg hvw.symm]
    rfl
  rw [howMany_all fun i _ => ?_] at h4
  rw [howMany_all fun i _ => ?_] at h5
  · exact ⟨by omega, h5⟩
  · obtain ⟨ρ, e⟩ := hc fun zs => (properList itreeAlg (zs.take i), properList itreeAlg (zs.drop i))
    exact ⟨ρ, (Prod.mk.inj e).1.symm, (Prod.mk.inj e).2.symm⟩
  · obtain ⟨ρ, e⟩ := hc fun zs => (listTo itreeAlg (zs.take (i + 1)) (itreeAlg.int 0), itreeAlg.int 0)
    exact ⟨ρ, _, (Prod.mk.inj e).1.symm⟩

/-- **C95, joining**: with a variable for the result that is not in the other arguments, whatever these contain, the search takes exactly `3(n+1)` iterations and reports
exactly one answer. -/
theorem C95_joined {o o' : Org} {p es y v fuel k ts} (h : Asked o p [.fn n!"append" [Node.list es, y, .var v]]) (hv : ∀ e ∈ es, v ∉ e.vars) (hy : v ∉ y.vars)
    (hr : o.iterate fuel k = .ok (o', ts)) (hq : o'.queue = []) :
    ts.length = 3 * (es.length + 1) ∧ ((reports ts).filter Res.isAnswer).length = 1 := by
  refine (((C95_append h hr).2.2 hq).1 ?_)
  let ρ0 : Name → ITree := fun _ => itreeAlg.int 0
  let z := listTo itreeAlg (es.map (·.eval itreeAlg ρ0)) (y.eval itreeAlg ρ0)
  have hc : ∀ e : Node, v ∉ e.vars → e.eval itreeAlg (fun u => if u = v then z else ρ0 u) = e.eval itreeAlg ρ0 := by
    intro e he
    refine Node.eval_congr _ _ fun u hu => ?_
    have h1 : u ≠ v := fun h => he (h ▸ hu)
    simp only [if_neg h1]
  refine ⟨fun u => if u = v then z else ρ0 u, ?_⟩
  rw [hc y hy, List.map_congr_left fun e he => hc e (hv e he)]
  simp only [Node.eval, if_true]
  rfl

end PBfs

namespace PBfs.DivideExamples
open PBfs Org SoundExamples

/-- `append([A|X],Y,[a,B,c])`: not all ways to divide the list are left. -/
def ask : List Node := [.fn n!"append" [Node.listWith (.var n!"X") [.var n!"A"], .var n!"Y", Node.list [.cons n!"a", .var n!"B", .cons n!"c"]]]

/-- `append([A],Y,[a,B,c])` -/
def askOne : List Node := [.fn n!"append" [Node.list [.var n!"A"], .var n!"Y", Node.list [.cons n!"a", .var n!"B", .cons n!"c"]]]

/-- `append(X,Y,[A,A])` -/
def askAll : List Node := [.fn n!"append" [.var n!"X", .var n!"Y", Node.list [.var n!"A", .var n!"A"]]]

/-- The hypotheses of C96 are met: 12 iterations and three answers. -/
example : Asked (demo [] ask) [] ask ∧
    ((demo [] ask).iterate 40 100).toOption.map (fun r => (r.2.length, r.1.queue.length, ((reports r.2).filter Res.isAnswer).length)) = some (12, 0, 3) :=
  ⟨asked_demo (by decide +kernel) (by decide +kernel) (safe_of_b (by decide +kernel)) (by decide) (by simp [ask]) (by decide +kernel), by decide +kernel⟩

/-- They are met by a search that is over early as well: 6 iterations and one answer. -/
example : Asked (demo [] askOne) [] askOne ∧
    ((demo [] askOne).iterate 40 100).toOption.map (fun r => (r.2.length, r.1.queue.length, ((reports r.2).filter Res.isAnswer).length)) = some (6, 0, 1) :=
  ⟨asked_demo (by decide +kernel) (by decide +kernel) (safe_of_b (by decide +kernel)) (by decide) (by simp [askOne]) (by decide +kernel), by decide +kernel⟩

/-- The hypotheses of `C96_all` are met by a list that is not ground. -/
example : Asked (demo [] askAll) [] askAll ∧ n!"X" ≠ n!"Y" ∧ (∀ e ∈ [Node.var n!"A", .var n!"A"], n!"X" ∉ e.vars) ∧ (∀ e ∈ [Node.var n!"A", .var n!"A"], n!"Y" ∉ e.vars) ∧
    ((demo [] askAll).iterate 40 100).toOption.map (fun r => (r.2.length, r.1.queue.length, ((reports r.2).filter Res.isAnswer).length)) = some (9, 0, 3) :=
  ⟨asked_demo (by decide +kernel) (by decide +kernel) (safe_of_b (by decide +kernel)) (by decide) (by simp [askAll]) (by decide +kernel), by decide, by decide, by decide, by decide +kernel⟩

/-- `append([A,b],[A|Y],Z)` -/
def askJoin : List Node := [.fn n!"append" [Node.list [.var n!"A", .cons n!"b"], Node.listWith (.var n!"Y") [.var n!"A"], .var n!"Z"]]

/-- The hypotheses of `C95_joined` are met by lists that are not ground. -/
example : Asked (demo [] askJoin) [] askJoin ∧ (∀ e ∈ [Node.var n!"A", .cons n!"b"], n!"Z" ∉ e.vars) ∧ n!"Z" ∉ (Node.listWith (.var n!"Y") [.var n!"A"]).vars ∧
    ((demo [] askJoin).iterate 40 100).toOption.map (fun r => (r.2.length, r.1.queue.length, ((reports r.2).filter Res.isAnswer).length)) = some (9, 0, 1) :=
  ⟨asked_demo (by decide +kernel) (by decide +kernel) (safe_of_b (by decide +kernel)) (by decide) (by simp [askJoin]) (by decide +kernel), by decide, by decide, by decide +kernel⟩

end PBfs.DivideExamples
