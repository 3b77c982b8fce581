import Verif.Props.Fewer
import Verif.Props.Alternatives
/-! # C92, C93: how many iterations named queries and alternatives take -/
namespace PBfs
open Org

/-! ## Bodies as queries -/

/-- What the only goal, the head of a clause, is replaced by: the body. -/
theorem enter_query {h : Node} {body : List Node} {ρ gs} :
    ((Insts.query [h]).enter ⟨h, body⟩) ρ gs ↔ ∃ σ, SameArgs h ρ σ ∧ gs = body.map (Node.inst itreeAlg σ) := by
  constructor
  · rintro ⟨σ, rest, h1, rfl⟩
    obtain ⟨h2, rfl⟩ := List.cons.inj (show _ :: _ = [_] from h1)
    exact ⟨σ, inst_same.1 h2.symm, List.append_nil _⟩
  · rintro ⟨σ, h1, rfl⟩
    exact ⟨σ, [], show _ = _ by rw [List.map_cons, inst_same.2 h1]; rfl, (List.append_nil _).symm⟩

theorem goals_noGoal {body : List Node} (h : body ≠ []) : ¬ NoGoal (body.map (.goal ·.fv)) := by
  intro hg
  cases body with
  | nil => exact h rfl
  | cons a as => exact hg a.fv (.head _)

theorem todo_noGoal {c : Clause} (h : c.body ≠ []) : ¬ NoGoal c.todo := fun hg => goals_noGoal h fun f hf => hg f (List.mem_append_left _ hf)

theorem scope_noGoal (b : Bool) : NoGoal (if b = true then [.leave] else []) := by
  cases b <;> simp [NoGoal]

/-- The body as a query and the body in the place of the head take the same turns. -/
theorem costs_body {M N : Modes} {p h body n} (hM : Directed M p [h]) (hN : Directed N p body) (hc : ⟨h, body⟩ ∈ inForce p) (h0 : body ≠ []) :
    Costs (inForce p) [.goals (body.map (.goal ·.fv)) (Insts.query body)] n ↔
      Costs (inForce p) [.goals ((⟨h, body⟩ : Clause).todo ++ []) ((Insts.query [h]).enter ⟨h, body⟩)] n := by
  have e1 : (calls (body.map (.goal ·.fv))).length = body.length := by rw [calls_goals, List.length_map]
  have e2 : (calls ((⟨h, body⟩ : Clause).todo ++ [])).length = body.length := by rw [List.append_nil, calls_todo, List.length_map]
  have w1 : Narrower (.goals (body.map (.goal ·.fv)) (Insts.query body)) (.goals ((⟨h, body⟩ : Clause).todo ++ []) ((Insts.query [h]).enter ⟨h, body⟩)) := by
    refine .goals (goals_noGoal h0) ⟨[], _, (fun f hf => nomatch hf), by rw [List.append_nil, List.append_nil]; rfl⟩ ⟨⟨fun _ => itreeAlg.int 0, _, rfl⟩, ?_⟩
    rintro ρ gs rfl
    exact ⟨by rw [e1, List.length_map], ρ, [], enter_query.2 ⟨ρ, fun _ _ => rfl, List.append_nil _⟩⟩
  have w2 : Narrower (.goals ((⟨h, body⟩ : Clause).todo ++ []) ((Insts.query [h]).enter ⟨h, body⟩)) (.goals (body.map (.goal ·.fv)) (Insts.query body)) := by
    refine .goals (by rw [List.append_nil]; exact todo_noGoal h0) ⟨_, [], scope_noGoal _, by rw [List.append_nil, List.append_nil]; rfl⟩
      ⟨⟨fun _ => itreeAlg.int 0, _, enter_query.2 ⟨_, fun _ _ => rfl, rfl⟩⟩, ?_⟩
    intro ρ gs hg
    obtain ⟨σ, _, rfl⟩ := enter_query.1 hg
    exact ⟨by rw [e2, List.length_map], σ, [], List.append_nil _⟩
  have m1 : ∀ i ∈ [SItem.goals (body.map (.goal ·.fv)) (Insts.query body)], i.Moded N p body := fun i hi => by
    rw [List.mem_singleton.1 hi]
    show Steady _ _ _ _ _
    rw [calls_goals]
    exact Steady.query hN
  have m2 : ∀ i ∈ [SItem.goals ((⟨h, body⟩ : Clause).todo ++ []) ((Insts.query [h]).enter ⟨h, body⟩)], i.Moded M p [h] := fun i hi => by
    rw [List.mem_singleton.1 hi]
    show Steady _ _ _ _ _
    rw [calls_append, calls_todo]
    exact Steady.enter hM hc (Steady.query hM)
  constructor <;> intro hn
  · obtain ⟨m, l1, c1⟩ := hn.fewer hN m1 (.take w2 .nil)
    obtain ⟨m', l2, c2⟩ := c1.fewer hM m2 (.take w1 .nil)
    have := c2.unique hn
    rwa [show n = m by omega]
  · obtain ⟨m, l1, c1⟩ := hn.fewer hM m2 (.take w1 .nil)
    obtain ⟨m', l2, c2⟩ := c1.fewer hN m1 (.take w2 .nil)
    have := c2.unique hn
    rwa [show n = m by omega]

/-- One more turn for the clause. -/
theorem costs_clause {P : List Clause} {h body n} (h0 : body ≠ []) (hc : Costs P [.goals ((⟨h, body⟩ : Clause).todo ++ []) ((Insts.query [h]).enter ⟨h, body⟩)] n) :
    Costs P [.clause ⟨h, body⟩ [] (Insts.query [h])] (n + 1) :=
  .cons (.enter (fun he => he (fun _ => itreeAlg.int 0) _ (enter_query.2 ⟨_, fun _ _ => rfl, rfl⟩)) (by rw [List.append_nil]; exact todo_noGoal h0)) hc .nil

theorem costs_clause_inv {P : List Clause} {h body n} (h0 : body ≠ []) (hc : Costs P [.clause ⟨h, body⟩ [] (Insts.query [h])] n) :
    ∃ m, n = m + 1 ∧ Costs P [.goals ((⟨h, body⟩ : Clause).todo ++ []) ((Insts.query [h]).enter ⟨h, body⟩)] m := by
  cases hc with
  | cons t h1 h2 =>
    cases h2
    obtain ⟨rfl, _⟩ := t.det (STurn.enter (fun he => he (fun _ => itreeAlg.int 0) _ (enter_query.2 ⟨_, fun _ _ => rfl, rfl⟩)) (by rw [List.append_nil]; exact todo_noGoal h0))
    exact ⟨_, rfl, h1⟩

/-- The clauses for the head, in some order. -/
theorem Alternatives.perm {P : List Clause} {h ks body} (ha : Alternatives P h ks body) : (P.filter (·.head.fv = h.fv)).Perm (ks.map fun k => ⟨h, body k⟩) := by
  have e : P = (List.range P.length).map fun k => P[k]?.getD ⟨h, []⟩ := by
    refine List.ext_getElem (by simp) fun i h1 h2 => ?_
    simp [h1]
  have hp : ((List.range P.length).filter fun k => (P[k]?.getD ⟨h, []⟩).head.fv = h.fv).Perm ks := by
    refine (List.perm_ext_iff_of_nodup (List.nodup_range.filter _) ha.nodup).2 fun k => ?_
    rw [List.mem_filter, List.mem_range]
    constructor
    · rintro ⟨h1, h2⟩
      refine ha.all k P[k] (by simp [h1]) ?_
      simpa [h1] using h2
    · intro hk
      have h1 := ha.at_ k hk
      obtain ⟨h2, h3⟩ := List.getElem?_eq_some_iff.1 h1
      exact ⟨h2, by simp [h2, h3]⟩
  have e2 : P.filter (·.head.fv = h.fv) = ((List.range P.length).filter fun k => (P[k]?.getD ⟨h, []⟩).head.fv = h.fv).map fun k => P[k]?.getD ⟨h, []⟩ := by
    conv => lhs; rw [e]
    rw [List.filter_map]
    rfl
  rw [e2]
  refine (hp.map _).trans (.of_eq ?_)
  refine List.map_congr_left fun k hk => ?_
  rw [ha.at_ k hk]
  rfl

theorem Costs.perm {P q q'} (hp : List.Perm q q') : ∀ {n}, Costs P q n → Costs P q' n := by
  induction hp with
  | nil => exact id
  | cons i _ ih =>
    intro n h
    cases h with
    | cons t h1 h2 => exact .cons t h1 (ih h2)
  | swap i j q =>
    intro n h
    cases h with
    | @cons _ _ _ _ a _ t h1 h2 =>
      cases h2 with
      | @cons _ _ _ _ b c t' h3 h4 =>
        have := Costs.cons t' h3 (.cons t h1 h4)
        rwa [show b + (a + c + 1) + 1 = a + (b + c + 1) + 1 by omega] at this
  | trans _ _ ih1 ih2 => exact fun h => ih2 (ih1 h)

/-! ## The searches -/

/-- **C93, iterations**: when the searches for all bodies have ended, the search for the head takes one iteration, one for each body, and those for the bodies; it has ended after exactly as many. -/
theorem C93_iterations {p h ks} {body : Nat → List Node} {os es : Nat → Org} {Ns : Nat → Modes} {fs ns : Nat → Nat} {tss : Nat → List Turn} {o o' : Org} {M fuel n ts}
    (ha : Alternatives (inForce p) h ks body) (hf : h.fv ∉ ownFVs) (h1 : Asked o p [h]) (hM : Directed M p [h])
    (h2 : ∀ k ∈ ks, Asked (os k) p (body k) ∧ Directed (Ns k) p (body k) ∧ (os k).iterate (fs k) (ns k) = .ok (es k, tss k) ∧ (es k).queue = []) (hr : o.iterate fuel n = .ok (o', ts)) :
    ts.length ≤ 1 + (ks.map fun k => 1 + (tss k).length).sum ∧ (1 + (ks.map fun k => 1 + (tss k).length).sum ≤ n → o'.queue = []) ∧
      (o'.queue = [] ↔ ts.length = 1 + (ks.map fun k => 1 + (tss k).length).sum) := by
  refine Costs.search ?_ h1 hr
  have hs : ∀ l : List Nat, (∀ k ∈ l, k ∈ ks) → Costs (inForce p) ((l.map fun k => (⟨h, body k⟩ : Clause)).map (.clause · [] (Insts.query [h]))) (l.map fun k => 1 + (tss k).length).sum := by
    intro l
    induction l with
    | nil => exact fun _ => .nil
    | cons k l ih =>
      intro hl
      obtain ⟨a1, a2, a3, a4⟩ := h2 k (hl k (.head _))
      have hc := costs_clause a1.ne ((costs_body hM a2 (List.mem_of_getElem? (ha.at_ k (hl k (.head _)))) a1.ne).1 (Costs.of_search a1 a3 a4))
      have := hc.append (ih fun k hk => hl k (.tail _ hk))
      rw [Nat.add_comm (tss k).length 1] at this
      simpa using this
  have hp := ((ha.perm.map (SItem.clause · [] (Insts.query [h]))).symm)
  have := Costs.cons (STurn.call (ts := []) (S := Insts.query [h]) hf) ((hs ks fun _ h => h).perm hp) .nil
  rw [Nat.add_zero, Nat.add_comm] at this
  exact this

theorem OnlyClause.alternatives {P k c} (hk : OnlyClause P k c) : Alternatives P c.head [k] fun _ => c.body where
  nodup := by simp
  at_ k' h := by rw [List.mem_singleton.1 h]; exact hk.1
  all k' c' h1 h2 := by rw [hk.2 k' c' h1 h2]; exact .head _

/-- **C92, iterations**: when the search for a body has ended, the search for the head takes two more iterations. -/
theorem C92_iterations {o1 o2 e2 o' : Org} {p k c M N fuel n ts fuel2 n2 ts2} (hk : OnlyClause (inForce p) k c) (h : Asked o1 p [c.head]) (hM : Directed M p [c.head]) (h2 : Asked o2 p c.body)
    (hN : Directed N p c.body) (hr2 : o2.iterate fuel2 n2 = .ok (e2, ts2)) (hq2 : e2.queue = []) (hr : o1.iterate fuel n = .ok (o', ts)) :
    ts.length ≤ ts2.length + 2 ∧ (ts2.length + 2 ≤ n → o'.queue = []) ∧ (o'.queue = [] ↔ ts.length = ts2.length + 2) := by
  have := C93_iterations (os := fun _ => o2) (es := fun _ => e2) (Ns := fun _ => N) (fs := fun _ => fuel2) (ns := fun _ => n2) (tss := fun _ => ts2) hk.alternatives hk.own h hM
    (fun _ _ => ⟨h2, hN, hr2, hq2⟩) hr
  simpa [Nat.add_comm, Nat.add_left_comm, show 1 + (1 + ts2.length) = ts2.length + 2 by omega] using this

/-- **C92, iterations for the body**: when the search for the head has ended, the search for the body takes two iterations less. -/
theorem C92_body_iterations {o1 e1 o2 o' : Org} {p k c M N fuel n ts fuel2 n2 ts2} (hk : OnlyClause (inForce p) k c) (h : Asked o1 p [c.head]) (hM : Directed M p [c.head]) (h2 : Asked o2 p c.body)
    (hN : Directed N p c.body) (hr : o1.iterate fuel n = .ok (e1, ts)) (hq : e1.queue = []) (hr2 : o2.iterate fuel2 n2 = .ok (o', ts2)) :
    ts2.length + 2 ≤ ts.length ∧ (ts.length ≤ n2 + 2 → o'.queue = []) ∧ (o'.queue = [] ↔ ts.length = ts2.length + 2) := by
  have hc := Costs.of_search h hr hq
  obtain ⟨m, e, hb⟩ : ∃ m, ts.length = m + 2 ∧ Costs (inForce p) [.clause c [] (Insts.query [c.head])] (m + 1) := by
    generalize ts.length = l at hc
    cases hc with
    | cons t h3 h4 =>
      cases h4
      obtain ⟨rfl, _⟩ := t.det (STurn.call (ts := []) (S := Insts.query [c.head]) hk.own)
      have h5 := h3.perm (hk.alternatives.perm.map (SItem.clause · [] (Insts.query [c.head])))
      obtain ⟨m, rfl, _⟩ := costs_clause_inv h2.ne h5
      exact ⟨m, rfl, h5⟩
  obtain ⟨m', e', hb⟩ := costs_clause_inv h2.ne hb
  obtain rfl : m = m' := by omega
  obtain ⟨d1, d2, d3⟩ := ((costs_body hM hN (List.mem_of_getElem? hk.1) h2.ne).2 hb).search h2 hr2
  rw [e]
  exact ⟨by omega, fun h => d2 (by omega), by rw [d3]; omega⟩

/-! ## Concrete cases -/

namespace TurnsExamples
open SoundExamples JoinedExamples NamedExamples AlternativesExamples

/-- The program and queries of `NamedExamples`, which meet the hypotheses: 9 iterations for the body, 11 for the head. -/
example : ((demo (both :: two) both.body).iterate 20 100).toOption.map (fun r => (r.1.queue, r.2.length)) = some ([], 9) ∧
    ((demo (both :: two) [both.head]).iterate 20 100).toOption.map (fun r => (r.1.queue, r.2.length)) = some ([], 11) := ⟨by decide +kernel, by decide +kernel⟩

/-- The program and queries of `AlternativesExamples`, which meet the hypotheses: 3 iterations for each body, 1 + (1 + 3) + (1 + 3) for the head. -/
example : ((demo prog px).iterate 20 100).toOption.map (fun r => (r.1.queue, r.2.length)) = some ([], 3) ∧
    ((demo prog qx).iterate 20 100).toOption.map (fun r => (r.1.queue, r.2.length)) = some ([], 3) ∧
    ((demo prog [eitherX]).iterate 20 100).toOption.map (fun r => (r.1.queue, r.2.length)) = some ([], 9) := ⟨by decide +kernel, by decide +kernel, by decide +kernel⟩

end TurnsExamples
end PBfs
