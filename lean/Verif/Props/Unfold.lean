import Verif.Spec.Unfold
import Verif.Props.Both
/-! # C94: calls stand for the bodies of clauses -/
namespace PBfs
open Org

/-- The search for a query ends, after `t` iterations and with `a` answers; without goals there is nothing to search, and one answer. -/
inductive Took (p : List Clause) : List Node → Nat → Nat → Prop
  | nothing : Took p [] 0 1
  | search {o e : Org} {q M fuel k ts} : Asked o p q → Directed M p q → o.iterate fuel k = .ok (e, ts) → e.queue = [] → Took p q ts.length ((reports ts).filter Res.isAnswer).length

/-! ## Instances -/

theorem Instance.values {g c σ} (h : Instance g c σ) {ρ τ : Name → ITree} (hs : g.inst itreeAlg ρ = c.head.inst itreeAlg τ) :
    ∃ ρ', SameArgs g ρ ρ' ∧ (c.special σ).map (Node.inst itreeAlg ρ') = c.body.map (Node.inst itreeAlg τ) := by
  classical
  let ρ' : Name → ITree := fun z => if hz : ∃ x, c.Local x ∧ σ x = .var z then τ (Classical.choose hz) else ρ z
  have h1 : SameArgs g ρ ρ' := by
    intro z hz
    have : ¬ ∃ x, c.Local x ∧ σ x = .var z := by
      rintro ⟨x, hx, e⟩
      obtain ⟨y, e', hy⟩ := h.fresh x hx
      rw [e] at e'
      cases e'
      exact hy hz
    exact (show ρ' z = ρ z from dif_neg this).symm
  have h2 : SameArgs c.head (through σ ρ') τ := by
    rw [← inst_same, ← inst_special, h.head, ← inst_same.2 h1]
    exact hs
  refine ⟨ρ', h1, ?_⟩
  rw [Clause.special, insts_special]
  refine insts_congr fun a ha x hx => ?_
  by_cases hx' : x ∈ Node.varss c.head.children
  · exact h2 x hx'
  · have hl : c.Local x := ⟨⟨a, ha, hx⟩, hx'⟩
    obtain ⟨y, e, _⟩ := h.fresh x hl
    have hz : ∃ x, c.Local x ∧ σ x = .var y := ⟨x, hl, e⟩
    show (σ x).eval itreeAlg ρ' = τ x
    rw [e]
    show ρ' y = τ x
    rw [show ρ' y = τ (Classical.choose hz) from dif_pos hz]
    obtain ⟨h3, h4⟩ := Classical.choose_spec hz
    rw [h.apart _ _ h3 hl (h4.trans e.symm)]

theorem Instance.back {g c σ} (h : Instance g c σ) {ρ ρ' : Name → ITree} (hs : SameArgs g ρ ρ') : g.inst itreeAlg ρ = c.head.inst itreeAlg (through σ ρ') := by
  rw [inst_same.2 hs, ← h.head, inst_special]

/-- The proofs of the call are those of the bodies with the clause before them. -/
theorem provedBy_unfold {p g ks us cl σ} (hu : Unfolds (inForce p) g ks us cl σ) (hf : g.fv ∉ ownFVs) {w ρ} :
    ProvedBy (inForce p) [g] w ρ ↔ ∃ k ∈ ks, ∃ v ρ', w = k :: v ∧ SameArgs g ρ ρ' ∧ ProvedBy (inForce p) ((cl k).special (σ k)) v ρ' := by
  constructor
  · intro hw
    obtain ⟨k, c, τ, v, rfl, hk, e, hv⟩ := Follows.clause_inv hw (by rw [head_fv]; exact hf)
    have hfv : c.head.fv = g.fv := by rw [← head_fv (A := itreeAlg) (ρ := τ), ← head_fv (A := itreeAlg) (ρ := ρ), e]
    have hk' := hu.all k c hk hfv
    obtain rfl := Option.some.inj ((hu.at_ k hk').symm.trans hk)
    rcases List.mem_append.1 hk' with hk' | hk'
    · obtain ⟨ρ', h1, h2⟩ := (hu.fits k hk').values e
      rw [List.map_nil, List.append_nil, ← h2] at hv
      exact ⟨k, hk', v, ρ', rfl, h1, hv⟩
    · exact absurd e (hu.fails k hk' _ _)
  · rintro ⟨k, hk, v, ρ', rfl, hs, hv⟩
    rw [ProvedBy, List.map_cons, (hu.fits k hk).back hs]
    refine Follows.clause (hu.at_ k (List.mem_append_left _ hk)) ?_
    rw [List.map_nil, List.append_nil, ← insts_special]
    exact hv

/-! ## Turns -/

theorem enter_unfold {g c σ} (h : Instance g c σ) {ρ gs} : ((Insts.query [g]).enter c) ρ gs ↔ ∃ ρ', SameArgs g ρ ρ' ∧ gs = (c.special σ).map (Node.inst itreeAlg ρ') := by
  constructor
  · rintro ⟨τ, rest, h1, rfl⟩
    obtain ⟨h2, rfl⟩ := List.cons.inj (show _ :: _ = [_] from h1)
    obtain ⟨ρ', h3, h4⟩ := h.values h2.symm
    exact ⟨ρ', h3, by rw [h4, List.append_nil]⟩
  · rintro ⟨ρ', h1, rfl⟩
    refine ⟨through σ ρ', [], show _ = _ by rw [← h.back h1]; rfl, ?_⟩
    rw [List.append_nil, Clause.special, insts_special]

theorem special_goals {σ} (q : List Node) : (q.map (Node.special σ)).map (Todo.goal ·.fv) = q.map (Todo.goal ·.fv) := by
  rw [List.map_map]
  refine List.map_congr_left fun a _ => ?_
  have h1 := inst_fvs (A := itreeAlg) (ρ := fun _ => itreeAlg.int 0) (ns := [a.special σ])
  have h2 := inst_fvs (A := itreeAlg) (ρ := through σ fun _ => itreeAlg.int 0) (ns := [a])
  simp only [List.map_cons, List.map_nil, inst_special] at h1 h2
  simpa using h1.symm.trans h2

theorem costs_unfold {M N : Modes} {p g c σ n} (hi : Instance g c σ) (hM : Directed M p [g]) (hN : Directed N p (c.special σ)) (hc : c ∈ inForce p) (hfv : c.head.fv = g.fv) (h0 : c.body ≠ [])
    (hn : Costs (inForce p) [.goals ((c.special σ).map (.goal ·.fv)) (Insts.query (c.special σ))] n) :
    Costs (inForce p) [.goals (c.todo ++ []) ((Insts.query [g]).enter c)] n := by
  have e0 : (c.special σ).map (Todo.goal ·.fv) = c.body.map (Todo.goal ·.fv) := special_goals _
  have e1 : (calls (c.body.map (.goal ·.fv))).length = c.body.length := by rw [calls_goals, List.length_map]
  have e2 : (calls (c.todo ++ [])).length = c.body.length := by rw [List.append_nil, calls_todo, List.length_map]
  have e3 : (c.special σ).length = c.body.length := List.length_map ..
  have w1 : Narrower (.goals ((c.special σ).map (.goal ·.fv)) (Insts.query (c.special σ))) (.goals (c.todo ++ []) ((Insts.query [g]).enter c)) := by
    rw [e0]
    refine .goals (goals_noGoal h0) ⟨[], _, (fun f hf => nomatch hf), by rw [List.append_nil, List.append_nil]; rfl⟩ ⟨⟨fun _ => itreeAlg.int 0, _, rfl⟩, ?_⟩
    rintro ρ gs rfl
    exact ⟨by rw [e1, List.length_map, e3], ρ, [], (enter_unfold hi).2 ⟨ρ, fun _ _ => rfl, List.append_nil _⟩⟩
  have w2 : Narrower (.goals (c.todo ++ []) ((Insts.query [g]).enter c)) (.goals ((c.special σ).map (.goal ·.fv)) (Insts.query (c.special σ))) := by
    rw [e0]
    refine .goals (by rw [List.append_nil]; exact todo_noGoal h0) ⟨_, [], scope_noGoal _, by rw [List.append_nil, List.append_nil]; rfl⟩
      ⟨⟨fun _ => itreeAlg.int 0, _, (enter_unfold hi).2 ⟨_, fun _ _ => rfl, rfl⟩⟩, ?_⟩
    intro ρ gs hg
    obtain ⟨ρ', _, rfl⟩ := (enter_unfold hi).1 hg
    exact ⟨by rw [e2, List.length_map, e3], ρ', [], List.append_nil _⟩
  have m1 : ∀ i ∈ [SItem.goals ((c.special σ).map (.goal ·.fv)) (Insts.query (c.special σ))], i.Moded N p (c.special σ) := fun i hi => by
    rw [List.mem_singleton.1 hi]
    show Steady _ _ _ _ _
    rw [calls_goals]
    exact Steady.query hN
  have m2 : ∀ i ∈ [SItem.goals (c.todo ++ []) ((Insts.query [g]).enter c)], i.Moded M p [g] := fun i hi => by
    rw [List.mem_singleton.1 hi]
    show Steady _ _ _ _ _
    rw [calls_append, calls_todo]
    exact Steady.enter hM hc (by rw [hfv]; exact Steady.query hM)
  obtain ⟨m, l1, c1⟩ := hn.fewer hN m1 (.take w2 .nil)
  obtain ⟨m', l2, c2⟩ := c1.fewer hM m2 (.take w1 .nil)
  have := c2.unique hn
  rwa [show n = m by omega]

theorem costs_folded {M : Modes} {p g c σ n} (hi : Instance g c σ) (hM : Directed M p [g]) (hc : c ∈ inForce p) (hfv : c.head.fv = g.fv) (h0 : c.body ≠ [])
    (hn : Costs (inForce p) [.goals (c.todo ++ []) ((Insts.query [g]).enter c)] n) :
    ∃ m, m ≤ n ∧ Costs (inForce p) [.goals ((c.special σ).map (.goal ·.fv)) (Insts.query (c.special σ))] m := by
  have w1 : Narrower (.goals ((c.special σ).map (.goal ·.fv)) (Insts.query (c.special σ))) (.goals (c.todo ++ []) ((Insts.query [g]).enter c)) := by
    rw [show (c.special σ).map (Todo.goal ·.fv) = c.body.map (Todo.goal ·.fv) from special_goals _]
    refine .goals (goals_noGoal h0) ⟨[], _, (fun f hf => nomatch hf), by rw [List.append_nil, List.append_nil]; rfl⟩ ⟨⟨fun _ => itreeAlg.int 0, _, rfl⟩, ?_⟩
    rintro ρ gs rfl
    exact ⟨by rw [calls_goals, List.length_map, List.length_map]; exact List.length_map .., ρ, [], (enter_unfold hi).2 ⟨ρ, fun _ _ => rfl, List.append_nil _⟩⟩
  refine hn.fewer hM (fun i hi => ?_) (.take w1 .nil)
  rw [List.mem_singleton.1 hi]
  show Steady _ _ _ _ _
  rw [calls_append, calls_todo]
  exact Steady.enter hM hc (by rw [hfv]; exact Steady.query hM)

theorem Costs.mem {P q n i} (h : Costs P q n) (hi : i ∈ q) : ∃ m, m ≤ n ∧ Costs P [i] m := by
  obtain ⟨a, b, rfl⟩ := List.append_of_mem hi
  obtain ⟨n1, n2, _, h2, rfl⟩ := h.split
  cases h2 with
  | cons t h3 _ => exact ⟨_, by omega, .cons t h3 .nil⟩

theorem Unfolds.perm {P : List Clause} {g ks us cl σ} (ha : Unfolds P g ks us cl σ) : (P.filter (·.head.fv = g.fv)).Perm ((ks ++ us).map cl) := by
  have e : P = (List.range P.length).map fun k => P[k]?.getD ⟨g, []⟩ := by
    refine List.ext_getElem (by simp) fun i h1 h2 => ?_
    simp [h1]
  have hp : ((List.range P.length).filter fun k => (P[k]?.getD ⟨g, []⟩).head.fv = g.fv).Perm (ks ++ us) := by
    refine (List.perm_ext_iff_of_nodup (List.nodup_range.filter _) ha.nodup).2 fun k => ?_
    rw [List.mem_filter, List.mem_range]
    constructor
    · rintro ⟨h1, h2⟩
      refine ha.all k P[k] (by simp [h1]) ?_
      simpa [h1] using h2
    · intro hk
      have h1 := ha.at_ k hk
      obtain ⟨h2, h3⟩ := List.getElem?_eq_some_iff.1 h1
      exact ⟨h2, by simp [h2, h3, ha.fv k hk]⟩
  have e2 : P.filter (·.head.fv = g.fv) = ((List.range P.length).filter fun k => (P[k]?.getD ⟨g, []⟩).head.fv = g.fv).map fun k => P[k]?.getD ⟨g, []⟩ := by
    conv => lhs; rw [e]
    rw [List.filter_map]
    rfl
  rw [e2]
  refine (hp.map _).trans (.of_eq ?_)
  refine List.map_congr_left fun k hk => ?_
  rw [ha.at_ k hk]
  rfl

theorem Took.costs {p q t a} (h : Took p q t a) (h0 : q ≠ []) : ∃ N, Directed N p q ∧ Costs (inForce p) [.goals (q.map (.goal ·.fv)) (Insts.query q)] t := by
  cases h with
  | nothing => exact absurd rfl h0
  | search h1 h2 h3 h4 => exact ⟨_, h2, Costs.of_search h1 h3 h4⟩

/-- One turn for each clause, and then those for the body. -/
theorem costs_fits {M : Modes} {p g c σ t a} (hi : Instance g c σ) (hM : Directed M p [g]) (hc : c ∈ inForce p) (hfv : c.head.fv = g.fv) (ht : Took p (c.special σ) t a) :
    Costs (inForce p) [.clause c [] (Insts.query [g])] (1 + t) := by
  have he : ¬ ((Insts.query [g]).enter c).Empty := fun he => he (fun _ => itreeAlg.int 0) _ ((enter_unfold hi).2 ⟨_, fun _ _ => rfl, rfl⟩)
  by_cases h0 : c.body = []
  · have : t = 0 := by
      rw [Clause.special, h0, List.map_nil] at ht
      cases ht with
      | nothing => rfl
      | search h1 => exact absurd rfl h1.ne
    rw [this]
    refine Costs.cons (.answer he ?_) .nil .nil
    rw [List.append_nil, Clause.todo, h0]
    exact scope_noGoal _
  · obtain ⟨N, h1, h2⟩ := ht.costs (by simpa [Clause.special] using h0)
    rw [Nat.add_comm]
    exact Costs.cons (.enter he (by rw [List.append_nil]; exact todo_noGoal h0)) (costs_unfold hi hM h1 hc hfv h0 h2) .nil

theorem costs_fails {P : List Clause} {g c} (h : ∀ ρ τ, g.inst itreeAlg ρ ≠ c.head.inst itreeAlg τ) : Costs P [.clause c [] (Insts.query [g])] 1 := by
  refine Costs.cons (.reject ?_) .nil .nil
  rintro ρ gs ⟨τ, rest, h1, _⟩
  exact h ρ τ (List.cons.inj (show _ :: _ = [_] from h1)).1.symm

/-! ## The searches -/

section
variable {p : List Clause} {g : Node} {ks us : List Nat} {cl : Nat → Clause} {σ : Nat → Name → Node} {t a : Nat → Nat}

/-- **C94, iterations**: when the searches for the instances of the bodies have ended, the search for the call takes one iteration, one for each clause for the predicate, and those for the bodies; it has ended after
exactly as many. -/
theorem C94_iterations {o o' : Org} {M fuel n ts} (hu : Unfolds (inForce p) g ks us cl σ) (hf : g.fv ∉ ownFVs) (h : Asked o p [g]) (hM : Directed M p [g])
    (h2 : ∀ k ∈ ks, Took p ((cl k).special (σ k)) (t k) (a k)) (hr : o.iterate fuel n = .ok (o', ts)) :
    ts.length ≤ 1 + (ks.map fun k => 1 + t k).sum + us.length ∧ (1 + (ks.map fun k => 1 + t k).sum + us.length ≤ n → o'.queue = []) ∧
      (o'.queue = [] ↔ ts.length = 1 + (ks.map fun k => 1 + t k).sum + us.length) := by
  refine Costs.search ?_ h hr
  have hs : ∀ l : List Nat, (∀ k ∈ l, k ∈ ks) → Costs (inForce p) ((l.map cl).map (.clause · [] (Insts.query [g]))) (l.map fun k => 1 + t k).sum := by
    intro l
    induction l with
    | nil => exact fun _ => .nil
    | cons k l ih =>
      intro hl
      have hk := hl k (.head _)
      have hk' := List.mem_append_left us hk
      have := (costs_fits (hu.fits k hk) hM (List.mem_of_getElem? (hu.at_ k hk')) (hu.fv k hk') (h2 k hk)).append (ih fun k hk => hl k (.tail _ hk))
      simpa using this
  have hs2 : ∀ l : List Nat, (∀ k ∈ l, k ∈ us) → Costs (inForce p) ((l.map cl).map (.clause · [] (Insts.query [g]))) l.length := by
    intro l
    induction l with
    | nil => exact fun _ => .nil
    | cons k l ih =>
      intro hl
      have := (costs_fails (P := inForce p) (hu.fails k (hl k (.head _)))).append (ih fun k hk => hl k (.tail _ hk))
      rw [Nat.add_comm] at this
      simpa using this
  have hall := (hs ks fun _ h => h).append (hs2 us fun _ h => h)
  rw [← List.map_append, ← List.map_append] at hall
  have := Costs.cons (STurn.call (ts := []) (S := Insts.query [g]) hf) (hall.perm ((hu.perm.map (SItem.clause · [] (Insts.query [g]))).symm)) .nil
  rw [Nat.add_zero, show (ks.map fun k => 1 + t k).sum + us.length + 1 = 1 + (ks.map fun k => 1 + t k).sum + us.length by omega] at this
  exact this

theorem Took.words {q t a} (h : Took p q t a) : ∃ L : List (List Nat), L.Nodup ∧ (∀ w, w ∈ L ↔ ∃ ρ, ProvedBy (inForce p) q w ρ) ∧ a = L.length := by
  cases h with
  | nothing =>
    refine ⟨[[]], by simp, fun w => ?_, rfl⟩
    constructor
    · intro hw
      rw [List.mem_singleton.1 hw]
      exact ⟨fun _ => itreeAlg.int 0, .nil⟩
    · rintro ⟨ρ, hw⟩
      cases hw
      exact .head _
  | search h1 h2 h3 h4 => exact C86_count h1 h2 h3 h4

/-- **C94, numbers**: when all searches have ended, the number of answers to the call is the sum of the numbers of answers to the instances of the bodies. -/
theorem C94_count {o e : Org} {M fuel n ts} (hu : Unfolds (inForce p) g ks us cl σ) (hf : g.fv ∉ ownFVs) (h : Asked o p [g]) (hM : Directed M p [g])
    (h2 : ∀ k ∈ ks, Took p ((cl k).special (σ k)) (t k) (a k)) (hr : o.iterate fuel n = .ok (e, ts)) (hq : e.queue = []) :
    ((reports ts).filter Res.isAnswer).length = (ks.map a).sum := by
  classical
  obtain ⟨ws, a1, a2, a3⟩ := C86_count h hM hr hq
  have hL : ∀ k, ∃ L : List (List Nat), k ∈ ks → L.Nodup ∧ (∀ w, w ∈ L ↔ ∃ ρ, ProvedBy (inForce p) ((cl k).special (σ k)) w ρ) ∧ a k = L.length := by
    intro k
    by_cases hk : k ∈ ks
    · obtain ⟨L, c⟩ := (h2 k hk).words
      exact ⟨L, fun _ => c⟩
    · exact ⟨[], fun h => absurd h hk⟩
  let L : Nat → List (List Nat) := fun k => Classical.choose (hL k)
  have hL : ∀ k ∈ ks, (L k).Nodup ∧ (∀ w, w ∈ L k ↔ ∃ ρ, ProvedBy (inForce p) ((cl k).special (σ k)) w ρ) ∧ a k = (L k).length := fun k => Classical.choose_spec (hL k)
  rw [a3, List.map_congr_left (fun k hk => (hL k hk).2.2), ← gathered_length]
  refine Nat.le_antisymm (List.subperm_of_subset a1 fun w hw => ?_).length_le
    (List.subperm_of_subset (gathered_nodup (List.nodup_append.1 hu.nodup).1 fun k hk => (hL k hk).1) fun w hw => ?_).length_le
  · obtain ⟨ρ, hw⟩ := (a2 w).1 hw
    obtain ⟨k, hk, v, ρ', rfl, _, hv⟩ := (provedBy_unfold hu hf).1 hw
    exact mem_gathered.2 ⟨k, hk, v, ((hL k hk).2.1 v).2 ⟨ρ', hv⟩, rfl⟩
  · obtain ⟨k, hk, v, hv, rfl⟩ := mem_gathered.1 hw
    obtain ⟨ρ', hv⟩ := ((hL k hk).2.1 v).1 hv
    exact (a2 _).2 ⟨ρ', (provedBy_unfold hu hf).2 ⟨k, hk, v, ρ', rfl, fun _ _ => rfl, hv⟩⟩

/-- **C94, where answers come from**: every answer to the call shows all its instances, by a clause without a body, or exactly what the proofs of the instance of the body of a clause, with certain clauses, prove
of its variables; when the search for this instance has ended, that is what one of its answers shows. -/
theorem C94_from {o o' : Org} {M fuel n ts} (hu : Unfolds (inForce p) g ks us cl σ) (hf : g.fv ∉ ownFVs) (h : Asked o p [g]) (hM : Directed M p [g]) (hr : o.iterate fuel n = .ok (o', ts)) {bs}
    (hb : Res.answer bs ∈ reports ts) :
    ∃ S, ShowsInsts o.st [g] fuel bs S ∧ ∃ k ∈ ks, ((cl k).body = [] ∧ ∀ ρ, ∃ gs, S ρ gs) ∨
      ∀ {o2 e2 : Org} {N fuel2 n2 ts2}, Asked o2 p ((cl k).special (σ k)) → Directed N p ((cl k).special (σ k)) → o2.iterate fuel2 n2 = .ok (e2, ts2) → e2.queue = [] →
        ∃ bs2 S2, Res.answer bs2 ∈ reports ts2 ∧ ShowsInsts o2.st ((cl k).special (σ k)) fuel2 bs2 S2 ∧ ∀ ρ, (∃ gs, S ρ gs) ↔ ∃ ρ' gs, SameArgs g ρ ρ' ∧ S2 ρ' gs := by
  obtain ⟨reps, ws, a1, a2, _, _⟩ := C86_proofs h hM hr
  obtain ⟨w, _, rep, d1, d2⟩ := forall₂_of_mem (forall₂_trans a1 a2) hb
  cases d1 with
  | @answer _ S d1 =>
    cases d2 with
    | @answer _ w d2 =>
      obtain ⟨ρ, gs, hg⟩ := d1.some
      obtain ⟨k, hk, v, ρ', rfl, _, hv⟩ := (provedBy_unfold hu hf).1 ((d2 ρ).1 ⟨gs, hg⟩)
      refine ⟨S, d1, k, hk, ?_⟩
      by_cases h0 : (cl k).body = []
      · refine .inl ⟨h0, fun ρ2 => (d2 ρ2).2 ((provedBy_unfold hu hf).2 ⟨k, hk, v, ρ2, rfl, fun _ _ => rfl, ?_⟩)⟩
        rw [ProvedBy, Clause.special, h0] at hv ⊢
        exact hv
      · refine .inr fun {o2 e2 N fuel2 n2 ts2} k1 k2 k3 k4 => ?_
        obtain ⟨reps2, ws2, b1, b2, _, b4⟩ := C86_proofs k1 k2 k3
        obtain ⟨r2, hr2, rep2, g1, g2⟩ := forall₂_of_mem' (forall₂_trans b1 b2) (b4 k4 v _ hv)
        cases g2 with
        | @answer S2 _ g2 =>
          cases g1 with
          | @answer bs2 _ g1 =>
            refine ⟨bs2, S2, hr2, g1, fun ρ2 => ?_⟩
            rw [d2, provedBy_unfold hu hf]
            constructor
            · rintro ⟨k', _, v', ρ3, e, hs, hv'⟩
              obtain ⟨rfl, rfl⟩ := List.cons.inj e
              obtain ⟨gs', hg'⟩ := (g2 ρ3).2 hv'
              exact ⟨ρ3, gs', hs, hg'⟩
            · rintro ⟨ρ3, gs', hs, hg'⟩
              exact ⟨k, hk, v, ρ3, rfl, hs, (g2 ρ3).1 ⟨gs', hg'⟩⟩

/-- **C94, the other way**: every answer to the instance of the body of a clause leads to an answer to the call, after some number of iterations, whether the searches end or not. -/
theorem C94_soon {o2 e2 : Org} {M N fuel2 n2 ts2 k} (hu : Unfolds (inForce p) g ks us cl σ) (hf : g.fv ∉ ownFVs) (hM : Directed M p [g]) (hk : k ∈ ks) (h2 : Asked o2 p ((cl k).special (σ k)))
    (hN : Directed N p ((cl k).special (σ k))) (hr2 : o2.iterate fuel2 n2 = .ok (e2, ts2)) {bs2} (hb : Res.answer bs2 ∈ reports ts2) :
    ∃ S2, ShowsInsts o2.st ((cl k).special (σ k)) fuel2 bs2 S2 ∧ ∃ K, ∀ {o o' : Org} {fuel n ts}, Asked o p [g] → o.iterate fuel n = .ok (o', ts) → K ≤ ts.length ∨ o'.queue = [] →
      ∃ bs S, Res.answer bs ∈ reports ts ∧ ShowsInsts o.st [g] fuel bs S ∧ ∀ ρ, (∃ gs, S ρ gs) ↔ ∃ ρ' gs, SameArgs g ρ ρ' ∧ S2 ρ' gs := by
  obtain ⟨reps2, ws2, b1, b2, _, _⟩ := C86_proofs h2 hN hr2
  obtain ⟨w, _, rep, d1, d2⟩ := forall₂_of_mem (forall₂_trans b1 b2) hb
  cases d1 with
  | @answer _ S2 d1 =>
    cases d2 with
    | @answer _ v d2 =>
      obtain ⟨ρ, gs, hg⟩ := d1.some
      refine ⟨S2, d1, ?_⟩
      obtain ⟨K, hK⟩ := C86_soon hM ((provedBy_unfold hu hf).2 ⟨k, hk, v, ρ, rfl, fun _ _ => rfl, (d2 ρ).1 ⟨gs, hg⟩⟩)
      refine ⟨K, fun {o o' fuel n ts} h1 hr hn => ?_⟩
      obtain ⟨bs, S, c1, c2, c3⟩ := hK h1 hr hn
      cases c3 with
      | answer c3 =>
        refine ⟨bs, S, c1, c2, fun ρ' => ?_⟩
        rw [c3, provedBy_unfold hu hf]
        constructor
        · rintro ⟨k', _, v', ρ3, e, hs, hv'⟩
          obtain ⟨rfl, rfl⟩ := List.cons.inj e
          obtain ⟨gs', hg'⟩ := (d2 ρ3).2 hv'
          exact ⟨ρ3, gs', hs, hg'⟩
        · rintro ⟨ρ3, gs', hs, hg'⟩
          exact ⟨k, hk, v, ρ3, rfl, hs, (d2 ρ3).1 ⟨gs', hg'⟩⟩

/-- **C94, bodies**: when the search for the call has ended, the search for the instance of the body of each clause ends, after at least two iterations less. -/
theorem C94_bodies_end {o e o2 o' : Org} {M fuel n ts fuel2 n2 ts2 k} (hu : Unfolds (inForce p) g ks us cl σ) (hf : g.fv ∉ ownFVs) (h : Asked o p [g]) (hM : Directed M p [g]) (hk : k ∈ ks)
    (h2 : Asked o2 p ((cl k).special (σ k))) (hr : o.iterate fuel n = .ok (e, ts)) (hq : e.queue = []) (hr2 : o2.iterate fuel2 n2 = .ok (o', ts2)) :
    ts2.length + 2 ≤ ts.length ∧ (ts.length ≤ n2 + 2 → o'.queue = []) := by
  have hc := Costs.of_search h hr hq
  have hk' := List.mem_append_left us hk
  have hi := hu.fits k hk
  have h0 : (cl k).body ≠ [] := fun h0 => h2.ne (by rw [Clause.special, h0]; rfl)
  obtain ⟨m, e, hb⟩ : ∃ m, m + 1 ≤ ts.length ∧ Costs (inForce p) [.clause (cl k) [] (Insts.query [g])] m := by
    generalize ts.length = l at hc
    cases hc with
    | cons t h3 h4 =>
      cases h4
      obtain ⟨rfl, _⟩ := t.det (STurn.call (ts := []) (S := Insts.query [g]) hf)
      obtain ⟨m, h5, h6⟩ := h3.mem (List.mem_map.2 ⟨cl k, List.mem_filter.2 ⟨List.mem_of_getElem? (hu.at_ k hk'), by simpa using hu.fv k hk'⟩, rfl⟩)
      exact ⟨m, by omega, h6⟩
  obtain ⟨m', rfl, hb'⟩ : ∃ m', m = m' + 1 ∧ Costs (inForce p) [.goals ((cl k).todo ++ []) ((Insts.query [g]).enter (cl k))] m' := by
    cases hb with
    | cons t h3 h4 =>
      cases h4
      obtain ⟨rfl, _⟩ := t.det (STurn.enter (fun he => he (fun _ => itreeAlg.int 0) _ ((enter_unfold hi).2 ⟨_, fun _ _ => rfl, rfl⟩)) (by rw [List.append_nil]; exact todo_noGoal h0))
      exact ⟨_, rfl, h3⟩
  obtain ⟨m, h3, h4⟩ := costs_folded hi hM (List.mem_of_getElem? (hu.at_ k hk')) (hu.fv k hk') h0 hb'
  obtain ⟨d1, d2, _⟩ := h4.search h2 hr2
  exact ⟨by omega, fun h => d2 (by omega)⟩

end

/-! ## A concrete case -/

namespace UnfoldExamples
open SoundExamples JoinedExamples

def first : Clause := ⟨.fn n!"r" [.cons n!"a", .var n!"X"], px ++ qy⟩
def second : Clause := ⟨.fn n!"r" [.cons n!"b", .var n!"X"], []⟩

/-- `r(a, X) :- p(X), q(Y). r(b, X).` before `p(a). p(b). q(b). q(c).` -/
def prog : List Clause := first :: second :: two

/-- `r(a, Z)` -/
def call : Node := .fn n!"r" [.cons n!"a", .var n!"Z"]

/-- `Z` in the place of `X` -/
def toZ : Name → Node := fun x => if x = n!"X" then .var n!"Z" else .var x

/-- The hypotheses are met: the instance `p(Z), q(Y)` of the body takes 9 iterations and has 4 answers, so the call takes 1 + (1 + 9) + 1 iterations and has 4 answers. -/
example : Unfolds (inForce prog) call [0] [1] (fun k => if k = 0 then first else second) (fun _ => toZ) ∧ call.fv ∉ ownFVs ∧ Asked (demo prog [call]) prog [call] ∧ Directed .free prog [call] ∧
    Took prog (first.special toZ) 9 4 ∧
    ((demo prog [call]).iterate 20 100).toOption.map (fun r => (r.1.queue, r.2.length, ((reports r.2).filter Res.isAnswer).length)) = some ([], 12, 4) := by
  refine ⟨⟨by decide, ?_, ?_, ?_, ?_, ?_⟩, by decide,
    asked_demo (by decide +kernel) (by decide +kernel) (safe_of_b (by decide +kernel)) (by decide) (by simp) (by decide +kernel), OnlyClauses.directed ⟨by decide, by decide⟩, ?_, by decide +kernel⟩
  · intro k hk
    simp only [List.cons_append, List.nil_append, List.mem_cons, List.not_mem_nil, or_false] at hk
    rcases hk with rfl | rfl <;> rfl
  · intro k hk
    simp only [List.cons_append, List.nil_append, List.mem_cons, List.not_mem_nil, or_false] at hk
    rcases hk with rfl | rfl <;> rfl
  · intro k' c' hk hf
    match k', hk with
    | 0, _ => decide
    | 1, _ => decide
    | 2, hk => cases hk; revert hf; decide
    | 3, hk => cases hk; revert hf; decide
    | 4, hk => cases hk; revert hf; decide
    | 5, hk => cases hk; revert hf; decide
    | 6, hk => cases hk; revert hf; decide
    | 7, hk => cases hk; revert hf; decide
    | _ + 8, hk => cases hk
  · intro k hk
    rw [List.mem_singleton.1 hk]
    have hl : ∀ x, first.Local x → x = n!"Y" := by
      rintro x ⟨⟨a, ha, hx⟩, hx'⟩
      have hv : Node.varss first.head.children = [n!"X"] := by decide
      rw [hv] at hx'
      have : x ∈ Node.varss first.body := by
        simp only [first, px, qy, List.cons_append, List.nil_append, List.mem_cons, List.not_mem_nil, or_false] at ha
        rcases ha with rfl | rfl <;> simp [first, px, qy, Node.vars, Node.varss] at hx ⊢ <;> simp [hx]
      have hb : Node.varss first.body = [n!"X", n!"Y"] := by decide
      rw [hb] at this
      simp only [List.mem_cons, List.not_mem_nil, or_false] at this hx'
      exact this.resolve_left hx'
    refine ⟨rfl, fun x hx => ?_, fun x x' hx hx' _ => (hl x hx).trans (hl x' hx').symm⟩
    rw [hl x hx]
    exact ⟨n!"Y", rfl, by decide⟩
  · intro k hk ρ τ he
    rw [List.mem_singleton.1 hk] at he
    have h1 := (List.cons.inj (congrArg GAtom.args he)).1
    exact absurd (itreeAlg_sharp.cons_inj h1) (by decide)
  · have h1 : ((demo prog (first.special toZ)).iterate 20 100).toOption.map (fun r => (r.1.queue, r.2.length, ((reports r.2).filter Res.isAnswer).length)) = some ([], 9, 4) := by decide +kernel
    have h2 : Asked (demo prog (first.special toZ)) prog (first.special toZ) :=
      asked_demo (by decide +kernel) (by decide +kernel) (safe_of_b (by decide +kernel)) (by decide) (by simp [first, Clause.special, px]) (by decide +kernel)
    cases hr : (demo prog (first.special toZ)).iterate 20 100 with
    | error e => rw [hr] at h1; cases h1
    | ok r =>
      rw [hr] at h1
      simp only [Except.toOption, Option.map_some, Option.some.injEq, Prod.mk.injEq] at h1
      obtain ⟨b1, b2, b3⟩ := h1
      have := Took.search h2 (M := .free) (OnlyClauses.directed ⟨by decide, by decide⟩) hr b1
      rwa [b2, b3] at this

end UnfoldExamples
end PBfs
