import Verif.Spec.Named
import Verif.Props.Joined
/-! # C92: giving a query a name -/
namespace PBfs
open Org

section
variable {p : List Clause} {k : Nat} {c : Clause}

theorem inst_same {a : Node} {ρ σ : Name → ITree} : a.inst itreeAlg ρ = a.inst itreeAlg σ ↔ SameArgs a ρ σ := by
  constructor
  · intro h
    exact Node.evals_inj itreeAlg_sharp _ (congrArg GAtom.args h)
  · intro h
    exact congrArg (GAtom.mk a.name) (Node.evals_vars h)

theorem OnlyClause.own (h : OnlyClause (inForce p) k c) : c.head.fv ∉ ownFVs := inForce_own c (List.mem_of_getElem? h.1)

/-- The proofs of the head are those of the body with the clause before them. -/
theorem provedBy_named (h : OnlyClause (inForce p) k c) {w ρ} : ProvedBy (inForce p) [c.head] w ρ ↔ ∃ v σ, w = k :: v ∧ SameArgs c.head ρ σ ∧ ProvedBy (inForce p) c.body v σ := by
  constructor
  · intro hw
    obtain ⟨k', c', σ, v, rfl, hk, e, hv⟩ := Follows.clause_inv hw (by rw [head_fv]; exact h.own)
    have hf : c'.head.fv = c.head.fv := by rw [← head_fv (A := itreeAlg) (ρ := σ), ← head_fv (A := itreeAlg) (ρ := ρ), e]
    obtain rfl := h.2 k' c' hk hf
    obtain rfl := Option.some.inj (h.1.symm.trans hk)
    rw [List.map_nil, List.append_nil] at hv
    exact ⟨v, σ, rfl, inst_same.1 e, hv⟩
  · rintro ⟨v, σ, rfl, hs, hv⟩
    rw [ProvedBy, List.map_cons, inst_same.2 hs]
    exact .clause h.1 (by rw [List.map_nil, List.append_nil]; exact hv)

/-- The beginnings as well. -/
theorem begunBy_named (h : OnlyClause (inForce p) k c) {w} : BegunBy (inForce p) [c.head] w ↔ w = [] ∨ ∃ v, w = k :: v ∧ BegunBy (inForce p) c.body v := by
  constructor
  · rintro ⟨ρ, hw⟩
    generalize hgs : [c.head].map (Node.inst itreeAlg ρ) = gs at hw
    cases hw with
    | nil => exact .inl rfl
    | @clause k' c' σ v rest hk hv =>
      obtain ⟨e, rfl⟩ := List.cons.inj hgs
      have hf : c'.head.fv = c.head.fv := by rw [← head_fv (A := itreeAlg) (ρ := σ), ← head_fv (A := itreeAlg) (ρ := ρ), e]
      obtain rfl := h.2 k' c' hk hf
      obtain rfl := Option.some.inj (h.1.symm.trans hk)
      rw [List.map_nil, List.append_nil] at hv
      exact .inr ⟨v, rfl, σ, hv⟩
    | own ho =>
      obtain ⟨rfl, _⟩ := List.cons.inj hgs
      exact absurd ho.fv (by rw [head_fv]; exact h.own)
  · rintro (rfl | ⟨v, rfl, σ, hv⟩)
    · exact ⟨fun _ => itreeAlg.int 0, .nil⟩
    · exact ⟨σ, .clause h.1 (by rw [List.map_nil, List.append_nil]; exact hv)⟩

end

/-! ## The answers -/

/-- **C92, where answers come from**: when the search for the body of a clause that is the only one for its predicate has ended, every answer to its head shows exactly what one of the answers to the body
shows of the variables of the head. -/
theorem C92_from {o1 o2 e2 o' : Org} {p k c M N fuel n ts fuel2 n2 ts2} (hk : OnlyClause (inForce p) k c) (h : Asked o1 p [c.head]) (hM : Directed M p [c.head]) (h2 : Asked o2 p c.body)
    (hN : Directed N p c.body) (hr : o1.iterate fuel n = .ok (o', ts)) (hr2 : o2.iterate fuel2 n2 = .ok (e2, ts2)) (hq2 : e2.queue = []) {bs} (hb : Res.answer bs ∈ reports ts) :
    ∃ bs2 S S2, Res.answer bs2 ∈ reports ts2 ∧ ShowsInsts o1.st [c.head] fuel bs S ∧ ShowsInsts o2.st c.body fuel2 bs2 S2 ∧ ∀ ρ, (∃ gs, S ρ gs) ↔ ∃ σ gs, SameArgs c.head ρ σ ∧ S2 σ gs := by
  obtain ⟨reps, ws, a1, a2, _, _⟩ := C86_proofs h hM hr
  obtain ⟨reps2, ws2, b1, b2, _, b4⟩ := C86_proofs h2 hN hr2
  obtain ⟨w, _, rep, d1, d2⟩ := forall₂_of_mem (forall₂_trans a1 a2) hb
  cases d1 with
  | @answer _ S d1 =>
    cases d2 with
    | @answer _ w d2 =>
      obtain ⟨ρ, gs, hg⟩ := d1.some
      obtain ⟨v, σ, rfl, _, hv⟩ := (provedBy_named hk).1 ((d2 ρ).1 ⟨gs, hg⟩)
      obtain ⟨r2, hr2, rep2, g1, g2⟩ := forall₂_of_mem' (forall₂_trans b1 b2) (b4 hq2 v _ hv)
      cases g2 with
      | @answer S2 _ g2 =>
        cases g1 with
        | @answer bs2 _ g1 =>
          refine ⟨bs2, S, S2, hr2, d1, g1, fun ρ' => ?_⟩
          rw [d2, provedBy_named hk]
          constructor
          · rintro ⟨v', σ', e, hs, hv'⟩
            obtain rfl := (List.cons.inj e).2
            obtain ⟨gs', hg'⟩ := (g2 σ').2 hv'
            exact ⟨σ', gs', hs, hg'⟩
          · rintro ⟨σ', gs', hs, hg'⟩
            exact ⟨v, σ', rfl, hs, (g2 σ').1 ⟨gs', hg'⟩⟩

/-- **C92, the other way**: every answer to the body leads to an answer to the head, after some number of iterations. -/
theorem C92_soon {o2 e2 : Org} {p k c M N fuel2 n2 ts2} (hk : OnlyClause (inForce p) k c) (hM : Directed M p [c.head]) (h2 : Asked o2 p c.body) (hN : Directed N p c.body)
    (hr2 : o2.iterate fuel2 n2 = .ok (e2, ts2)) {bs2} (hb : Res.answer bs2 ∈ reports ts2) :
    ∃ S2, ShowsInsts o2.st c.body fuel2 bs2 S2 ∧ ∃ K, ∀ {o1 o' : Org} {fuel n ts}, Asked o1 p [c.head] → o1.iterate fuel n = .ok (o', ts) → K ≤ ts.length ∨ o'.queue = [] →
      ∃ bs S, Res.answer bs ∈ reports ts ∧ ShowsInsts o1.st [c.head] fuel bs S ∧ ∀ ρ, (∃ gs, S ρ gs) ↔ ∃ σ gs, SameArgs c.head ρ σ ∧ S2 σ gs := by
  obtain ⟨reps2, ws2, b1, b2, _, _⟩ := C86_proofs h2 hN hr2
  obtain ⟨w, _, rep, d1, d2⟩ := forall₂_of_mem (forall₂_trans b1 b2) hb
  cases d1 with
  | @answer _ S2 d1 =>
    cases d2 with
    | @answer _ v d2 =>
      obtain ⟨ρ, gs, hg⟩ := d1.some
      refine ⟨S2, d1, ?_⟩
      obtain ⟨K, hK⟩ := C86_soon hM ((provedBy_named hk).2 ⟨v, ρ, rfl, fun _ _ => rfl, (d2 ρ).1 ⟨gs, hg⟩⟩)
      refine ⟨K, fun {o1 o' fuel n ts} h hr hn => ?_⟩
      obtain ⟨bs, S, c1, c2, c3⟩ := hK h hr hn
      cases c3 with
      | answer c3 =>
        refine ⟨bs, S, c1, c2, fun ρ' => ?_⟩
        rw [c3, provedBy_named hk]
        constructor
        · rintro ⟨v', σ', e, hs, hv'⟩
          obtain rfl := (List.cons.inj e).2
          obtain ⟨gs', hg'⟩ := (d2 σ').2 hv'
          exact ⟨σ', gs', hs, hg'⟩
        · rintro ⟨σ', gs', hs, hg'⟩
          exact ⟨v, σ', rfl, hs, (d2 σ').1 ⟨gs', hg'⟩⟩

/-- **C92, numbers**: when both searches have ended, there are as many answers to the head as to the body. -/
theorem C92_count {o1 e1 o2 e2 : Org} {p k c M N fuel n ts fuel2 n2 ts2} (hk : OnlyClause (inForce p) k c) (h : Asked o1 p [c.head]) (hM : Directed M p [c.head]) (h2 : Asked o2 p c.body)
    (hN : Directed N p c.body) (hr : o1.iterate fuel n = .ok (e1, ts)) (hq : e1.queue = []) (hr2 : o2.iterate fuel2 n2 = .ok (e2, ts2)) (hq2 : e2.queue = []) :
    ((reports ts).filter Res.isAnswer).length = ((reports ts2).filter Res.isAnswer).length := by
  obtain ⟨ws, a1, a2, a3⟩ := C86_count h hM hr hq
  obtain ⟨ws2, b1, b2, b3⟩ := C86_count h2 hN hr2 hq2
  rw [a3, b3, ← List.length_map (as := ws2) (List.cons k)]
  have hn : (ws2.map (List.cons k)).Nodup := by
    rw [List.Nodup, List.pairwise_map]
    exact List.Pairwise.imp (fun {a b} hab e => hab (List.cons.inj e).2) b1
  refine Nat.le_antisymm (List.subperm_of_subset a1 fun w hw => ?_).length_le (List.subperm_of_subset hn fun w hw => ?_).length_le
  · obtain ⟨ρ, hw⟩ := (a2 w).1 hw
    obtain ⟨v, σ, rfl, _, hv⟩ := (provedBy_named hk).1 hw
    exact List.mem_map.2 ⟨v, (b2 v).2 ⟨σ, hv⟩, rfl⟩
  · obtain ⟨v, hv, rfl⟩ := List.mem_map.1 hw
    obtain ⟨σ, hv⟩ := (b2 v).1 hv
    exact (a2 _).2 ⟨σ, (provedBy_named hk).2 ⟨v, σ, rfl, fun _ _ => rfl, hv⟩⟩

/-! ## The end -/

/-- The beginnings of proofs after a search that has ended. -/
theorem begun_list {o e : Org} {p q M fuel k ts} (h : Asked o p q) (hM : Directed M p q) (hr : o.iterate fuel k = .ok (e, ts)) (hq : e.queue = []) :
    ∃ L : List (List Nat), L.length ≤ ts.length ∧ (∀ w, w ∈ L → BegunBy (inForce p) q w) ∧ (∀ w, BegunBy (inForce p) q w → w ∈ L) ∧ ∀ w ∈ L, w.length < ts.length := by
  classical
  obtain ⟨items, rs, a1, a3, a4⟩ := C42_breadth_first_resolution_partial h hr
  rw [hq] at a4
  obtain rfl := List.length_eq_zero_iff.1 a4
  obtain ⟨L, e, hL⟩ := a1.begun hM
  have e : L.length = ts.length := e.trans a3.length_eq.symm
  exact ⟨L.filter fun w => decide (BegunBy (inForce p) q w), e ▸ List.length_filter_le _ _, fun w hw => by simpa using (List.mem_filter.1 hw).2,
    fun w hw => List.mem_filter.2 ⟨hL w hw, by simpa using hw⟩, fun w hw => e ▸ BegunBy.length_lt (by simpa using (List.mem_filter.1 hw).2) hL⟩

/-- **C92, the end**: when the search for the body has ended, the search for the head ends. -/
theorem C92_ends {o1 o2 e2 o' : Org} {p k c M N fuel n ts fuel2 n2 ts2 b m} (hk : OnlyClause (inForce p) k c) (h : Asked o1 p [c.head]) (hM : Directed M p [c.head]) (h2 : Asked o2 p c.body)
    (hN : Directed N p c.body) (hb : AtMost b (inForce p)) (hm : ∀ c ∈ inForce p, c.body.length ≤ m) (hr2 : o2.iterate fuel2 n2 = .ok (e2, ts2)) (hq2 : e2.queue = [])
    (hr : o1.iterate fuel n = .ok (o', ts)) :
    ts.length ≤ perBeginning b m ts2.length 1 * (ts2.length + 1) ∧ (perBeginning b m ts2.length 1 * (ts2.length + 1) < n → o'.queue = []) := by
  obtain ⟨L, l1, _, l2, l3⟩ := begun_list h2 hN hr2 hq2
  obtain ⟨g1, g2⟩ := C89_most h hM (L := [] :: L.map (List.cons k)) (d := ts2.length) (fun w hw => by
      rcases (begunBy_named hk).1 hw with rfl | ⟨v, rfl, hv⟩
      · exact .head _
      · exact .tail _ (List.mem_map.2 ⟨v, l2 v hv, rfl⟩)) (fun w hw => by
      rcases List.mem_cons.1 hw with rfl | hw
      · exact Nat.zero_le _
      · obtain ⟨v, hv, rfl⟩ := List.mem_map.1 hw
        exact l3 v hv) hb hm hr
  have hmul : perBeginning b m ts2.length [c.head].length * ([] :: L.map (List.cons k)).length ≤ perBeginning b m ts2.length 1 * (ts2.length + 1) :=
    Nat.mul_le_mul_left _ (by rw [List.length_cons, List.length_map]; omega)
  exact ⟨Nat.le_trans g1 hmul, fun hk => g2 (Nat.lt_of_le_of_lt hmul hk)⟩

/-- **C92, the end the other way**: when the search for the head has ended, the search for the body ends. -/
theorem C92_body_ends {o1 e1 o2 o' : Org} {p k c M N fuel n ts fuel2 n2 ts2 b m} (hk : OnlyClause (inForce p) k c) (h : Asked o1 p [c.head]) (hM : Directed M p [c.head]) (h2 : Asked o2 p c.body)
    (hN : Directed N p c.body) (hb : AtMost b (inForce p)) (hm : ∀ c ∈ inForce p, c.body.length ≤ m) (hr : o1.iterate fuel n = .ok (e1, ts)) (hq : e1.queue = [])
    (hr2 : o2.iterate fuel2 n2 = .ok (o', ts2)) :
    ts2.length ≤ perBeginning b m ts.length c.body.length * ts.length ∧ (perBeginning b m ts.length c.body.length * ts.length < n2 → o'.queue = []) := by
  obtain ⟨L, l1, _, l2, l3⟩ := begun_list h hM hr hq
  obtain ⟨g1, g2⟩ := C89_most h2 hN (L := L.map List.tail) (d := ts.length) (fun v hv => List.mem_map.2 ⟨k :: v, l2 _ ((begunBy_named hk).2 (.inr ⟨v, rfl, hv⟩)), rfl⟩) (fun w hw => by
      obtain ⟨v, hv, rfl⟩ := List.mem_map.1 hw
      have := l3 v hv
      rw [List.length_tail]
      omega) hb hm hr2
  have hmul : perBeginning b m ts.length c.body.length * (L.map List.tail).length ≤ perBeginning b m ts.length c.body.length * ts.length :=
    Nat.mul_le_mul_left _ (by rw [List.length_map]; omega)
  exact ⟨Nat.le_trans g1 hmul, fun hk => g2 (Nat.lt_of_le_of_lt hmul hk)⟩

/-! ## Concrete cases -/

namespace NamedExamples
open SoundExamples JoinedExamples

/-- `both(X) :- p(X), q(Y).` before `p(a). p(b). q(b). q(c).` -/
def both : Clause := ⟨.fn n!"both" [.var n!"X"], px ++ qy⟩

/-- The hypotheses are met: four answers to `both(X)`, as to `p(X), q(Y)`. -/
example : OnlyClause (inForce (both :: two)) 0 both ∧ Asked (demo (both :: two) [both.head]) (both :: two) [both.head] ∧ Directed .free (both :: two) [both.head] ∧
    Asked (demo (both :: two) both.body) (both :: two) both.body ∧ Directed .free (both :: two) both.body ∧
    ((demo (both :: two) [both.head]).iterate 20 100).toOption.map (fun r => (r.1.queue, reports r.2)) =
      some ([], [.answer [⟨n!"X", n!"a"⟩], .answer [⟨n!"X", n!"a"⟩], .answer [⟨n!"X", n!"b"⟩], .answer [⟨n!"X", n!"b"⟩]]) ∧
    ((demo (both :: two) both.body).iterate 20 100).toOption.map (fun r => (r.1.queue, (reports r.2).length)) = some ([], 4) :=
  ⟨⟨rfl, fun k' c' hk hf => by
      match k', hk with
      | 0, _ => rfl
      | 1, hk => cases hk; revert hf; decide
      | 2, hk => cases hk; revert hf; decide
      | 3, hk => cases hk; revert hf; decide
      | 4, hk => cases hk; revert hf; decide
      | 5, hk => cases hk; revert hf; decide
      | 6, hk => cases hk; revert hf; decide
      | _ + 7, hk => cases hk⟩,
   asked_demo (by decide +kernel) (by decide +kernel) (safe_of_b (by decide +kernel)) (by decide) (by simp) (by decide +kernel), OnlyClauses.directed ⟨by decide, by decide⟩,
   asked_demo (by decide +kernel) (by decide +kernel) (safe_of_b (by decide +kernel)) (by decide) (by simp [both, px]) (by decide +kernel), OnlyClauses.directed ⟨by decide, by decide⟩,
   by decide +kernel, by decide +kernel⟩

end NamedExamples
end PBfs
