import Verif.Props.Special
/-! # C91: queries put together -/
namespace PBfs
open Org

section
variable {p : List Clause}

/-! ## Proofs put together -/

theorem Follows.append {P w v gs hs} (h : Follows P w gs) (h' : Follows P v hs) : Follows P (w ++ v) (gs ++ hs) := by
  induction h with
  | nil => exact h'
  | clause hk _ ih => exact .clause hk (by rwa [List.append_assoc] at ih)
  | own h _ ih => exact .own h ih

theorem Follows.split {P w gs} (h : Follows P w gs) : ∀ xs ys, gs = xs ++ ys → ∃ u v, w = u ++ v ∧ Follows P u xs ∧ Follows P v ys := by
  induction h with
  | nil =>
    intro xs ys e
    obtain ⟨rfl, rfl⟩ := List.append_eq_nil_iff.1 e.symm
    exact ⟨[], [], rfl, .nil, .nil⟩
  | @clause k c σ w rest hk h ih =>
    intro xs ys e
    match xs, e with
    | [], e => exact ⟨[], k :: w, rfl, .nil, by subst e; exact .clause hk h⟩
    | x :: xs, e =>
      obtain ⟨rfl, rfl⟩ := List.cons.inj e
      obtain ⟨u, v, rfl, h1, h2⟩ := ih (_ ++ xs) ys (List.append_assoc ..).symm
      exact ⟨k :: u, v, rfl, .clause hk h1, h2⟩
  | @own g w rest ho h ih =>
    intro xs ys e
    match xs, e with
    | [], e => exact ⟨[], w, rfl, .nil, by subst e; exact .own ho h⟩
    | x :: xs, e =>
      obtain ⟨rfl, rfl⟩ := List.cons.inj e
      obtain ⟨u, v, rfl, h1, h2⟩ := ih xs ys rfl
      exact ⟨u, v, rfl, .own ho h1, h2⟩

/-- A beginning for all goals is one for the first of them, or a proof of these with a beginning for the others. -/
theorem BeginsBy.split {P w gs} (h : BeginsBy P w gs) : ∀ xs ys, gs = xs ++ ys → BeginsBy P w xs ∨ ∃ u v, w = u ++ v ∧ Follows P u xs ∧ BeginsBy P v ys := by
  induction h with
  | nil => exact fun xs ys e => .inl .nil
  | @clause k c σ w rest hk h ih =>
    intro xs ys e
    match xs, e with
    | [], e => exact .inr ⟨[], k :: w, rfl, .nil, by subst e; exact .clause hk h⟩
    | x :: xs, e =>
      obtain ⟨rfl, rfl⟩ := List.cons.inj e
      rcases ih (_ ++ xs) ys (List.append_assoc ..).symm with h1 | ⟨u, v, rfl, h1, h2⟩
      · exact .inl (.clause hk h1)
      · exact .inr ⟨k :: u, v, rfl, .clause hk h1, h2⟩
  | @own g w rest ho h ih =>
    intro xs ys e
    match xs, e with
    | [], e => exact .inr ⟨[], w, rfl, .nil, by subst e; exact .own ho h⟩
    | x :: xs, e =>
      obtain ⟨rfl, rfl⟩ := List.cons.inj e
      rcases ih xs ys rfl with h1 | ⟨u, v, rfl, h1, h2⟩
      · exact .inl (.own ho h1)
      · exact .inr ⟨u, v, rfl, .own ho h1, h2⟩

theorem Follows.begins {P w gs} (h : Follows P w gs) : BeginsBy P w gs := by
  induction h with
  | nil => exact .nil
  | clause hk _ ih => exact .clause hk ih
  | own h _ ih => exact .own h ih

/-- A proof does not go on: no proof of an instance of a query is a beginning of another one. -/
theorem Follows.ended {w gs} (h : Follows (inForce p) w gs) : ∀ gs' v, gs'.map GAtom.fv = gs.map GAtom.fv → Follows (inForce p) (w ++ v) gs' → v = [] := by
  induction h with
  | nil =>
    intro gs' v e h'
    obtain rfl := List.map_eq_nil_iff.1 e
    generalize hv : [] ++ v = v' at h'
    cases h'
    exact hv
  | @clause k c σ w rest hk h ih =>
    intro gs' v e h'
    match gs', e with
    | g :: gs', e =>
      obtain ⟨e1, e2⟩ := List.cons.inj e
      obtain ⟨k', c', σ', w', e3, hk', rfl, h2⟩ := h'.clause_inv (by rw [e1, head_fv]; exact inForce_own c (List.mem_of_getElem? hk))
      obtain ⟨rfl, rfl⟩ := List.cons.inj e3
      obtain rfl := Option.some.inj (hk.symm.trans hk')
      exact ih _ v (by rw [List.map_append, List.map_append, inst_fvs, inst_fvs, e2]) h2
  | @own g w rest ho h ih =>
    intro gs' v e h'
    match gs', e with
    | g' :: gs', e =>
      obtain ⟨e1, e2⟩ := List.cons.inj e
      exact ih gs' v e2 (h'.own_inv (e1 ▸ ho.fv)).2

/-- So proofs put together can be told apart. -/
theorem ProvedBy.unique {q : List Node} {u v u' v' ρ ρ'} (h : ProvedBy (inForce p) q u ρ) (h' : ProvedBy (inForce p) q u' ρ') (e : u ++ v = u' ++ v') : u = u' ∧ v = v' := by
  rcases List.append_eq_append_iff.1 e with ⟨a, rfl, rfl⟩ | ⟨a, rfl, rfl⟩
  · obtain rfl := Follows.ended h _ a (by rw [inst_fvs, inst_fvs]) h'
    simp
  · obtain rfl := Follows.ended h' _ a (by rw [inst_fvs, inst_fvs]) h
    simp

theorem provedBy_append {P w ρ} {q1 q2 : List Node} : ProvedBy P (q1 ++ q2) w ρ ↔ ∃ u v, w = u ++ v ∧ ProvedBy P q1 u ρ ∧ ProvedBy P q2 v ρ := by
  constructor
  · intro h
    exact Follows.split h _ _ (List.map_append ..)
  · rintro ⟨u, v, rfl, h1, h2⟩
    rw [ProvedBy, List.map_append]
    exact Follows.append h1 h2

end

/-! ## The answers -/

/-- **C91, where answers come from**: when the searches for two queries have ended, every answer to the query with the goals of both shows what an answer to the first and an answer to the second show in
common. -/
theorem C91_from {o1 e1 o2 e2 o o' : Org} {p q1 q2 M1 M2 M fuel1 k1 ts1 fuel2 k2 ts2 fuel k ts} (h1 : Asked o1 p q1) (hM1 : Directed M1 p q1) (h2 : Asked o2 p q2) (hM2 : Directed M2 p q2)
    (h : Asked o p (q1 ++ q2)) (hM : Directed M p (q1 ++ q2)) (hr1 : o1.iterate fuel1 k1 = .ok (e1, ts1)) (hq1 : e1.queue = []) (hr2 : o2.iterate fuel2 k2 = .ok (e2, ts2)) (hq2 : e2.queue = [])
    (hr : o.iterate fuel k = .ok (o', ts)) {bs} (hb : Res.answer bs ∈ reports ts) :
    ∃ bs1 bs2 S1 S2 S, Res.answer bs1 ∈ reports ts1 ∧ Res.answer bs2 ∈ reports ts2 ∧ ShowsInsts o1.st q1 fuel1 bs1 S1 ∧ ShowsInsts o2.st q2 fuel2 bs2 S2 ∧ ShowsInsts o.st (q1 ++ q2) fuel bs S ∧
      ∀ ρ, (∃ gs, S ρ gs) ↔ (∃ gs, S1 ρ gs) ∧ ∃ gs, S2 ρ gs := by
  obtain ⟨reps1, ws1, a1, a2, _, a4⟩ := C86_proofs h1 hM1 hr1
  obtain ⟨reps2, ws2, b1, b2, _, b4⟩ := C86_proofs h2 hM2 hr2
  obtain ⟨reps, ws, c1, c2, _, _⟩ := C86_proofs h hM hr
  obtain ⟨w, _, rep, d1, d2⟩ := forall₂_of_mem (forall₂_trans c1 c2) hb
  cases d1 with
  | @answer _ S d1 =>
    cases d2 with
    | @answer _ w d2 =>
      obtain ⟨ρ, gs, hg⟩ := d1.some
      obtain ⟨u, v, rfl, hu, hv⟩ := provedBy_append.1 ((d2 ρ).1 ⟨gs, hg⟩)
      obtain ⟨r1, hr1, rep1, f1, f2⟩ := forall₂_of_mem' (forall₂_trans a1 a2) (a4 hq1 u _ hu)
      obtain ⟨r2, hr2, rep2, g1, g2⟩ := forall₂_of_mem' (forall₂_trans b1 b2) (b4 hq2 v _ hv)
      cases f2 with
      | @answer S1 _ f2 =>
        cases f1 with
        | @answer bs1 _ f1 =>
          cases g2 with
          | @answer S2 _ g2 =>
            cases g1 with
            | @answer bs2 _ g1 =>
              refine ⟨bs1, bs2, S1, S2, S, hr1, hr2, f1, g1, d1, fun ρ' => ?_⟩
              rw [d2, f2, g2, provedBy_append]
              constructor
              · rintro ⟨u', v', e, hu', hv'⟩
                obtain ⟨rfl, rfl⟩ := hu.unique hu' e
                exact ⟨hu', hv'⟩
              · rintro ⟨hu', hv'⟩
                exact ⟨u, v, rfl, hu', hv'⟩

/-- **C91, the other way**: answers to two queries that show something in common lead to an answer to the query with the goals of both that shows just this, after some number of iterations. -/
theorem C91_soon {o1 e1 o2 e2 : Org} {p q1 q2 M1 M2 M fuel1 k1 ts1 fuel2 k2 ts2} (h1 : Asked o1 p q1) (hM1 : Directed M1 p q1) (h2 : Asked o2 p q2) (hM2 : Directed M2 p q2)
    (hM : Directed M p (q1 ++ q2)) (hr1 : o1.iterate fuel1 k1 = .ok (e1, ts1)) (hr2 : o2.iterate fuel2 k2 = .ok (e2, ts2)) {bs1 bs2}
    (hb1 : Res.answer bs1 ∈ reports ts1) (hb2 : Res.answer bs2 ∈ reports ts2) :
    ∃ S1 S2, ShowsInsts o1.st q1 fuel1 bs1 S1 ∧ ShowsInsts o2.st q2 fuel2 bs2 S2 ∧ ∀ ρ gs1 gs2, S1 ρ gs1 → S2 ρ gs2 → ∃ K, ∀ {o o' : Org} {fuel k ts}, Asked o p (q1 ++ q2) →
      o.iterate fuel k = .ok (o', ts) → K ≤ ts.length ∨ o'.queue = [] → ∃ bs S, Res.answer bs ∈ reports ts ∧ ShowsInsts o.st (q1 ++ q2) fuel bs S ∧
        ∀ ρ, (∃ gs, S ρ gs) ↔ (∃ gs, S1 ρ gs) ∧ ∃ gs, S2 ρ gs := by
  obtain ⟨reps1, ws1, a1, a2, _, _⟩ := C86_proofs h1 hM1 hr1
  obtain ⟨reps2, ws2, b1, b2, _, _⟩ := C86_proofs h2 hM2 hr2
  obtain ⟨w1, _, rep1, f1, f2⟩ := forall₂_of_mem (forall₂_trans a1 a2) hb1
  obtain ⟨w2, _, rep2, g1, g2⟩ := forall₂_of_mem (forall₂_trans b1 b2) hb2
  cases f1 with
  | @answer _ S1 f1 =>
    cases f2 with
    | @answer _ u f2 =>
      cases g1 with
      | @answer _ S2 g1 =>
        cases g2 with
        | @answer _ v g2 =>
          refine ⟨S1, S2, f1, g1, fun ρ gs1 gs2 s1 s2 => ?_⟩
          have hu := (f2 ρ).1 ⟨gs1, s1⟩
          obtain ⟨K, hK⟩ := C86_soon hM (provedBy_append.2 ⟨u, v, rfl, hu, (g2 ρ).1 ⟨gs2, s2⟩⟩)
          refine ⟨K, fun {o o' fuel k ts} h hr hk => ?_⟩
          obtain ⟨bs, S, c1, c2, c3⟩ := hK h hr hk
          cases c3 with
          | answer c3 =>
            refine ⟨bs, S, c1, c2, fun ρ' => ?_⟩
            rw [c3, f2, g2, provedBy_append]
            constructor
            · rintro ⟨u', v', e, hu', hv'⟩
              obtain ⟨rfl, rfl⟩ := hu.unique hu' e
              exact ⟨hu', hv'⟩
            · rintro ⟨hu', hv'⟩
              exact ⟨u, v, rfl, hu', hv'⟩

/-- **C91, calls of `get_answer`**: the same for calls that have gone on until there were no more answers. -/
theorem C91_sessions {o1 e1 o2 e2 o o' : Org} {p q1 q2 M1 M2 M fuel1 clocks1 rs1 fuel2 clocks2 rs2 fuel clocks rs} (h1 : Asked o1 p q1) (hM1 : Directed M1 p q1) (h2 : Asked o2 p q2)
    (hM2 : Directed M2 p q2) (h : Asked o p (q1 ++ q2)) (hM : Directed M p (q1 ++ q2)) (hs1 : o1.session fuel1 clocks1 = .ok (e1, rs1)) (hl1 : rs1.getLast? = some .noAnswer)
    (hs2 : o2.session fuel2 clocks2 = .ok (e2, rs2)) (hl2 : rs2.getLast? = some .noAnswer) (hs : o.session fuel clocks = .ok (o', rs)) {bs} (hb : Res.answer bs ∈ rs) :
    ∃ bs1 bs2 S1 S2 S, Res.answer bs1 ∈ rs1 ∧ Res.answer bs2 ∈ rs2 ∧ ShowsInsts o1.st q1 fuel1 bs1 S1 ∧ ShowsInsts o2.st q2 fuel2 bs2 S2 ∧ ShowsInsts o.st (q1 ++ q2) fuel bs S ∧
      ∀ ρ, (∃ gs, S ρ gs) ↔ (∃ gs, S1 ρ gs) ∧ ∃ gs, S2 ρ gs := by
  obtain ⟨ts1, a1, a2⟩ := C05_timeouts_transparent h1.reach hs1
  obtain ⟨ts2, b1, b2⟩ := C05_timeouts_transparent h2.reach hs2
  obtain ⟨ts, c1, c2⟩ := C05_timeouts_transparent h.reach hs
  obtain ⟨bs1, bs2, S1, S2, S, d1, d2, d3⟩ := C91_from h1 hM1 h2 hM2 h hM a1 (session_exhausted hs1 hl1 h1.reach.rinv) b1 (session_exhausted hs2 hl2 h2.reach.rinv) c1
    (c2 ▸ List.mem_filter.2 ⟨hb, rfl⟩)
  exact ⟨bs1, bs2, S1, S2, S, (List.mem_filter.1 (a2 ▸ d1)).1, (List.mem_filter.1 (b2 ▸ d2)).1, d3⟩

/-! ## Their number -/

/-- All pairs put together. -/
def pairings (L1 L2 : List (List Nat)) : List (List Nat) := L1.flatMap fun u => L2.map (u ++ ·)

theorem pairings_length {L1 L2} : (pairings L1 L2).length = L1.length * L2.length := by
  induction L1 with
  | nil => simp [pairings]
  | cons u L ih =>
    have e : pairings (u :: L) L2 = L2.map (u ++ ·) ++ pairings L L2 := rfl
    rw [e, List.length_append, ih, List.length_map, List.length_cons, Nat.succ_mul, Nat.add_comm]

theorem mem_pairings {L1 L2 w} : w ∈ pairings L1 L2 ↔ ∃ u ∈ L1, ∃ v ∈ L2, w = u ++ v := by
  simp [pairings, eq_comm]

theorem pairings_nodup {p : List Clause} {q : List Node} {L1 L2} (h1 : L1.Nodup) (h2 : L2.Nodup) (hp : ∀ u ∈ L1, ∃ ρ, ProvedBy (inForce p) q u ρ) : (pairings L1 L2).Nodup := by
  induction L1 with
  | nil => simp [pairings]
  | cons u L ih =>
    have e : pairings (u :: L) L2 = L2.map (u ++ ·) ++ pairings L L2 := rfl
    rw [List.nodup_cons] at h1
    rw [e, List.nodup_append]
    refine ⟨?_, ih h1.2 fun v hv => hp v (.tail _ hv), fun a ha b hb hab => ?_⟩
    · rw [List.Nodup, List.pairwise_map]
      exact List.Pairwise.imp (fun {a b} hab e => hab (List.append_cancel_left e)) h2
    · subst hab
      obtain ⟨v, _, rfl⟩ := List.mem_map.1 ha
      obtain ⟨u', hu', v', _, e⟩ := mem_pairings.1 hb
      obtain ⟨ρ, hu⟩ := hp u (.head _)
      obtain ⟨ρ', hu''⟩ := hp u' (.tail _ hu')
      obtain ⟨rfl, _⟩ := hu.unique hu'' e
      exact h1.1 hu'

theorem insts_congr {ρ ρ' : Name → ITree} {q : List Node} (h : ∀ a ∈ q, ∀ x ∈ a.vars, ρ x = ρ' x) : q.map (Node.inst itreeAlg ρ) = q.map (Node.inst itreeAlg ρ') := by
  refine List.map_congr_left fun a ha => ?_
  have := h a ha
  cases a with
  | fn f cs => exact congrArg (GAtom.mk f) (Node.evals_vars fun v hv => this v (by simpa [Node.vars, Node.children] using hv))
  | efn f cs => exact congrArg (GAtom.mk f) (Node.evals_vars fun v hv => this v (by simpa [Node.vars, Node.children] using hv))
  | _ => rfl

/-- **C91, numbers**: when all three searches have ended, the query with the goals of both has at most as many answers as the product of the numbers of answers; and if the two queries have no variable
in common, just as many. -/
theorem C91_count {o1 e1 o2 e2 o e : Org} {p q1 q2 M1 M2 M fuel1 k1 ts1 fuel2 k2 ts2 fuel k ts} (h1 : Asked o1 p q1) (hM1 : Directed M1 p q1) (h2 : Asked o2 p q2) (hM2 : Directed M2 p q2)
    (h : Asked o p (q1 ++ q2)) (hM : Directed M p (q1 ++ q2)) (hr1 : o1.iterate fuel1 k1 = .ok (e1, ts1)) (hq1 : e1.queue = []) (hr2 : o2.iterate fuel2 k2 = .ok (e2, ts2)) (hq2 : e2.queue = [])
    (hr : o.iterate fuel k = .ok (e, ts)) (hq : e.queue = []) :
    ((reports ts).filter Res.isAnswer).length ≤ ((reports ts1).filter Res.isAnswer).length * ((reports ts2).filter Res.isAnswer).length ∧
    ((∀ a ∈ q1, ∀ b ∈ q2, ∀ x ∈ a.vars, x ∉ b.vars) →
      ((reports ts).filter Res.isAnswer).length = ((reports ts1).filter Res.isAnswer).length * ((reports ts2).filter Res.isAnswer).length) := by
  classical
  obtain ⟨ws1, a1, a2, a3⟩ := C86_count h1 hM1 hr1 hq1
  obtain ⟨ws2, b1, b2, b3⟩ := C86_count h2 hM2 hr2 hq2
  obtain ⟨ws, c1, c2, c3⟩ := C86_count h hM hr hq
  rw [a3, b3, c3, ← pairings_length]
  have hle : ws.length ≤ (pairings ws1 ws2).length := by
    refine (List.subperm_of_subset c1 fun w hw => ?_).length_le
    obtain ⟨ρ, hw⟩ := (c2 w).1 hw
    obtain ⟨u, v, rfl, hu, hv⟩ := provedBy_append.1 hw
    exact mem_pairings.2 ⟨u, (a2 u).2 ⟨ρ, hu⟩, v, (b2 v).2 ⟨ρ, hv⟩, rfl⟩
  refine ⟨hle, fun hd => Nat.le_antisymm hle ?_⟩
  refine (List.subperm_of_subset (pairings_nodup a1 b1 fun u hu => (a2 u).1 hu) fun w hw => ?_).length_le
  obtain ⟨u, hu, v, hv, rfl⟩ := mem_pairings.1 hw
  obtain ⟨ρ1, hu⟩ := (a2 u).1 hu
  obtain ⟨ρ2, hv⟩ := (b2 v).1 hv
  refine (c2 _).2 ⟨fun x => if ∃ a ∈ q1, x ∈ a.vars then ρ1 x else ρ2 x, provedBy_append.2 ⟨u, v, rfl, ?_, ?_⟩⟩
  · rw [ProvedBy, insts_congr (ρ' := ρ1)]
    · exact hu
    · intro a ha x hx
      exact if_pos ⟨a, ha, hx⟩
  · rw [ProvedBy, insts_congr (ρ' := ρ2)]
    · exact hv
    · intro b hb x hx
      exact if_neg fun ⟨a, ha, hx'⟩ => hd a ha b hb x hx' hx

/-! ## The end -/

/-- **C91, the end**: when the searches for two queries have ended, the search for the query with the goals of both ends. -/
theorem C91_ends {o1 e1 o2 e2 o o' : Org} {p q1 q2 M1 M2 M fuel1 k1 ts1 fuel2 k2 ts2 fuel k ts b m} (h1 : Asked o1 p q1) (hM1 : Directed M1 p q1) (h2 : Asked o2 p q2) (hM2 : Directed M2 p q2)
    (h : Asked o p (q1 ++ q2)) (hM : Directed M p (q1 ++ q2)) (hb : AtMost b (inForce p)) (hm : ∀ c ∈ inForce p, c.body.length ≤ m)
    (hr1 : o1.iterate fuel1 k1 = .ok (e1, ts1)) (hq1 : e1.queue = []) (hr2 : o2.iterate fuel2 k2 = .ok (e2, ts2)) (hq2 : e2.queue = []) (hr : o.iterate fuel k = .ok (o', ts)) :
    ts.length ≤ perBeginning b m (ts1.length + ts2.length) (q1.length + q2.length) * (ts1.length * (ts2.length + 1)) ∧
    (perBeginning b m (ts1.length + ts2.length) (q1.length + q2.length) * (ts1.length * (ts2.length + 1)) < k → o'.queue = []) := by
  classical
  have part : ∀ {o e : Org} {q M fuel k ts}, Asked o p q → Directed M p q → o.iterate fuel k = .ok (e, ts) → e.queue = [] →
      ∃ L : List (List Nat), L.length ≤ ts.length ∧ (∀ w, BegunBy (inForce p) q w → w ∈ L) ∧ ∀ w ∈ L, w.length ≤ ts.length := by
    intro o e q M fuel k ts h hM hr hq
    obtain ⟨items, rs, a1, a3, a4⟩ := C42_breadth_first_resolution_partial h hr
    rw [hq] at a4
    obtain rfl := List.length_eq_zero_iff.1 a4
    obtain ⟨L, e, hL⟩ := a1.begun hM
    have e : L.length = ts.length := e.trans a3.length_eq.symm
    exact ⟨L.filter fun w => decide (BegunBy (inForce p) q w), e ▸ List.length_filter_le _ _, fun w hw => List.mem_filter.2 ⟨hL w hw, by simpa using hw⟩,
      fun w hw => Nat.le_of_lt (e ▸ BegunBy.length_lt (by simpa using (List.mem_filter.1 hw).2) hL)⟩
  obtain ⟨L1, l1, c1, d1⟩ := part h1 hM1 hr1 hq1
  obtain ⟨L2, l2, c2, d2⟩ := part h2 hM2 hr2 hq2
  have hl : (L1 ++ pairings L1 L2).length ≤ ts1.length * (ts2.length + 1) := by
    rw [List.length_append, pairings_length, Nat.mul_succ, Nat.add_comm]
    exact Nat.add_le_add (Nat.mul_le_mul l1 l2) l1
  obtain ⟨g1, g2⟩ := C89_most h hM (L := L1 ++ pairings L1 L2) (d := ts1.length + ts2.length) (fun w ⟨ρ, hw⟩ => by
      rcases hw.split _ _ (List.map_append ..) with hw | ⟨u, v, rfl, hu, hv⟩
      · exact List.mem_append_left _ (c1 w ⟨ρ, hw⟩)
      · exact List.mem_append_right _ (mem_pairings.2 ⟨u, c1 u ⟨ρ, hu.begins⟩, v, c2 v ⟨ρ, hv⟩, rfl⟩)) (fun w hw => by
      rcases List.mem_append.1 hw with hw | hw
      · have := d1 w hw; omega
      · obtain ⟨u, hu, v, hv, rfl⟩ := mem_pairings.1 hw
        have := d1 u hu
        have := d2 v hv
        rw [List.length_append]
        omega) hb hm hr
  rw [List.length_append] at g1 g2
  have hmul := Nat.mul_le_mul_left (perBeginning b m (ts1.length + ts2.length) (q1.length + q2.length)) hl
  exact ⟨Nat.le_trans g1 hmul, fun hk => g2 (Nat.lt_of_le_of_lt hmul hk)⟩

/-! ## Concrete cases -/

namespace JoinedExamples
open SoundExamples

/-- `p(a). p(b). q(b). q(c).` -/
def two : List Clause := [⟨.fn n!"p" [.cons n!"a"], []⟩, ⟨.fn n!"p" [.cons n!"b"], []⟩, ⟨.fn n!"q" [.cons n!"b"], []⟩, ⟨.fn n!"q" [.cons n!"c"], []⟩]

def px : List Node := [.fn n!"p" [.var n!"X"]]
def qx : List Node := [.fn n!"q" [.var n!"X"]]
def qy : List Node := [.fn n!"q" [.var n!"Y"]]

/-- The hypotheses are met by `p(X)` with two answers, `q(Y)` with two answers and `p(X), q(Y)` with four. -/
example : Asked (demo two px) two px ∧ Directed .free two px ∧ Asked (demo two qy) two qy ∧ Directed .free two qy ∧ Asked (demo two (px ++ qy)) two (px ++ qy) ∧ Directed .free two (px ++ qy) ∧
    (∀ a ∈ px, ∀ b ∈ qy, ∀ x ∈ a.vars, x ∉ b.vars) ∧
    ((demo two px).iterate 20 100).toOption.map (fun r => (r.1.queue, ((reports r.2).filter Res.isAnswer).length)) = some ([], 2) ∧
    ((demo two qy).iterate 20 100).toOption.map (fun r => (r.1.queue, ((reports r.2).filter Res.isAnswer).length)) = some ([], 2) ∧
    ((demo two (px ++ qy)).iterate 20 100).toOption.map (fun r => (r.1.queue, ((reports r.2).filter Res.isAnswer).length)) = some ([], 4) :=
  ⟨asked_demo (by decide +kernel) (by decide +kernel) (safe_of_b (by decide +kernel)) (by decide) (by simp [px]) (by decide +kernel), OnlyClauses.directed ⟨by decide, by decide⟩,
   asked_demo (by decide +kernel) (by decide +kernel) (safe_of_b (by decide +kernel)) (by decide) (by simp [qy]) (by decide +kernel), OnlyClauses.directed ⟨by decide, by decide⟩,
   asked_demo (by decide +kernel) (by decide +kernel) (safe_of_b (by decide +kernel)) (by decide) (by simp [px]) (by decide +kernel), OnlyClauses.directed ⟨by decide, by decide⟩,
   by decide, by decide +kernel, by decide +kernel, by decide +kernel⟩

/-- With a variable in common there can be fewer: `p(X), q(X)` has one answer. -/
theorem C91_common : Asked (demo two (px ++ qx)) two (px ++ qx) ∧ Directed .free two (px ++ qx) ∧
    ((demo two (px ++ qx)).iterate 20 100).toOption.map (fun r => (r.1.queue, reports r.2)) = some ([], [.answer [⟨n!"X", n!"b"⟩]]) :=
  ⟨asked_demo (by decide +kernel) (by decide +kernel) (safe_of_b (by decide +kernel)) (by decide) (by simp [px]) (by decide +kernel), OnlyClauses.directed ⟨by decide, by decide⟩, by decide +kernel⟩

end JoinedExamples
end PBfs
