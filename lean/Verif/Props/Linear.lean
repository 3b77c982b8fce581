import Verif.Proof.Tame
import Verif.Props.Undefined
import Verif.Spec.Modes
/-! # Programs that respect modes, and programs whose heads contain no variable twice: every loop ends, and the occurs check is not missed -/
namespace PBfs
open Org

/-- A search that starts with a query and a program that respect the modes is tame. -/
theorem Asked.tame {o : Org} {p atoms M R} (h : Asked o p atoms) (hl : WellModed M p atoms) (hR : M.Chain R [] atoms) :
    (ctxOf o (interpOf o.st) p atoms).Moded M (MayCall p atoms) ∧ Tame (ctxOf o (interpOf o.st) p atoms) M R (MayCall p atoms) o := by
  refine ⟨⟨hl.builtins, fun c hc hQ => ⟨hl.clauses c hc hQ, fun b hb => .body hc hQ hb⟩⟩, ?_⟩
  obtain ⟨o0, ord, ord', h1, h2, h3, h4, h5⟩ := h.loaded
  obtain ⟨ok, w, e, k, hp0, hq, ⟨fr, rfl, f1, f2, f3⟩, hv⟩ := Work.init h1 h2 (untangled_safe h2 h3) h4 h5 h.wf h.ne h.small
  intro id hid
  rw [hq, List.mem_singleton] at hid
  subst hid
  refine ⟨e, _, [], hp0, ?_, ?_, ?_, ?_⟩
  · intro f hf a ha
    simp only [List.mem_singleton] at hf
    subst hf
    rw [f2] at ha
    exact .inl ha
  · intro f hf a ha
    simp only [List.mem_singleton] at hf
    subst hf
    rw [f2] at ha
    exact .query ha
  · intro τ τ' ρq ρq' gs gs' _ _ hg hg'
    cases hg with
    | cons ρ _ q1 hg =>
      cases hg
      cases hg' with
      | cons ρ' _ q2 hg' =>
        cases hg'
        rw [f2, ← q1 f1, ← q2 f1]
        exact hR.alike itreeAlg_sharp (fun v hv => by cases hv) fun h => h
  · rw [hv]
    exact ⟨fun _ => .int 0, fun a c hc => by cases hc⟩

/-- No inputs and no outputs. -/
def Modes.none : Modes := ⟨fun _ _ => false, fun _ _ => false⟩

theorem Modes.none_chain : ∀ {as : List Node}, Modes.none.Chain [] [] as := by
  have h : ∀ (as : List Node) (G : List Name), Modes.none.Chain [] G as := by
    intro as
    induction as with
    | nil => intro G v hv; cases hv
    | cons a as ih =>
      intro G
      refine ⟨fun v hv => ?_, ih _⟩
      simp only [Modes.inVars, Modes.none, pick_false (fun _ => rfl)] at hv
      cases hv
  exact fun {as} => h as []

/-- Programs whose heads contain no variable twice respect modes without inputs and outputs. -/
theorem NoRepeats.moded {p atoms} (h : NoRepeats p atoms) : WellModed .none p atoms := by
  refine ⟨⟨fun _ => rfl, fun _ => rfl, fun _ _ => rfl⟩, fun c hc hm => ⟨?_, ?_⟩, Modes.none_chain⟩
  · have := h c hc hm
    rwa [show pick (fun i => !Modes.none.ins c.head.fv i) c.head.children = c.head.children from pick_all _]
  · have e1 : Modes.none.outVars c.head = [] := by simp [Modes.outVars, Modes.none, pick_false, Node.varss]
    have e2 : Modes.none.inVars c.head = [] := by simp [Modes.inVars, Modes.none, pick_false, Node.varss]
    rw [e1, e2]
    exact Modes.none_chain

/-- More fuel changes the outcome of a call only if there was too little of it. -/
theorem Org.getAnswer_fuel {n m : Nat} (hnm : n ≤ m) : ∀ {clock : List Bool} {o : Org}, RLe (o.getAnswer n clock) (o.getAnswer m clock) := by
  intro clock
  induction clock with
  | nil => intro o; unfold Org.getAnswer; split <;> exact .refl _
  | cons c clock ih =>
    intro o
    unfold Org.getAnswer
    split
    · exact .refl _
    · cases c with
      | true => exact .refl _
      | false =>
        refine RLe.bind (fun h => Org.turn_fuel hnm o h) fun r => ?_
        obtain ⟨o1, t⟩ := r
        cases t with
        | «continue» => exact ih
        | answer => exact .refl _
        | error => exact .refl _

theorem Org.session_fuel {n m : Nat} (hnm : n ≤ m) : ∀ {clocks : List (List Bool)} {o : Org}, RLe (o.session n clocks) (o.session m clocks) := by
  intro clocks
  induction clocks with
  | nil => intro o; exact .refl _
  | cons c cs ih => intro o; exact (Org.getAnswer_fuel hnm).bind fun r => RLe.bind ih fun _ => .refl _

theorem Tame.getAnswer {X : Ctx} (ok : X.OK) (hpr : Printable X.st) {M R Q} (hT : X.Moded M Q) : ∀ (clock : List Bool) {o : Org}, Work X o → Tame X M R Q o →
    (∃ fuel0, ∀ fuel, fuel0 ≤ fuel → o.getAnswer fuel clock ≠ .error .hang) ∧
    ∀ fuel o' r, o.getAnswer fuel clock = .ok (o', r) → Work X o' ∧ Tame X M R Q o' ∧
      ∀ bs, r = .answer bs → ∃ pre hp L, Reported X fuel bs pre hp L ∧ Acyclic X.I (hp.at? pre) ∧ Grounded X R (hp.at? pre) L := by
  intro clock
  induction clock with
  | nil =>
    intro o w t
    have h : ∀ fuel, o.getAnswer fuel [] = .ok (o, .noAnswer) ∨ o.getAnswer fuel [] = .ok (o, .running) := by
      intro fuel
      unfold Org.getAnswer
      split
      · exact .inl rfl
      · exact .inr rfl
    refine ⟨⟨0, fun fuel _ => ?_⟩, fun fuel o' r hr => ?_⟩
    · rcases h fuel with h | h <;> rw [h] <;> simp
    · rcases h fuel with h | h <;> rw [h] at hr <;> cases hr <;> exact ⟨w, t, fun bs hb => by cases hb⟩
  | cons c clock ih =>
    intro o w t
    cases hq : o.queue with
    | nil =>
      have h : ∀ fuel, o.getAnswer fuel (c :: clock) = .ok (o, .noAnswer) := by
        intro fuel
        unfold Org.getAnswer
        rw [hq]; rfl
      refine ⟨⟨0, fun fuel _ => by rw [h]; simp⟩, fun fuel o' r hr => ?_⟩
      rw [h] at hr
      cases hr
      exact ⟨w, t, fun bs hb => by cases hb⟩
    | cons id q =>
      cases c with
      | true =>
        have h : ∀ fuel, o.getAnswer fuel (true :: clock) = .ok (o, .error ⟨.outOfTime, []⟩) := by
          intro fuel
          unfold Org.getAnswer
          rw [hq]; rfl
        refine ⟨⟨0, fun fuel _ => by rw [h]; simp⟩, fun fuel o' r hr => ?_⟩
        rw [h] at hr
        cases hr
        exact ⟨w, t, fun bs hb => by cases hb⟩
      | false =>
        have h : ∀ fuel, o.getAnswer fuel (false :: clock) = (o.turn fuel >>= fun x => match x.2 with
            | .continue => x.1.getAnswer fuel clock
            | .answer bs => pure (x.1, .answer bs)
            | .error e => pure (x.1, .error e)) := by
          intro fuel
          rw [Org.getAnswer]
          rw [hq]
          rfl
        constructor
        · obtain ⟨N, hN⟩ := t.ends ok hpr hT w
          cases ht : o.turn N with
          | error x =>
            refine ⟨N, fun fuel hf hh => ?_⟩
            rw [h, Org.turn_fuel hf o (hN N (Nat.le_refl _)), ht, error_bind] at hh
            cases hh
            exact hN N (Nat.le_refl _) ht
          | ok x =>
            obtain ⟨o1, tn⟩ := x
            obtain ⟨⟨M, hM⟩, _⟩ := ih (w.next ok ht) (t.next ok hT w ht).1
            refine ⟨max N M, fun fuel hf hh => ?_⟩
            rw [h, Org.turn_fuel (show N ≤ fuel by omega) o (hN N (Nat.le_refl _)), ht, ok_bind] at hh
            cases tn with
            | «continue» => exact hM fuel (by omega) hh
            | answer => cases hh
            | error => cases hh
        · intro fuel o' r hr
          rw [h] at hr
          obtain ⟨⟨o1, tn⟩, ht, hr⟩ := bind_ok.1 hr
          obtain ⟨n1, n2⟩ := t.next ok hT w ht
          cases tn with
          | «continue» => exact (ih (w.next ok ht) n1).2 fuel o' r hr
          | answer bs' =>
            cases hr
            exact ⟨w.next ok ht, n1, fun bs hb => n2 bs (by cases hb; rfl)⟩
          | error =>
            cases hr
            exact ⟨w.next ok ht, n1, fun bs hb => by cases hb⟩

theorem Tame.session {X : Ctx} (ok : X.OK) (hpr : Printable X.st) {M R Q} (hT : X.Moded M Q) : ∀ (clocks : List (List Bool)) {o : Org}, Work X o → Tame X M R Q o →
    (∃ fuel0, ∀ fuel, fuel0 ≤ fuel → o.session fuel clocks ≠ .error .hang) ∧
    ∀ fuel o' rs bs, o.session fuel clocks = .ok (o', rs) → Org.Res.answer bs ∈ rs →
      ∃ pre hp L, Reported X fuel bs pre hp L ∧ Acyclic X.I (hp.at? pre) ∧ Grounded X R (hp.at? pre) L := by
  intro clocks
  induction clocks with
  | nil =>
    intro o w t
    refine ⟨⟨0, fun fuel _ h => by cases h⟩, fun fuel o' rs bs h hb => ?_⟩
    cases h
    cases hb
  | cons c cs ih =>
    intro o w t
    obtain ⟨⟨N, hN⟩, g2⟩ := t.getAnswer ok hpr hT c w
    constructor
    · cases ha : o.getAnswer N c with
      | error x =>
        refine ⟨N, fun fuel hf hh => ?_⟩
        rw [Org.session, Org.getAnswer_fuel hf (hN N (Nat.le_refl _)), ha, error_bind] at hh
        cases hh
        exact hN N (Nat.le_refl _) ha
      | ok x =>
        obtain ⟨o1, r⟩ := x
        obtain ⟨w1, t1, _⟩ := g2 N o1 r ha
        obtain ⟨⟨M, hM⟩, _⟩ := ih w1 t1
        refine ⟨max N M, fun fuel hf hh => ?_⟩
        rw [Org.session, Org.getAnswer_fuel (show N ≤ fuel by omega) (hN N (Nat.le_refl _)), ha, ok_bind] at hh
        rcases error_of_bind hh with hh | ⟨_, _, hh⟩
        · exact hM fuel (by omega) hh
        · cases hh
    · intro fuel o' rs bs h hb
      rw [Org.session] at h
      simp only [bind_ok, pure_ok, Prod.mk.injEq] at h
      obtain ⟨⟨o1, r⟩, h1, ⟨o2, rs2⟩, h2, rfl, rfl⟩ := h
      obtain ⟨w1, t1, h3⟩ := g2 fuel o1 r h1
      rcases List.mem_cons.1 hb with hb | hb
      · exact h3 bs hb.symm
      · exact (ih w1 t1).2 fuel _ _ bs h2 hb

/-! ## C57 -/

/-- Without calls of `is` a turn of a tame search gives a result or does not terminate. -/
theorem Tame.turn_total {X : Ctx} (ok : X.OK) (hpr : Printable X.st) {M R Q} (hT : X.Moded M Q) (hQ : ¬ Q ⟨n!"is", 2⟩) {o : Org} (w : Work X o)
    (t : Tame X M R Q o) {id q} (hq : o.queue = id :: q) (fuel : Nat) :
    o.turn fuel = .error .hang ∨ ∃ o' r, o.turn fuel = .ok (o', r) ∧ Work X o' ∧ Tame X M R Q o' := by
  suffices h : o.turn fuel = .error .hang ∨ ∃ r, o.turn fuel = .ok r by
    refine h.imp_right fun ⟨⟨o', r⟩, h⟩ => ⟨o', r, h, w.next ok h, (t.next ok hT w h).1⟩
  obtain ⟨e, k, L, hp, hw, hc, _⟩ := t id (by simp [hq])
  cases k with
  | res b fr fs =>
    cases hcd : fr.codes with
    | nil =>
      obtain ⟨rfl, o1, e', fr', fs', h1, _⟩ := step_dealloc (fuel := fuel) w.inv w.gen hq hp hcd
      exact .inr ⟨_, h1⟩
    | cons c cs =>
      obtain ⟨o1, f, ps, fs', L', h1, _⟩ := step_goal (fuel := fuel) ok w.inv w.st w.gen w.prog hq hp hcd
      exact .inr ⟨_, h1⟩
  | head f ps fs r =>
    obtain ⟨hrun, hr, _⟩ := hp.exec
    cases hr with
    | @user cl h1 h2 h3 =>
      rcases step_user (fuel := fuel) w.inv w.st w.gen hq hp h1 h2 h3 with ⟨h, _⟩ | ⟨o', B, _, h⟩
      · exact .inl h
      · rcases h with ⟨t1, _⟩ | ⟨e', fr', fs', t1, _⟩ | ⟨pre, hp', t1, _, _, t4, _⟩
        · exact .inr ⟨_, t1⟩
        · exact .inr ⟨_, t1⟩
        · rw [t1]; exact orHang_bind (t4.render hpr fuel) fun bs _ => .inr ⟨_, rfl⟩
    | @builtin b sub src h1 h2 =>
      subst h1 h2
      have hb : b ≠ .is := by
        rintro rfl
        exact hQ hc.1
      rcases step_builtin (fuel := fuel) ok w.inv w.st w.gen hq hp with ⟨x, h, hx⟩ | ⟨o', B, _, h⟩
      · exact .inl (by rw [h, hx hb])
      · rcases h with ⟨t1, _⟩ | ⟨err, t1, _⟩ | ⟨e', fr', fs', t1, _⟩ | ⟨pre, hp', t1, _, _, t4, _⟩
        · exact .inr ⟨_, t1⟩
        · exact .inr ⟨_, t1⟩
        · exact .inr ⟨_, t1⟩
        · rw [t1]; exact orHang_bind (t4.render hpr fuel) fun bs _ => .inr ⟨_, rfl⟩

theorem Tame.getAnswer_total {X : Ctx} (ok : X.OK) (hpr : Printable X.st) {M R Q} (hT : X.Moded M Q) (hQ : ¬ Q ⟨n!"is", 2⟩) {fuel : Nat} :
    ∀ {clock : List Bool} {o : Org}, Work X o → Tame X M R Q o →
    o.getAnswer fuel clock = .error .hang ∨ ∃ o' r, o.getAnswer fuel clock = .ok (o', r) ∧ Work X o' ∧ Tame X M R Q o' := by
  intro clock
  induction clock with
  | nil =>
    intro o w t
    unfold Org.getAnswer
    split
    · exact .inr ⟨_, _, rfl, w, t⟩
    · exact .inr ⟨_, _, rfl, w, t⟩
  | cons c clock ih =>
    intro o w t
    unfold Org.getAnswer
    split
    · exact .inr ⟨_, _, rfl, w, t⟩
    · rename_i id q hq
      cases c with
      | true => exact .inr ⟨_, _, rfl, w, t⟩
      | false =>
        simp only
        rcases t.turn_total ok hpr hT hQ w hq fuel with h | ⟨o1, r, h, w1, t1⟩
        · rw [h]; exact .inl rfl
        · rw [h, ok_bind]
          cases r with
          | «continue» => exact ih w1 t1
          | answer bs => exact .inr ⟨_, _, rfl, w1, t1⟩
          | error e => exact .inr ⟨_, _, rfl, w1, t1⟩

theorem Tame.session_total {X : Ctx} (ok : X.OK) (hpr : Printable X.st) {M R Q} (hT : X.Moded M Q) (hQ : ¬ Q ⟨n!"is", 2⟩) {fuel : Nat} :
    ∀ {clocks : List (List Bool)} {o : Org}, Work X o → Tame X M R Q o → o.session fuel clocks = .error .hang ∨ ∃ r, o.session fuel clocks = .ok r := by
  intro clocks
  induction clocks with
  | nil => intro o w t; exact .inr ⟨_, rfl⟩
  | cons c cs ih =>
    intro o w t
    rw [Org.session]
    rcases t.getAnswer_total ok hpr hT hQ (fuel := fuel) (clock := c) w with h | ⟨o', r, h, w', t'⟩
    · rw [h]; exact .inl rfl
    · rw [h, ok_bind]
      exact orHang_bind (ih w' t') fun s _ => .inr ⟨_, rfl⟩

theorem Tame.iterate_total {X : Ctx} (ok : X.OK) (hpr : Printable X.st) {M R Q} (hT : X.Moded M Q) (hQ : ¬ Q ⟨n!"is", 2⟩) {fuel : Nat} :
    ∀ {k : Nat} {o : Org}, Work X o → Tame X M R Q o →
    o.iterate fuel k = .error .hang ∨ ∃ o' ts, o.iterate fuel k = .ok (o', ts) ∧ (ts.length = k ∨ o'.queue = []) := by
  intro k
  induction k with
  | zero => intro o w t; exact .inr ⟨_, _, rfl, .inl rfl⟩
  | succ k ih =>
    intro o w t
    unfold Org.iterate
    split
    · rename_i hq
      exact .inr ⟨_, _, rfl, .inr hq⟩
    · rename_i id q hq
      rcases t.turn_total ok hpr hT hQ w hq fuel with h | ⟨o1, r, h, w1, t1⟩
      · rw [h]; exact .inl rfl
      · rw [h, ok_bind]
        rcases ih w1 t1 with h1 | ⟨o2, ts, h1, h2⟩
        · simp only [h1]; exact .inl rfl
        · simp only [h1]
          exact .inr ⟨_, _, rfl, h2.imp_left (by simp)⟩

/-- Where `is` does not occur it is not called. -/
theorem NoArith.notCalled {p atoms} (h : NoArith p atoms) : ¬ MayCall p atoms ⟨n!"is", 2⟩ := by
  intro hm
  generalize hf : (⟨n!"is", 2⟩ : FV) = f at hm
  cases hm with
  | query ha => exact h.1 _ ha hf.symm
  | body hc _ hb =>
    rw [inForce, List.mem_append] at hc
    rcases hc with hc | hc
    · exact h.2 _ (List.mem_filter.1 hc).1 _ hb hf.symm
    · have key : ∀ c ∈ appendClauses, ∀ b ∈ c.body, b.fv ≠ ⟨n!"is", 2⟩ := by decide
      exact key _ hc _ hb hf.symm

/-- **C57**: if predicates have inputs and outputs such that the query and all clauses the search may come to respect them, then every call of `get_answer` comes to an end, whatever
the clock does: no loop of unification, of arithmetic, of comparison or of printing runs forever. -/
theorem C57_calls_end {o : Org} {p atoms M} (h : Asked o p atoms) (hpr : Printable o.st) (hl : WellModed M p atoms) (clocks) :
    ∃ fuel0, ∀ fuel, fuel0 ≤ fuel → o.session fuel clocks ≠ .error .hang :=
  ((h.tame hl hl.query).2.session h.work.1 hpr (h.tame hl hl.query).1 clocks h.work.2).1

/-- **C57**: without calls of `is` nothing at all goes wrong in the calls. -/
theorem C57_calls_succeed {o : Org} {p atoms M} (h : Asked o p atoms) (hpr : Printable o.st) (hl : WellModed M p atoms) (hn : ¬ MayCall p atoms ⟨n!"is", 2⟩) (clocks) :
    ∃ fuel0 r, ∀ fuel, fuel0 ≤ fuel → o.session fuel clocks = .ok r := by
  obtain ⟨N, hN⟩ := C57_calls_end h hpr hl clocks
  obtain ⟨r, hr⟩ := ((h.tame hl hl.query).2.session_total h.work.1 hpr (h.tame hl hl.query).1 hn h.work.2 (fuel := N) (clocks := clocks)).resolve_left (hN N (Nat.le_refl _))
  exact ⟨N, r, fun fuel hf => by rw [Org.session_fuel hf (hN N (Nat.le_refl _)), hr]⟩

/-- **C57**: the missing occurs check is not missed: the heap behind every answer is free of cyclic terms, and the answer is sound over finite
trees.  For every answer there is a heap and for every query variable an address such that the answer shows the terms at these addresses,
and whatever finite trees are put for the open variables, the query with the answer's terms is provable from the clauses in force. -/
theorem C57_answers_sound {o o' : Org} {p atoms M fuel clocks rs bs} (h : Asked o p atoms) (hpr : Printable o.st) (hl : WellModed M p atoms)
    (hs : o.session fuel clocks = .ok (o', rs)) (hb : Org.Res.answer bs ∈ rs) :
    ∃ pre hp L, WF o.st pre hp ∧ Prints (stringRep pre hp o.st L fuel false) L bs ∧
      (∀ v, v ∈ L.map (·.1) ↔ ∃ a ∈ atoms, v ∈ Node.varss a.children) ∧
      (∀ a, a < hp.size → ∃ t, Reads (hp.at? pre) a t) ∧
      ∀ ω : Nat → Tree, ∃ ρ : Name → Tree,
        (∀ x ∈ L, ∃ t, Reads (hp.at? pre) x.2 t ∧ ρ x.1 = t.eval treeAlg (interpOf o.st) ω) ∧
        ∀ a ∈ atoms, Proves treeAlg (inForce p) (a.inst treeAlg ρ) := by
  obtain ⟨pre, hp, L, hr, ⟨σ, m⟩, _⟩ := ((h.tame hl hl.query).2.session h.work.1 hpr (h.tame hl hl.query).1 clocks h.work.2).2 fuel o' rs bs hs hb
  have F := hr.2
  have hfin := F.good.reads_of m
  refine ⟨pre, hp, L, F.good, hr.prints, F.names, hfin, fun ω => ?_⟩
  obtain ⟨σ, m, hω⟩ := solve_finite treeAlg (interpOf o.st) F.good.dom hfin ω
  obtain ⟨ρ, hρ⟩ := F.agree Tree treeAlg σ m
  refine ⟨ρ, fun x hx => ?_, F.sound Tree treeAlg σ ρ m hρ⟩
  obtain ⟨t, ht⟩ := hfin x.2 (F.lt x hx)
  exact ⟨t, ht, by rw [← hρ x hx]; exact ht.eval m hω⟩

/-- **C57**: every instance of the query that is provable over finite trees is found: C02 without the case that a turn of the machine
does not end. -/
theorem C57_complete {o : Org} {p atoms M} (h : Asked o p atoms) (hpr : Printable o.st) (hl : WellModed M p atoms) (hb : OnlyClauses p atoms)
    {ρ : Name → Tree} (hp : ∀ a ∈ atoms, Proves treeAlg (inForce p) (a.inst treeAlg ρ)) :
    ∃ k fuel0 bs, HasInstance o.st atoms fuel0 bs ρ ∧ ∀ fuel, fuel0 ≤ fuel →
      (∀ clocks o' rs, o.session fuel clocks = .ok (o', rs) → k ≤ (rs.filter Org.Res.isReport).length ∨ rs.getLast? = some .noAnswer →
        Org.Res.answer bs ∈ rs) ∧
      ∃ j o' rs, j ≤ k ∧ o.session fuel (List.replicate j (List.replicate k false)) = .ok (o', rs) ∧ rs.getLast? = some (.answer bs) := by
  refine (C02_complete_partial h hb hpr hp).resolve_left ?_
  rintro ⟨k, hk⟩
  obtain ⟨N, hN⟩ := (h.tame hl hl.query).2.iterates h.work.1 hpr (h.tame hl hl.query).1 k h.work.2
  exact hN N (Nat.le_refl _) (hk N)

/-- **C57**: the search goes on as long as one likes: the main loop gets through any number of iterations, unless the queue gets empty before, and
does the turns of breadth-first resolution. -/
theorem C57_search {o : Org} {p atoms M} (h : Asked o p atoms) (hpr : Printable o.st) (hl : WellModed M p atoms) (hn : ¬ MayCall p atoms ⟨n!"is", 2⟩) (k : Nat) :
    ∃ fuel0 o' ts items rs, (∀ fuel, fuel0 ≤ fuel → o.iterate fuel k = .ok (o', ts)) ∧ (ts.length = k ∨ o'.queue = []) ∧
      SRun (inForce p) [.goals (atoms.map (.goal ·.fv)) (Insts.query atoms)] rs items ∧
      List.Forall₂ (Says o.st atoms fuel0) ts rs ∧ items.length = o'.queue.length := by
  obtain ⟨N, hN⟩ := (h.tame hl hl.query).2.iterates h.work.1 hpr (h.tame hl hl.query).1 k h.work.2
  obtain ⟨o', ts, hi, hk⟩ := ((h.tame hl hl.query).2.iterate_total h.work.1 hpr (h.tame hl hl.query).1 hn h.work.2 (fuel := N) (k := k)).resolve_left (hN N (Nat.le_refl _))
  obtain ⟨items, rs, r1, r2, r3⟩ := C42_breadth_first_resolution_partial h hi
  exact ⟨N, o', ts, items, rs, fun fuel hf => by rw [Org.iterate_fuel hf _ _ (hN N (Nat.le_refl _)), hi], hk, r1, r2, r3⟩

/-! ## C56 -/

/-- **C56**: if no clause the search may come to has a variable twice in its head, then every call of `get_answer` comes to an end, whatever
the clock does: no loop of unification, of arithmetic, of comparison or of printing runs forever. -/
theorem C56_calls_end {o : Org} {p atoms} (h : Asked o p atoms) (hpr : Printable o.st) (hl : NoRepeats p atoms) (clocks) :
    ∃ fuel0, ∀ fuel, fuel0 ≤ fuel → o.session fuel clocks ≠ .error .hang :=
  C57_calls_end h hpr hl.moded clocks

/-- **C56**: without calls of `is` nothing at all goes wrong in the calls. -/
theorem C56_calls_succeed {o : Org} {p atoms} (h : Asked o p atoms) (hpr : Printable o.st) (hl : NoRepeats p atoms) (hn : ¬ MayCall p atoms ⟨n!"is", 2⟩) (clocks) :
    ∃ fuel0 r, ∀ fuel, fuel0 ≤ fuel → o.session fuel clocks = .ok r :=
  C57_calls_succeed h hpr hl.moded hn clocks

/-- **C56**: the missing occurs check is not missed: the heap behind every answer is free of cyclic terms, and the answer is sound over finite
trees.  For every answer there is a heap and for every query variable an address such that the answer shows the terms at these addresses,
and whatever finite trees are put for the open variables, the query with the answer's terms is provable from the clauses in force. -/
theorem C56_answers_sound {o o' : Org} {p atoms fuel clocks rs bs} (h : Asked o p atoms) (hpr : Printable o.st) (hl : NoRepeats p atoms)
    (hs : o.session fuel clocks = .ok (o', rs)) (hb : Org.Res.answer bs ∈ rs) :
    ∃ pre hp L, WF o.st pre hp ∧ Prints (stringRep pre hp o.st L fuel false) L bs ∧
      (∀ v, v ∈ L.map (·.1) ↔ ∃ a ∈ atoms, v ∈ Node.varss a.children) ∧
      (∀ a, a < hp.size → ∃ t, Reads (hp.at? pre) a t) ∧
      ∀ ω : Nat → Tree, ∃ ρ : Name → Tree,
        (∀ x ∈ L, ∃ t, Reads (hp.at? pre) x.2 t ∧ ρ x.1 = t.eval treeAlg (interpOf o.st) ω) ∧
        ∀ a ∈ atoms, Proves treeAlg (inForce p) (a.inst treeAlg ρ) :=
  C57_answers_sound h hpr hl.moded hs hb

/-- **C56**: every instance of the query that is provable over finite trees is found: C02 without the case that a turn of the machine
does not end. -/
theorem C56_complete {o : Org} {p atoms} (h : Asked o p atoms) (hpr : Printable o.st) (hl : NoRepeats p atoms) (hb : OnlyClauses p atoms)
    {ρ : Name → Tree} (hp : ∀ a ∈ atoms, Proves treeAlg (inForce p) (a.inst treeAlg ρ)) :
    ∃ k fuel0 bs, HasInstance o.st atoms fuel0 bs ρ ∧ ∀ fuel, fuel0 ≤ fuel →
      (∀ clocks o' rs, o.session fuel clocks = .ok (o', rs) → k ≤ (rs.filter Org.Res.isReport).length ∨ rs.getLast? = some .noAnswer →
        Org.Res.answer bs ∈ rs) ∧
      ∃ j o' rs, j ≤ k ∧ o.session fuel (List.replicate j (List.replicate k false)) = .ok (o', rs) ∧ rs.getLast? = some (.answer bs) :=
  C57_complete h hpr hl.moded hb hp

/-- **C56**: the search goes on as long as one likes: the main loop gets through any number of iterations, unless the queue gets empty before, and
does the turns of breadth-first resolution. -/
theorem C56_search {o : Org} {p atoms} (h : Asked o p atoms) (hpr : Printable o.st) (hl : NoRepeats p atoms) (hn : ¬ MayCall p atoms ⟨n!"is", 2⟩) (k : Nat) :
    ∃ fuel0 o' ts items rs, (∀ fuel, fuel0 ≤ fuel → o.iterate fuel k = .ok (o', ts)) ∧ (ts.length = k ∨ o'.queue = []) ∧
      SRun (inForce p) [.goals (atoms.map (.goal ·.fv)) (Insts.query atoms)] rs items ∧
      List.Forall₂ (Says o.st atoms fuel0) ts rs ∧ items.length = o'.queue.length :=
  C57_search h hpr hl.moded hn k

/-! ## Concrete cases -/

namespace LinearExamples
open SoundExamples CompleteExamples

/-- `nat(z).  nat(s(X)) :- nat(X).` -/
def nat : List Clause :=
  [⟨.fn n!"nat" [.cons n!"z"], []⟩, ⟨.fn n!"nat" [.fn n!"s" [.var n!"X"]], [.fn n!"nat" [.var n!"X"]]⟩]

/-- `nat(X), nat(Y)` -/
def askNat : List Node := [.fn n!"nat" [.var n!"X"], .fn n!"nat" [.var n!"Y"]]

/-- The hypotheses of C56 are met, by a program with infinitely many answers. -/
example : Asked (demo nat askNat) nat askNat ∧ Printable (demo nat askNat).st ∧ NoRepeats nat askNat ∧ ¬ MayCall nat askNat ⟨n!"is", 2⟩ ∧ OnlyClauses nat askNat ∧
    (∀ a ∈ askNat, Proves treeAlg (inForce nat) (a.inst treeAlg fun v => if v = n!"X" then .cons n!"z" else .fn n!"s" [.cons n!"z"])) := by
  refine ⟨asked_demo (by decide +kernel) (by decide +kernel) (safe_of_b (by decide +kernel)) (by decide) (by simp [askNat]) (by decide +kernel),
    ⟨by decide +kernel, by decide +kernel, by decide +kernel, by decide +kernel⟩, .of [⟨n!"nat", 1⟩] (by decide) (by decide), NoArith.notCalled ⟨by decide, by decide⟩,
    ⟨by decide, by decide⟩, ?_⟩
  have hf : inForce nat = nat ++ appendClauses := rfl
  have hz : Proves treeAlg (inForce nat) ⟨n!"nat", [.cons n!"z"]⟩ :=
    .clause (c := ⟨.fn n!"nat" [.cons n!"z"], []⟩) (ρ := fun _ => .int 0) (by rw [hf]; simp [nat]) (by intro a ha; cases ha)
  intro a ha
  simp only [askNat, List.mem_cons, List.not_mem_nil, or_false] at ha
  rcases ha with rfl | rfl
  · exact hz
  · refine Proves.clause (c := ⟨.fn n!"nat" [.fn n!"s" [.var n!"X"]], [.fn n!"nat" [.var n!"X"]]⟩) (ρ := fun _ => Tree.cons n!"z") (by rw [hf]; simp [nat])
      fun a ha => ?_
    simp only [List.mem_singleton] at ha
    subst ha
    exact hz

example : (demo nat askNat).reportsOf 30 20 =
    some [.answer [⟨n!"Y", n!"z"⟩, ⟨n!"X", n!"z"⟩], .answer [⟨n!"Y", n!"s(z)"⟩, ⟨n!"X", n!"z"⟩], .answer [⟨n!"Y", n!"z"⟩, ⟨n!"X", n!"s(z)"⟩]] := by
  decide +kernel

/-- `e(Z,Z).` -/
def same : List Clause := [⟨.fn n!"e" [.var n!"Z", .var n!"Z"], []⟩]

/-- `e(f(X,X,Y),f(Y,g(X),g(Y)))` -/
def askSame : List Node :=
  [.fn n!"e" [.fn n!"f" [.var n!"X", .var n!"X", .var n!"Y"], .fn n!"f" [.var n!"Y", .fn n!"g" [.var n!"X"], .fn n!"g" [.var n!"Y"]]]]

/-- The heap when the clause is called. -/
def cells : List Cell := [.fn 2 1, .ref 1 3, .fn 2 1, .ref 3 4, .fn 3 3, .ref 3 4, .ref 3 4, .ref 1 3, .fn 3 3, .ref 1 3, .str 2, .str 0]
def view (a : Nat) : Option Cell := cells[a]?
def bound : Hp := ⟨12, [(3, .ref 2 4), (1, .ref 0 3)], []⟩

theorem same_loop (n : Nat) : unifyLoop view n bound [3, 1] = .error .hang ∧ unifyLoop view n bound [1, 3] = .error .hang := by
  induction n with
  | zero => exact ⟨rfl, rfl⟩
  | succ n ih => exact ⟨(show unifyLoop view (n + 1) bound [3, 1] = unifyLoop view n bound [1, 3] by rfl).trans ih.2,
      (show unifyLoop view (n + 1) bound [1, 3] = unifyLoop view n bound [3, 1] by rfl).trans ih.1⟩

theorem same_unify (n : Nat) : unify view n ⟨12, [], []⟩ 4 8 = .error .hang := by
  by_contra hne
  have h4 := unifyLoop_mono n (n + 4) ⟨12, [], []⟩ [4, 8] (by omega) hne
  have h1 : unifyLoop view (n + 4) ⟨12, [], []⟩ [4, 8] = unifyLoop view (n + 3) ⟨12, [], []⟩ [11, 7, 10, 6, 9, 5] := by rfl
  have h2 : unifyLoop view (n + 3) ⟨12, [], []⟩ [11, 7, 10, 6, 9, 5] = unifyLoop view (n + 1) bound [9, 5] := by rfl
  have h3 : unifyLoop view (n + 1) bound [9, 5] = unifyLoop view n bound [3, 1] := by rfl
  rw [h1, h2, h3, (same_loop n).1] at h4
  exact hne h4.symm

def regs : List Cell := [.str 4, .str 8, .ref 3 4, .ref 1 3, .str 2, .str 0]

theorem same_turn {o : Org} {e0 e : Exec} {t : TCode} (hq : o.queue = [1]) (he : o.execs = [e0, e]) 
    (h0h : e0.hp = ⟨0, [], cells⟩) (hp : e.parent = some 0) (hh : e.hp = ⟨12, [], []⟩) (hr : e.regs = regs) (hs : e.state = .running)
    (hc : e.codes = [t]) (ht : o.stale t = false) (hrc : t.atom.regCount = 3)
    (hi : t.atom.instrs = [.getVariable 2 0, .getValue 2 1, .proceed]) (n : Nat) : o.turn n = .error .hang := by
  have hview : ∀ e1 : Exec, e1.parent = some 0 → preOf [e0, e1] e1 = view := by
    intro e1 h1
    funext i
    simp [preOf, h1, heapAtF, h0h, Hp.at?, view]
  obtain ⟨p, hp', ch, rg, md, s, stt, cds, env, er⟩ := e
  simp only at hp hh hr hs hc
  subst hp hh hr hs hc
  have hst : ∀ o', o'.gen = o.gen → Org.stale o' t = false := by
    intro o' h
    simp only [Org.stale, h] at ht ⊢
    exact ht
  simp [Org.turn, hq, turnOf, Org.exec, he, Org.code, hst, hi, hrc, resize, regs, Org.setExec, Org.instrs, Org.instr, stepData,
    Exec.failed, hview, Exec.unify, Exec.reg, Exec.setReg, Cell.addr, Cell.ptr, orFault, same_unify, ok_bind, error_bind]
  
theorem same_calls : ∃ o1 e0 e t, (∀ n, (demo same askSame).turn n = .ok (o1, .continue)) ∧ o1.queue = [1] ∧ o1.execs = [e0, e] ∧
    e0.hp = ⟨0, [], cells⟩ ∧ e.parent = some 0 ∧ e.hp = ⟨12, [], []⟩ ∧ e.regs = regs ∧ e.state = .running ∧ e.codes = [t] ∧ o1.stale t = false ∧
    t.atom.regCount = 3 ∧ t.atom.instrs = [.getVariable 2 0, .getValue 2 1, .proceed] := by
  have h : ((demo same askSame).turn 0).toOption.map (fun r => (r.2, r.1.queue)) = some (.continue, [1]) := by decide +kernel
  have h3 : ((demo same askSame).turn 0).toOption.map (fun r => r.1.execs.map fun e => (e.parent, e.hp, e.state)) =
    some [(none, ⟨0, [], cells⟩, .archived), (some 0, ⟨12, [], []⟩, .running)] := by decide +kernel
  have h4 : ((demo same askSame).turn 0).toOption.map (fun r => r.1.execs.map fun e => e.codes.map fun t => (r.1.stale t, t.atom.regCount)) =
    some [[(false, 6)], [(false, 3)]] := by decide +kernel
  have h' : ((demo same askSame).turn 0).toOption.map (fun r => r.1.execs.map (·.regs)) =
    some [regs, regs] := by decide +kernel
  have h'' : ((demo same askSame).turn 0).toOption.map (fun r => (r.1.execs.drop 1).map fun e => (e.codes.map fun t => t.atom.instrs)) =
    some [[[.getVariable 2 0, .getValue 2 1, .proceed]]] := by decide +kernel
  cases ht : (demo same askSame).turn 0 with
  | error x => rw [ht] at h; cases h
  | ok r =>
    obtain ⟨o1, tn⟩ := r
    rw [ht] at h h3 h4 h' h''
    simp only [Except.toOption, Option.map_some, Option.some.injEq, Prod.mk.injEq] at h h3 h4 h' h''
    obtain ⟨rfl, h2⟩ := h
    have hn : ∀ n, (demo same askSame).turn n = .ok (o1, .continue) := fun n => by
      rw [Org.turn_fuel (Nat.zero_le n) _ (by rw [ht]; simp), ht]
    match he : o1.execs with
    | [] => rw [he] at h3; cases h3
    | [_] => rw [he] at h3; simp at h3
    | _ :: _ :: _ :: _ => rw [he] at h3; simp at h3
    | [e0, e] =>
      rw [he] at h3 h4 h' h''
      simp only [List.map_cons, List.map_nil, List.cons.injEq, Prod.mk.injEq, and_true, List.drop_succ_cons, List.drop_zero] at h3 h4 h' h''
      obtain ⟨⟨a1, a2, _⟩, a5, a6, a7⟩ := h3
      have a8 := h4.2
      match hc : e.codes with
      | [] => rw [hc] at a8; cases a8
      | _ :: _ :: _ => rw [hc] at a8; simp at a8
      | [t] =>
        rw [hc] at a8 h''
        simp only [List.map_cons, List.map_nil, List.cons.injEq, Prod.mk.injEq, and_true] at a8 h''
        exact ⟨o1, e0, e, t, hn, h2, he, a2, a5, a6, h'.2, a7, hc, a8.1, a8.2, h''⟩

theorem asked_same : Asked (demo same askSame) same askSame :=
  asked_demo (by decide +kernel) (by decide +kernel) (safe_of_b (by decide +kernel)) (by decide) (by simp [askSame]) (by decide +kernel)

theorem printable_same : Printable (demo same askSame).st :=
  ⟨by decide +kernel, by decide +kernel, by decide +kernel, by decide +kernel⟩

end LinearExamples

open LinearExamples in
/-- The condition of C56 is needed: with `e(Z,Z).` the query `e(f(X,X,Y),f(Y,g(X),g(Y)))` is never answered, and the time limit, which is only
looked at between the turns, does not help: the second turn does not end. -/
theorem C56_needed (clock : List Bool) (clocks : List (List Bool)) (fuel : Nat) : Asked (demo same askSame) same askSame ∧ Printable (demo same askSame).st ∧
    (demo same askSame).session fuel ((false :: false :: clock) :: clocks) = .error .hang := by
  refine ⟨asked_same, printable_same, ?_⟩
  obtain ⟨o1, e0, e, t, h1, h2, h3, h4, h5, h6, h7, h8, h9, h10, h11, h12⟩ := same_calls
  have hq : (demo same askSame).queue = [0] := by decide +kernel
  rw [Org.session, Org.getAnswer]
  simp only [hq, h1, ok_bind]
  rw [Org.getAnswer]
  simp only [h2, same_turn h2 h3 h4 h5 h6 h7 h8 h9 h10 h11 h12]
  rfl
end PBfs
