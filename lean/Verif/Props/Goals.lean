import Verif.Proof.Tasks
import Verif.Spec.Goals
import Verif.Spec.Demo
/-! # Goals, clauses, and the order of work -/
namespace PBfs
open Org

/-! ## Kinds of code -/

theorem goal?_of_call {a : CAtom} {ds f} (h : a.instrs = ds ++ [.call f]) : a.goal? = some a.parsed ∧ a.head? = none := by
  simp [CAtom.goal?, CAtom.head?, h]

theorem head?_of_proceed {a : CAtom} {ds} (h : a.instrs = ds ++ [.proceed]) : a.head? = some a.parsed ∧ a.goal? = none := by
  simp [CAtom.goal?, CAtom.head?, h]

theorem dealloc_kind : deallocAtom.goal? = none ∧ deallocAtom.head? = none := ⟨rfl, rfl⟩

theorem GoalTurn.goal? {t es Q} (h : GoalTurn t es Q) : t.atom.goal? = some t.atom.parsed ∧ t.atom.head? = none := by
  obtain ⟨ds, h1, _⟩ := h
  exact goal?_of_call h1

/-- What an executor at work does, by the kind of code at its front. -/
theorem FInv.front {o : Org} (h : FInv o) {id q e t ts} (hq : o.queue = id :: q) (he : o.execs[id]? = some e) (hc : e.codes = t :: ts) :
    (∃ ds, t.atom.instrs = ds ++ [.proceed] ∧ (∀ d ∈ ds, d.isData = true) ∧
      (∃ r rest head body, t :: ts = r ++ rest ∧ RuleForm head body (r.map (·.atom)) ∧ t.atom.parsed = head) ∧
      ∀ pre fuel st (e0 e1 : Exec), e0.envs = e.envs → e0.state = .running → runData pre fuel st ds e0 = .ok e1 → Stacked QBase ts e1.envs) ∨
    GoalTurn t e.envs (Stacked QBase ts) ∨ (t.atom = deallocAtom ∧ ∃ env es', e.envs = env :: es' ∧ Stacked QBase ts es') := by
  obtain ⟨e', he', ht⟩ := h.task id (by simp [hq])
  rw [he] at he'; cases he'
  rw [hc] at ht
  rcases ht.turn (fun h => qbase _ _ _ h) with ⟨ds, h1, h2, _, h3, h4⟩ | h1 | h1
  · exact .inl ⟨ds, h1, h2, h3, h4⟩
  · exact .inr (.inl h1)
  · exact .inr (.inr h1)

theorem RuleForm.goals {head body r} (h : RuleForm head body r) (g : Nat) :
    ∃ a r', r = a :: r' ∧ a.head? = some head ∧ goalsOf (r'.map (⟨g, ·⟩)) = body := by
  obtain ⟨n, hd, gs, rfl, ⟨ds, h1, _⟩, h2, rfl, rfl⟩ := h
  refine ⟨hd, _, rfl, (head?_of_proceed (ds := allocInstrs n ++ ds) (by rw [h1, List.append_assoc])).1, ?_⟩
  unfold goalsOf
  rw [List.map_append, List.filterMap_append]
  have e1 : List.filterMap (fun t : TCode => t.atom.goal?) ((deallocAtoms n).map (⟨g, ·⟩)) = [] := by
    unfold deallocAtoms
    split <;> simp [dealloc_kind.1]
  rw [e1, List.append_nil]
  clear h1 e1
  induction gs with
  | nil => rfl
  | cons a gs ih =>
    obtain ⟨ds', k1, _⟩ := h2 a (by simp)
    simp [(goal?_of_call k1).1, ih (fun g hg => h2 g (by simp [hg]))]

/-! ## C22 -/

/-- The effect of one iteration on the counter. -/
theorem turn_calls {o o' : Org} {fuel id q e t ts r} (h : FInv o) (hq : o.queue = id :: q) (he : o.execs[id]? = some e) (hc : e.codes = t :: ts)
    (ht : o.turn fuel = .ok (o', r)) : o'.calls = o.calls + (if t.atom.goal?.isSome then 1 else 0) := by
  obtain ⟨e2, he2, hrun, _⟩ := h.rinv.inv.qrun id (by simp [hq])
  rw [he] at he2; cases he2
  rcases h.front hq he hc with ⟨ds, h1, h2, _, _⟩ | hg | ⟨h1, _⟩
  · obtain ⟨e1, hr, hst, hx⟩ := turn_proceed h.rinv.inv hq he hc h1 h2 ht
    rw [(head?_of_proceed h1).2]
    rcases hx with ⟨_, _, rfl⟩ | ⟨_, _, _, _, rfl⟩ | ⟨_, _, _, rfl⟩ | ⟨_, _, _, rfl⟩ <;> rfl
  · rw [hg.goal?.1]
    obtain ⟨ds, h1, h2, _, h3⟩ := hg
    obtain ⟨e1, hr, _, hst, hx⟩ := turn_call h.rinv.inv hq he hc h1 h2 (fun e1 hr => (h3 _ _ _ (e.start t.atom) _ rfl hrun hr).1) ht
    rcases hx with ⟨_, rfl⟩ | ⟨rules, hrl, rfl⟩ <;> rfl
  · obtain ⟨env', es2, k1, _, _, rfl⟩ := turn_dealloc h.rinv.inv hq he hc (by rw [h1]; rfl) ht
    rw [h1]; rfl

theorem Works.finv {o l o'} (h : Works o l o') (hi : FInv o) : FInv o' := by
  induction h with
  | nil => exact hi
  | snoc _ _ _ _ ht ih => exact ih.turn ht

/-- **C22.** After a query has been loaded, the counter always equals the number of goals called since: at every
moment it is the number of iterations whose executor had a goal to call (whether there are clauses for it or not). -/
theorem C22_counter_counts_goals {o0 : Org} {ord parsed l o} (h0 : Reach o0) (h : Works (o0.loadQuery ord parsed).1 l o) :
    o.calls = (l.filter (·.isSome)).length := by
  have hi := (h0.query ord parsed).finv
  generalize hs : (o0.loadQuery ord parsed).1 = os at h hi
  have h00 : os.calls = 0 := by
    rw [← hs]
    unfold Org.loadQuery
    simp only
    split
    · rfl
    · split <;> rfl
  clear hs
  induction h with
  | nil => simp [h00]
  | @snoc l o1 o2 fuel id q e t ts r hw hq he hc ht ih =>
    rw [turn_calls (hw.finv hi) hq he hc ht, ih, List.filter_append, List.length_append]
    cases t.atom.goal? <;> simp

/-- `get_answer` consists of such iterations, so C22 applies at every moment of every session. -/
theorem C22_sessions {o o' : Org} {fuel clock r} (h : Reach o) (ha : o.getAnswer fuel clock = .ok (o', r)) : ∃ l, Works o l o' := by
  have key : ∀ (clock : List Bool) (o1 : Org) (l : List (Option Node)), Works o l o1 → o1.getAnswer fuel clock = .ok (o', r) → ∃ l, Works o l o' := by
    intro clock
    induction clock with
    | nil =>
      intro o1 l hw ha
      unfold Org.getAnswer at ha
      split at ha <;> (simp only [pure_ok, Prod.mk.injEq] at ha; rw [← ha.1]; exact ⟨l, hw⟩)
    | cons c clock ih =>
      intro o1 l hw ha
      unfold Org.getAnswer at ha
      split at ha
      · simp only [pure_ok, Prod.mk.injEq] at ha; rw [← ha.1]; exact ⟨l, hw⟩
      · rename_i id q hq
        cases c with
        | true => simp only [pure_ok, Prod.mk.injEq] at ha; rw [← ha.1]; exact ⟨l, hw⟩
        | false =>
          simp only [bind_ok] at ha
          obtain ⟨⟨o2, t⟩, h1, ha⟩ := ha
          obtain ⟨e, he, _⟩ := (hw.finv h.finv).rinv.inv.qrun id (by simp [hq])
          have : ∃ l, Works o l o2 := by
            cases hc : e.codes with
            | nil => simp [Org.turn, hq, turnOf, exec, he, hc] at h1
            | cons t0 ts => exact ⟨_, .snoc hw hq he hc h1⟩
          obtain ⟨l', hw'⟩ := this
          cases t with
          | «continue» => exact ih o2 l' hw' ha
          | answer => simp only [pure_ok, Prod.mk.injEq] at ha; rw [← ha.1]; exact ⟨l', hw'⟩
          | error => simp only [pure_ok, Prod.mk.injEq] at ha; rw [← ha.1]; exact ⟨l', hw'⟩
  exact key clock o [] .nil ha

/-- Nothing but loading a query ever decreases the counter. -/
theorem C22_only_queries_reset {o : Org} (h : Reach o) :
    (∀ ord parsed, (o.loadProgram ord parsed).1.calls = o.calls) ∧ o.clearMemory.calls = o.calls ∧
    ∀ fuel clock o' r, o.getAnswer fuel clock = .ok (o', r) → o.calls ≤ o'.calls := by
  refine ⟨?_, rfl, ?_⟩
  · intro ord parsed
    unfold Org.loadProgram
    split
    · rfl
    · split <;> rfl
  · intro fuel clock o' r ha
    obtain ⟨l, hw⟩ := C22_sessions h ha
    clear ha
    induction hw with
    | nil => exact Nat.le_refl _
    | snoc hw hq he hc ht ih => rw [turn_calls (hw.finv h.finv) hq he hc ht]; omega

/-! ## C23 -/

/-- **C23.** When a goal is called, exactly one alternative is created for every clause in force with its name and
arity, in the order of the text, and appended to the queue; each starts with the head of its clause, goes on with
the goals of its body, and then with whatever was left to do before.  Without clauses, the goal just fails.  For a
predicate implemented in C++ there is one alternative. -/
theorem C23_one_alternative_per_clause {o o' : Org} {ord p fuel id q e t ts r g} (h : Serves o ord p) (hq : o.queue = id :: q)
    (he : o.execs[id]? = some e) (hc : e.codes = t :: ts) (hg : t.atom.goal? = some g) (ht : o.turn fuel = .ok (o', r)) :
    r = .continue ∧ ∃ e' news, o'.execs = o.execs.set id e' ++ news ∧ o'.queue = q ++ List.range' o.execs.length news.length ∧
      (g.fv ∉ [⟨n!"is", 2⟩, ⟨n!"==", 2⟩, ⟨n!"\\==", 2⟩] → List.Forall₂ (Alternative id ts) news ((inForce p).filter (·.head.fv = g.fv))) ∧
      (g.fv ∈ [⟨n!"is", 2⟩, ⟨n!"==", 2⟩, ⟨n!"\\==", 2⟩] → news.length = 1) ∧
      (news = [] → e'.state = .fail) ∧ (news ≠ [] → e'.state = .archived) := by
  have hf := h.reach.finv
  have hs := h.inv
  obtain ⟨e2, he2, hrun, _⟩ := hf.rinv.inv.qrun id (by simp [hq])
  rw [he] at he2; cases he2
  rcases hf.front hq he hc with ⟨ds, h1, _⟩ | hgt | ⟨h1, _⟩
  · rw [(head?_of_proceed h1).2] at hg; cases hg
  · rw [hgt.goal?.1] at hg
    cases hg
    obtain ⟨ds, h1, h2, _, h3⟩ := hgt
    obtain ⟨e1, hr, hcont, hst, hx⟩ := turn_call hf.rinv.inv hq he hc h1 h2 (fun e1 hr => (h3 _ _ _ (e.start t.atom) _ rfl hrun hr).1) ht
    have hcod : e1.codes = t :: ts := (runData_frame hr).codes.trans hc
    generalize t.atom.parsed.fv = f at *
    -- the alternatives
    have halt : f ∉ [⟨n!"is", 2⟩, ⟨n!"==", 2⟩, ⟨n!"\\==", 2⟩] → List.Forall₂ (Alternative id ts) (((o.program.rules? f).getD []).map (o.callChild id e1))
        ((inForce p).filter (·.head.fv = f)) := by
      intro hnb
      have hco : ∃ ord b, List.Forall₂ (CodeOf ord b o.st) ((o.program.rules? f).getD []) ((inForce p).filter (·.head.fv = f)) := by
        by_cases hb : f ∈ builtinFVs
        · have : f = ⟨n!"append", 3⟩ := by
            unfold builtinFVs at hb
            simp only [List.mem_cons, List.not_mem_nil, or_false] at hb hnb
            rcases hb with hb | hb | hb | hb
            · exact absurd (.inl hb) hnb
            · exact absurd (.inr (.inl hb)) hnb
            · exact absurd (.inr (.inr hb)) hnb
            · exact hb
          subst this
          rw [hs.own _ hb, filter_inForce_append]
          obtain ⟨rs, k1, k2⟩ := hs.builtins.append
          rw [k1]
          exact ⟨_, _, k2⟩
        · rw [filter_inForce_user hb]
          exact ⟨_, _, hs.rules f hb⟩
      obtain ⟨ord', b, hco⟩ := hco
      clear hx
      generalize (o.program.rules? f).getD [] = rs at hco
      generalize (inForce p).filter (·.head.fv = f) = cls at hco
      induction hco with
      | nil => exact .nil
      | @cons r cl rs cls k _ ih =>
        refine .cons ?_ ih
        obtain ⟨s0, s1, k1, _⟩ := k
        obtain ⟨a, r', rfl, k2, k3⟩ := (compileClause_form k1).goals o.gen
        exact ⟨rfl, rfl, ⟨o.gen, a⟩, r'.map (⟨o.gen, ·⟩), by simp [callChild, hcod], k2, k3⟩
    have hbi : f ∈ [⟨n!"is", 2⟩, ⟨n!"==", 2⟩, ⟨n!"\\==", 2⟩] → ∃ r, o.program.rules? f = some [r] := by
      intro hb
      have hb' : f ∈ builtinFVs := by
        unfold builtinFVs
        simp only [List.mem_cons, List.not_mem_nil, or_false] at hb ⊢
        rcases hb with h | h | h <;> simp [h]
      rw [hs.own f hb']
      have : ∃ b : Builtin, f = ⟨b.name, 2⟩ := by
        simp only [List.mem_cons, List.not_mem_nil, or_false] at hb
        rcases hb with rfl | rfl | rfl
        · exact ⟨.is, rfl⟩
        · exact ⟨.eq, rfl⟩
        · exact ⟨.neq, rfl⟩
      obtain ⟨b, rfl⟩ := this
      obtain ⟨sub, src, k⟩ := hs.builtins.own b
      exact ⟨_, k⟩
    refine ⟨hcont, ?_⟩
    rcases hx with ⟨hn, rfl⟩ | ⟨rules, hrl, rfl⟩
    · rw [hn] at halt
      refine ⟨_, [], by simp; rfl, by simp, halt, ?_, fun _ => rfl, by simp⟩
      intro hb
      obtain ⟨r, k⟩ := hbi hb
      rw [hn] at k; cases k
    · rw [hrl] at halt
      refine ⟨_, rules.map (o.callChild id e1), rfl, by simp, halt, ?_, ?_, fun _ => rfl⟩
      · intro hb
        obtain ⟨r, k⟩ := hbi hb
        rw [hrl] at k; cases k
        rfl
      · intro hn
        exact absurd (by simpa using hn) (hf.prog f rules hrl).1
  · rw [h1] at hg; cases hg

/-! ## C25 -/

/-- Code that passes for bookkeeping is bookkeeping. -/
def CAtom.Tidy (a : CAtom) : Prop := a.isDealloc = true → a = deallocAtom

def CAtom.tidyB (a : CAtom) : Bool := a.instrs.length != 1

theorem tidy_of_b {a : CAtom} (h : a.tidyB = true) : a.Tidy := by
  intro hd
  simp only [CAtom.isDealloc, CAtom.tidyB, beq_iff_eq, bne_iff_ne] at h hd
  exact absurd hd h

theorem dealloc_tidy (n : Nat) : ∀ a ∈ deallocAtoms n, a.Tidy := by
  intro a ha _
  unfold deallocAtoms at ha
  split at ha
  · cases ha
  · simpa using ha

theorem tidy_of_ne {a : CAtom} {l : List Instr} {ds c} (h : a.instrs = l ++ (ds ++ [c])) (hd : ds ≠ []) : a.Tidy := by
  apply tidy_of_b
  have : ds.length ≠ 0 := by simpa using hd
  simp only [CAtom.tidyB, h, List.length_append, List.length_singleton, bne_iff_ne]
  omega

theorem callable_goal {a : Node} (h : a.callable = true) : a.goal = true := by
  cases a <;> exact h

theorem RuleForm.tidy {head body r} (h : RuleForm head body r) (hc : ∀ a ∈ head :: body, a.callable = true) : ∀ a ∈ r, a.Tidy := by
  obtain ⟨n, hd, gs, rfl, ⟨ds, h1, _, h3⟩, h4, rfl, rfl⟩ := h
  intro a ha
  simp only [List.mem_cons, List.mem_append] at ha
  rcases ha with rfl | ha | ha
  · exact tidy_of_ne h1 (h3 (callable_goal (hc _ (by simp))))
  · obtain ⟨ds', k1, _, k3⟩ := h4 a ha
    exact tidy_of_ne (l := []) k1 (k3 (callable_goal (hc _ (by simp only [List.mem_cons, List.mem_map]; exact .inr ⟨a, ha, rfl⟩))))
  · exact dealloc_tidy n a ha

theorem QueryForm.tidy {atoms r} (h : QueryForm atoms r) (hc : ∀ a ∈ atoms, a.callable = true) : ∀ a ∈ r, a.Tidy := by
  obtain ⟨h1, _, h2⟩ := h
  rcases h2 with rfl | ⟨n, g, gs, rfl, ⟨ds, k1, _, k3⟩, h4⟩
  · simp
  · intro a ha
    have hca : a.parsed.callable = true := hc _ (by rw [← h1]; exact List.mem_map_of_mem ha)
    simp only [List.mem_cons] at ha
    rcases ha with rfl | ha
    · exact tidy_of_ne k1 (k3 (callable_goal hca))
    · obtain ⟨ds', k1, _, k3⟩ := h4 a ha
      exact tidy_of_ne (l := []) k1 (k3 (callable_goal hca))

theorem QueryForm.goals {atoms r} (h : QueryForm atoms r) (g : Nat) : goalsOf (r.map (⟨g, ·⟩)) = atoms := by
  obtain ⟨rfl, hfq, h2⟩ := h
  rcases h2 with rfl | ⟨n, a, gs, rfl, ⟨ds, k1, _⟩, h4⟩
  · rfl
  · clear hfq
    have : a.goal? = some a.parsed := (goal?_of_call (ds := allocInstrs n ++ ds) (by rw [k1, List.append_assoc])).1
    simp only [goalsOf, List.map_cons, List.filterMap_cons, this, List.cons.injEq, true_and]
    clear k1 this
    induction gs with
    | nil => rfl
    | cons a gs ih =>
      obtain ⟨ds', k1, _⟩ := h4 a (by simp)
      simp [(goal?_of_call k1).1, ih (fun g hg => h4 g (by simp [hg]))]

/-- All code below the front is goals and bookkeeping. -/
theorem Stacked.kinds {cs es} (h : Stacked QBase cs es) : ∀ t ∈ cs, t.atom.goal? = some t.atom.parsed ∨ t.atom = deallocAtom := by
  induction h with
  | base h =>
    intro t ht
    cases h with
    | @start atoms h1 h2 =>
      obtain ⟨_, _, h3⟩ := h1
      have hm := List.mem_map_of_mem (f := fun t : TCode => t.atom) ht
      rcases h3 with h3 | ⟨n, g, gs, h3, ⟨ds, k1, _⟩, h4⟩
      · rw [h3] at hm; cases hm
      · rw [h3] at hm
        simp only [List.mem_cons] at hm
        rcases hm with hm | hm
        · rw [hm]
          exact .inl (goal?_of_call (ds := allocInstrs n ++ ds) (by rw [k1, List.append_assoc])).1
        · obtain ⟨ds', k1, _⟩ := h4 _ hm
          exact .inl (goal?_of_call k1).1
    | rest h1 h2 =>
      obtain ⟨ds', k1, _⟩ := h1 t ht
      exact .inl (goal?_of_call k1).1
  | @frame n gs ds cs es es' h hg hd he ih =>
    intro t ht
    simp only [List.mem_append] at ht
    rcases ht with ht | ht | ht
    · obtain ⟨ds', k1, _⟩ := hg t ht
      exact .inl (goal?_of_call k1).1
    · have : t.atom ∈ deallocAtoms n := by rw [← hd]; exact List.mem_map_of_mem ht
      unfold deallocAtoms at this
      split at this
      · cases this
      · exact .inr (by simpa using this)
    · exact ih t ht

/-- What holds in histories with callable atoms. -/
structure TInv (o : Org) : Prop where
  prog : ∀ f rs, o.program.rules? f = some rs → ∀ r ∈ rs, ∀ a ∈ r, a.Tidy
  bi : ∀ e ∈ o.builtins, ∀ r ∈ e.2, ∀ a ∈ r, a.Tidy
  tidy : ∀ id ∈ o.queue, ∀ e, o.execs[id]? = some e → ∀ t ∈ e.codes, t.atom.Tidy
  left : ∀ id ∈ o.queue, ∀ e, o.execs[id]? = some e → (∃ t ts, e.codes = t :: ts ∧ t.atom.head?.isSome) ∨ goalsOf e.codes ≠ []

theorem allDealloc_ok {o : Org} : ∀ {ts : List TCode} {b}, o.allDealloc ts = .ok b → (b = true ↔ ∀ t ∈ ts, t.atom.isDealloc = true)
  | [], b, h => by simp only [allDealloc, pure_ok] at h; subst h; simp
  | t :: ts, b, h => by
    simp only [allDealloc, bind_ok] at h
    obtain ⟨a, ha, h⟩ := h
    have : a = t.atom := by
      unfold code at ha
      split at ha
      · cases ha
      · cases ha; rfl
    subst this
    split at h
    · rename_i hd
      rw [allDealloc_ok h]
      simp [hd]
    · rename_i hd
      simp only [pure_ok] at h
      subst h
      simp only [Bool.false_eq_true, false_iff]
      intro h'
      exact hd (h' t (by simp))

theorem goalsOf_eq_nil {cs : List TCode} : goalsOf cs = [] ↔ ∀ t ∈ cs, t.atom.goal? = none := by
  simp [goalsOf]

/-- The test for success sees exactly whether goals are left. -/
theorem allDealloc_goals {o : Org} {ts es b} (hs : Stacked QBase ts es) (ht : ∀ t ∈ ts, t.atom.Tidy) (h : o.allDealloc ts = .ok b) :
    b = true ↔ goalsOf ts = [] := by
  rw [allDealloc_ok h, goalsOf_eq_nil]
  constructor
  · intro h' t htm
    rw [ht t htm (h' t htm)]; rfl
  · intro h' t htm
    rcases hs.kinds t htm with hk | hk
    · rw [h' t htm] at hk; cases hk
    · rw [hk]; rfl

theorem TInv.turn {o o' : Org} {fuel r} (hf : FInv o) (h : TInv o) (ht : o.turn fuel = .ok (o', r)) : TInv o' := by
  obtain ⟨b1, b2, _⟩ := turn_builtins hf.rinv.inv ht
  cases hq : o.queue with
  | nil =>
    simp only [Org.turn, hq, pure_ok, Prod.mk.injEq] at ht
    rw [← ht.1]; exact h
  | cons id q =>
  have hmain : ∀ k ∈ o'.queue, k ∉ q → ∃ e', o'.execs[k]? = some e' ∧ (∀ t ∈ e'.codes, t.atom.Tidy) ∧
      ((∃ t ts, e'.codes = t :: ts ∧ t.atom.head?.isSome) ∨ goalsOf e'.codes ≠ []) := by
    intro k hk hkq
    obtain ⟨e, he, hrun, _⟩ := hf.rinv.inv.qrun id (by simp [hq])
    have hlt : id < o.execs.length := (List.getElem?_eq_some_iff.1 he).1
    have htd := h.tidy id (by simp [hq]) e he
    have hlf := h.left id (by simp [hq]) e he
    cases hc : e.codes with
    | nil => simp [Org.turn, hq, turnOf, exec, he, hc] at ht
    | cons t ts =>
      rw [hc] at htd hlf
      have htd' : ∀ t ∈ ts, t.atom.Tidy := fun t ht => htd t (by simp [ht])
      rcases hf.front hq he hc with ⟨ds, h1, h2, _, h3⟩ | hgt | ⟨h1, env, es', h2, h3⟩
      · obtain ⟨e1, hr, hst, hx⟩ := turn_proceed hf.rinv.inv hq he hc h1 h2 ht
        have hcod : e1.codes = t :: ts := (runData_frame hr).codes.trans hc
        have hs := h3 _ _ _ (e.start t.atom) _ rfl hrun hr
        rcases hx with ⟨_, _, rfl⟩ | ⟨_, _, _, _, rfl⟩ | ⟨_, _, _, rfl⟩ | ⟨_, hd, _, rfl⟩
        · exact absurd hk hkq
        · exact absurd hk hkq
        · exact absurd hk hkq
        · simp only [List.mem_append, List.mem_singleton] at hk
          rcases hk with hk | rfl
          · exact absurd hk hkq
          · refine ⟨proceedChild id e1, by simp, ?_, .inr ?_⟩
            · simpa [proceedChild, hcod] using htd'
            · have := allDealloc_goals hs htd' hd
              simp only [Bool.false_eq_true, false_iff] at this
              simpa [proceedChild, hcod] using this
      · obtain ⟨ds, h1, h2, _, h3⟩ := hgt
        obtain ⟨e1, hr, _, hst, hx⟩ := turn_call hf.rinv.inv hq he hc h1 h2 (fun e1 hr => (h3 _ _ _ (e.start t.atom) _ rfl hrun hr).1) ht
        have hcod : e1.codes = t :: ts := (runData_frame hr).codes.trans hc
        rcases hx with ⟨_, rfl⟩ | ⟨rules, hrl, rfl⟩
        · exact absurd hk hkq
        · simp only [List.mem_append, List.mem_range'_1] at hk
          rcases hk with hk | hk
          · exact absurd hk hkq
          · have hi : k - o.execs.length < rules.length := by omega
            have hm := List.getElem_mem hi
            refine ⟨o.callChild id e1 rules[k - o.execs.length], ?_, ?_, ?_⟩
            · simp only
              rw [List.getElem?_append_right (by simpa using hk.1)]
              simp [hi]
            · intro t' ht'
              simp only [callChild, List.mem_append, List.mem_map, hcod, List.drop_succ_cons, List.drop_zero] at ht'
              rcases ht' with ⟨a, ha, rfl⟩ | ht'
              · exact h.prog _ _ hrl _ hm a ha
              · exact htd' t' ht'
            · left
              obtain ⟨head, body, k1, _⟩ := (hf.prog _ _ hrl).2 _ hm
              obtain ⟨a, r', k2, k3, _⟩ := k1.goals o.gen
              exact ⟨⟨o.gen, a⟩, r'.map (⟨o.gen, ·⟩) ++ e1.codes.drop 1, by simp [callChild, k2], by simp [k3]⟩
      · obtain ⟨env', es2, k1, _, _, rfl⟩ := turn_dealloc hf.rinv.inv hq he hc (by rw [h1]; rfl) ht
        simp only [List.mem_append, List.mem_singleton] at hk
        rcases hk with hk | rfl
        · exact absurd hk hkq
        · refine ⟨_, List.getElem?_set_self hlt, htd', .inr ?_⟩
          rcases hlf with ⟨t', ts', hlf, hh⟩ | hlf
          · cases hlf
            rw [h1] at hh; cases hh
          · simpa [goalsOf, h1, dealloc_kind.1] using hlf
  refine ⟨by rw [b2]; exact h.prog, by rw [b1]; exact h.bi, ?_, ?_⟩
  · intro k hk e he
    by_cases hkq : k ∈ q
    · rw [(turn_other hf.rinv.inv hq ht hkq).1] at he
      exact h.tidy k (by simp [hq, hkq]) e he
    · obtain ⟨e', he', h1, _⟩ := hmain k hk hkq
      rw [he'] at he; cases he
      exact h1
  · intro k hk e he
    by_cases hkq : k ∈ q
    · rw [(turn_other hf.rinv.inv hq ht hkq).1] at he
      exact h.left k (by simp [hq, hkq]) e he
    · obtain ⟨e', he', _, h1⟩ := hmain k hk hkq
      rw [he'] at he; cases he
      exact h1

theorem TInv.getAnswer {o o' : Org} {fuel clock r} (hf : FInv o) (h : TInv o) (ha : o.getAnswer fuel clock = .ok (o', r)) : TInv o' := by
  induction clock generalizing o with
  | nil =>
    unfold Org.getAnswer at ha
    split at ha <;> (simp only [pure_ok, Prod.mk.injEq] at ha; rw [← ha.1]; exact h)
  | cons c clock ih =>
    unfold Org.getAnswer at ha
    split at ha
    · simp only [pure_ok, Prod.mk.injEq] at ha; rw [← ha.1]; exact h
    · cases c with
      | true => simp only [pure_ok, Prod.mk.injEq] at ha; rw [← ha.1]; exact h
      | false =>
        simp only [bind_ok] at ha
        obtain ⟨⟨o1, t⟩, h1, ha⟩ := ha
        have h' := h.turn hf h1
        cases t with
        | «continue» => exact ih (hf.turn h1) h' ha
        | answer => simp only [pure_ok, Prod.mk.injEq] at ha; rw [← ha.1]; exact h'
        | error => simp only [pure_ok, Prod.mk.injEq] at ha; rw [← ha.1]; exact h'

theorem compileProgram_tidy {ord cs p st p' st'} (hp : ∀ f rs, Program.rules? p f = some rs → ∀ r ∈ rs, ∀ a ∈ r, a.Tidy)
    (hc : ∀ cl ∈ cs, ∀ a ∈ cl.head :: cl.body, a.callable = true)
    (h : compileProgram ord cs p st = .ok (p', st')) : ∀ f rs, Program.rules? p' f = some rs → ∀ r ∈ rs, ∀ a ∈ r, a.Tidy := by
  induction cs generalizing p st with
  | nil => simp only [compileProgram, pure_ok, Prod.mk.injEq] at h; rw [← h.1]; exact hp
  | cons c cs ih =>
    simp only [compileProgram, bind_ok] at h
    obtain ⟨⟨f, r, st1⟩, h1, h2⟩ := h
    refine ih ?_ (fun cl hcl => hc cl (by simp [hcl])) h2
    intro g rs hg r' hr'
    rw [Program.rules?_addRule] at hg
    split at hg
    · cases hg
      simp only [List.mem_append, List.mem_singleton] at hr'
      rcases hr' with hr' | rfl
      · cases hp' : Program.rules? p f with
        | none => simp [hp'] at hr'
        | some qs => simp [hp'] at hr'; exact hp f qs hp' r' hr'
      · exact (compileClause_form h1).tidy (hc c (by simp))
    · exact hp g rs hg r' hr'

theorem mergeBuiltins_tidy {b p : Program} (hb : ∀ e ∈ b, ∀ r ∈ e.2, ∀ a ∈ r, a.Tidy)
    (hp : ∀ f rs, p.rules? f = some rs → ∀ r ∈ rs, ∀ a ∈ r, a.Tidy) :
    ∀ f rs, (Org.mergeBuiltins b p).rules? f = some rs → ∀ r ∈ rs, ∀ a ∈ r, a.Tidy := by
  unfold Org.mergeBuiltins
  induction b generalizing p with
  | nil => exact hp
  | cons e b ih =>
    simp only [List.foldl_cons]
    refine ih (fun e' he' => hb e' (by simp [he'])) ?_
    intro g rs hg r' hr'
    rw [Program.rules?_assign] at hg
    split at hg
    · cases hg; exact hb e (by simp) r' hr'
    · exact hp g rs hg r' hr'

theorem init_tidy : ∀ e ∈ Org.init0.builtins, ∀ r ∈ e.2, ∀ a ∈ r, a.Tidy := by
  have : (Org.init0.builtins.all fun e => e.2.all fun r => r.all (·.tidyB)) = true := by decide +kernel
  intro e he r hr a ha
  simp only [List.all_eq_true] at this
  exact tidy_of_b (this e he r hr a ha)

theorem Typed.tinv {o} (h : Typed o) : TInv o := by
  induction h with
  | @init o h =>
    rw [Org.init_eq] at h
    cases h
    refine ⟨?_, init_tidy, ?_, ?_⟩
    · intro f rs hf r hr a ha
      rw [Org.init0_program] at hf
      unfold Program.rules? at hf
      have : (f, rs) ∈ Org.init0.builtins := by
        generalize Org.init0.builtins = b at hf
        induction b with
        | nil => simp at hf
        | cons e p ih =>
          obtain ⟨g, qs⟩ := e
          rw [List.lookup_cons] at hf
          split at hf
          · rename_i hb
            have : f = g := by simpa using hb
            cases hf; simp [this]
          · exact List.mem_cons_of_mem _ (ih hf)
      exact init_tidy _ this r hr a ha
    · have : Org.init0.queue = [] := by decide +kernel
      rw [this]; simp
    · have : Org.init0.queue = [] := by decide +kernel
      rw [this]; simp
  | @program o ord parsed _ hp ih =>
    unfold Org.loadProgram
    cases parsed with
    | none => exact ih
    | some cs =>
      simp only
      cases hc : compileProgram ord cs [] o.st with
      | error x => exact ⟨ih.prog, ih.bi, ih.tidy, ih.left⟩
      | ok x =>
        exact ⟨mergeBuiltins_tidy ih.bi (compileProgram_tidy (by intro f rs h; simp [Program.rules?] at h) (hp cs rfl) hc), ih.bi, ih.tidy, ih.left⟩
  | @query o ord parsed _ hp ih =>
    unfold Org.loadQuery
    simp only
    cases parsed with
    | none => exact ⟨ih.prog, ih.bi, by simp, by simp⟩
    | some cs =>
      simp only
      cases hc : compileQuery ord cs o.st with
      | error x => exact ⟨ih.prog, ih.bi, by simp, by simp⟩
      | ok x =>
        obtain ⟨qy, st⟩ := x
        simp only
        have hform := compileQuery_form hc
        obtain ⟨hne, hcal⟩ := hp cs rfl
        refine ⟨ih.prog, ih.bi, ?_, ?_⟩
        · intro id hid e he t ht
          simp only [List.mem_singleton] at hid
          subst hid
          cases he
          simp only [initExec, List.mem_map] at ht
          obtain ⟨a, ha, rfl⟩ := ht
          exact hform.tidy hcal a ha
        · intro id hid e he
          simp only [List.mem_singleton] at hid
          subst hid
          cases he
          right
          show goalsOf (qy.map (⟨0, ·⟩)) ≠ []
          rw [hform.goals]
          exact hne
  | @answer o o' fuel clock r ht ha ih => exact ih.getAnswer ht.reach.finv ha
  | memory _ ih =>
    refine ⟨?_, ?_, ?_, ?_⟩
    · intro f rs h; simp [Org.clearMemory, Program.rules?] at h
    · intro e he; simp [Org.clearMemory] at he
    · intro id hid; simp [Org.clearMemory] at hid
    · intro id hid; simp [Org.clearMemory] at hid

/-- **C25.** An iteration reports an answer if and only if a clause has been entered successfully and no goal is
left: bookkeeping entries neither hide goals nor count as goals.  If goals are left, the work goes on with exactly
these goals. -/
theorem C25_success_iff_no_goal_left {o o' : Org} {fuel id q e t ts r} (h : Typed o) (hq : o.queue = id :: q) (he : o.execs[id]? = some e)
    (hc : e.codes = t :: ts) (ht : o.turn fuel = .ok (o', r)) :
    ((∃ bs, r = .answer bs) ↔ t.atom.head?.isSome ∧ (∀ e', o'.execs[id]? = some e' → e'.state ≠ .fail ∧ e'.state ≠ .rtErr) ∧ goalsOf ts = []) ∧
    (t.atom.head?.isSome → (∀ e', o'.execs[id]? = some e' → e'.state ≠ .fail ∧ e'.state ≠ .rtErr) → goalsOf ts ≠ [] →
      ∃ n, o'.queue = q ++ [o.execs.length] ∧ o'.execs[o.execs.length]? = some n ∧ n.codes = ts ∧ n.parent = some id) := by
  have hf := h.reach.finv
  have hti := h.tinv
  obtain ⟨e2, he2, hrun, _⟩ := hf.rinv.inv.qrun id (by simp [hq])
  rw [he] at he2; cases he2
  have hlt : id < o.execs.length := (List.getElem?_eq_some_iff.1 he).1
  have htd := hti.tidy id (by simp [hq]) e he
  rw [hc] at htd
  rcases hf.front hq he hc with ⟨ds, h1, h2, _, h3⟩ | hgt | ⟨h1, _⟩
  · obtain ⟨e1, hr, hst, hx⟩ := turn_proceed hf.rinv.inv hq he hc h1 h2 ht
    have hs := h3 _ _ _ (e.start t.atom) _ rfl hrun hr
    have hcod : e1.codes = t :: ts := (runData_frame hr).codes.trans hc
    have hhead := (head?_of_proceed h1).1
    have htd' : ∀ t ∈ ts, t.atom.Tidy := fun t ht => htd t (by simp [ht])
    rcases hx with ⟨hs1, rfl, rfl⟩ | ⟨err, hs1, _, rfl, rfl⟩ | ⟨_, hd, ⟨bs, rfl, _⟩, rfl⟩ | ⟨_, hd, rfl, rfl⟩
    · have hno : ¬ ∀ e', ({ o with queue := q, execs := o.execs.set id e1.clear } : Org).execs[id]? = some e' → e'.state ≠ .fail ∧ e'.state ≠ .rtErr :=
        fun hh => (hh e1.clear (List.getElem?_set_self hlt)).1 hs1
      refine ⟨⟨fun ⟨_, hb⟩ => (by cases hb), fun ⟨_, hb, _⟩ => absurd hb hno⟩, fun _ hb _ => absurd hb hno⟩
    · have hno : ¬ ∀ e', ({ o with queue := q, execs := o.execs.set id e1.clear } : Org).execs[id]? = some e' → e'.state ≠ .fail ∧ e'.state ≠ .rtErr :=
        fun hh => (hh e1.clear (List.getElem?_set_self hlt)).2 hs1
      refine ⟨⟨fun ⟨_, hb⟩ => (by cases hb), fun ⟨_, hb, _⟩ => absurd hb hno⟩, fun _ hb _ => absurd hb hno⟩
    · have hg := (allDealloc_goals hs htd' hd).1 rfl
      refine ⟨⟨fun _ => ⟨by simp [hhead], ?_, hg⟩, fun _ => ⟨bs, rfl⟩⟩, fun _ _ hb => absurd hg hb⟩
      intro e' he'
      simp only [List.getElem?_set_self hlt, Option.some.injEq] at he'
      subst he'
      simp
    · have hg := allDealloc_goals hs htd' hd
      simp only [Bool.false_eq_true, false_iff] at hg
      refine ⟨⟨fun ⟨_, hb⟩ => (by cases hb), fun ⟨_, _, hb⟩ => absurd hb hg⟩, fun _ _ _ => ⟨proceedChild id e1, rfl, by simp, ?_, rfl⟩⟩
      simp [proceedChild, hcod]
  · have hk := hgt.goal?
    obtain ⟨ds, h1, h2, _, h3⟩ := hgt
    obtain ⟨e1, hr, hcont, hst, hx⟩ := turn_call hf.rinv.inv hq he hc h1 h2 (fun e1 hr => (h3 _ _ _ (e.start t.atom) _ rfl hrun hr).1) ht
    rw [hk.2, hcont]
    simp
  · obtain ⟨env', es2, k1, rfl, _, _⟩ := turn_dealloc hf.rinv.inv hq he hc (by rw [h1]; rfl) ht
    rw [h1, dealloc_kind.2]
    simp

/-- **C25, the other half:** every alternative that is waiting for its turn still has a clause to enter or a goal to
call. -/
theorem C25_waiting_means_goal_left {o : Org} {id e} (h : Typed o) (hid : id ∈ o.queue) (he : o.execs[id]? = some e) :
    (∃ t ts, e.codes = t :: ts ∧ t.atom.head?.isSome) ∨ goalsOf e.codes ≠ [] := h.tinv.left id hid e he

/-! ## C26 -/

theorem Within.tasks {m P} {o : Org} {id : Nat} (hf : FInv o) (hid : id ∈ o.queue) (h0 : ∃ e, o.execs[id]? = some e ∧ Task P e.codes e.envs)
    (hP : ∀ cs es, P cs es → cs.length ≤ m) {o' j} (h : Within m o id o' j) :
    FInv o' ∧ j ∈ o'.queue ∧ ∃ e, o'.execs[j]? = some e ∧ Task P e.codes e.envs := by
  induction h with
  | here => exact ⟨hf, hid, h0⟩
  | other _ hq hj ht ih =>
    obtain ⟨i1, i2, i3⟩ := ih
    obtain ⟨k1, k2⟩ := turn_other i1.rinv.inv hq ht hj
    exact ⟨i1.turn ht, k2, by rw [k1]; exact i3⟩
  | own _ hq he hlen ht hk hkq ih =>
    obtain ⟨i1, i2, e', he', i3⟩ := ih
    rw [he] at he'; cases he'
    refine ⟨i1.turn ht, hk, i3.step ?_ i1.rinv.inv i1.prog hq he ht hk hkq⟩
    intro t ts hc hp
    have := hP _ _ hp
    rw [hc] at hlen
    omega

theorem Stacked.length {ts : List TCode} {E cs es} (h : Stacked (fun cs es => cs = ts ∧ es = E) cs es) :
    ts.length ≤ cs.length ∧ (cs.length ≤ ts.length → cs = ts ∧ es = E) := by
  induction h with
  | base h => obtain ⟨rfl, rfl⟩ := h; exact ⟨Nat.le_refl _, fun _ => ⟨rfl, rfl⟩⟩
  | @frame n gs ds cs es es' h hg hd he ih =>
    obtain ⟨i1, i2⟩ := ih
    refine ⟨by simp; omega, fun hl => ?_⟩
    simp only [List.length_append] at hl
    have h1 : gs = [] := List.eq_nil_of_length_eq_zero (by omega)
    have h2 : ds = [] := List.eq_nil_of_length_eq_zero (by omega)
    subst h1 h2
    obtain ⟨i3, i4⟩ := i2 (by omega)
    refine ⟨by simpa using i3, ?_⟩
    rcases he with ⟨rfl, rfl⟩ | ⟨h0, _⟩
    · exact i4
    · unfold deallocAtoms at hd
      simp [h0] at hd

/-- **C26.** However deep the work on a called goal goes: when the first alternative coming out of it has nothing of
it left to do, exactly what was to be done after the goal is left, and the environments are exactly those from the
time of the call. -/
theorem C26_environments_restored {o o1 o2 : Org} {fuel id q e t ts r k n j e2} (h : Reach o) (hq : o.queue = id :: q)
    (he : o.execs[id]? = some e) (hc : e.codes = t :: ts) (hg : t.atom.goal?.isSome) (ht : o.turn fuel = .ok (o1, r))
    (hk : k ∈ o1.queue) (hkq : k ∉ q) (hn : o1.execs[k]? = some n) (hw : Within ts.length o1 k o2 j) (he2 : o2.execs[j]? = some e2)
    (hlen : e2.codes.length ≤ ts.length) : e2.codes = ts ∧ e2.envs = n.envs := by
  have hf := h.finv
  obtain ⟨e', he', hrun, _⟩ := hf.rinv.inv.qrun id (by simp [hq])
  rw [he] at he'; cases he'
  have h0 : Task (fun cs es => cs = ts ∧ es = n.envs) n.codes n.envs := by
    rcases hf.front hq he hc with ⟨ds, h1, _⟩ | hgt | ⟨h1, _⟩
    · rw [(head?_of_proceed h1).2] at hg; cases hg
    · obtain ⟨ds, h1, h2, _, h3⟩ := hgt
      obtain ⟨e1, hr, _, hst, hx⟩ := turn_call hf.rinv.inv hq he hc h1 h2 (fun e1 hr => (h3 _ _ _ (e.start t.atom) _ rfl hrun hr).1) ht
      have hcod : e1.codes = t :: ts := (runData_frame hr).codes.trans hc
      rcases hx with ⟨_, rfl⟩ | ⟨rules, hrl, rfl⟩
      · exact absurd hk hkq
      · simp only [List.mem_append, List.mem_range'_1] at hk
        rcases hk with hk | hk
        · exact absurd hk hkq
        · have hi : k - o.execs.length < rules.length := by omega
          simp only at hn
          rw [List.getElem?_append_right (by simpa using hk.1)] at hn
          simp only [List.length_set, List.getElem?_map, List.getElem?_eq_getElem hi, Option.map_some, Option.some.injEq] at hn
          subst hn
          exact formed_task hf.prog hrl (List.getElem_mem hi) (.base ⟨by simp [hcod], rfl⟩)
    · rw [h1] at hg; cases hg
  obtain ⟨_, _, e3, he3, ht3⟩ := hw.tasks (hf.turn ht) hk ⟨n, hn, h0⟩ (by rintro cs es ⟨rfl, _⟩; exact Nat.le_refl _)
  rw [he2] at he3; cases he3
  cases ht3 with
  | @enter r rest head body hc' hr hs =>
    obtain ⟨n', hd, gs, h1, _⟩ := hr
    have l1 := hs.length.1
    have l2 : r.length = gs.length + (deallocAtoms n').length + 1 := by
      have := congrArg List.length h1
      simpa [Nat.add_assoc] using this
    rw [hc'] at hlen
    simp only [List.length_append] at hlen
    omega
  | resume hs => exact hs.length.2 hlen

/-- The permanent register an instruction uses. -/
def Instr.yReg : Instr → Option Nat
  | .setPermVariable y _ | .setPermValue y | .putPermVariable y _ _ | .putPermValue y _ | .unifyPermVariable y _ | .unifyPermValue y
  | .getPermVariable y _ | .getPermValue y _ => some y
  | _ => none

theorem FInv.goalCode {o : Org} (h : FInv o) {id q e t ts} (hq : o.queue = id :: q) (he : o.execs[id]? = some e) (hc : e.codes = t :: ts)
    (hg : t.atom.goal?.isSome) : ∃ n ds, (∀ d ∈ ds, d.put n = true) ∧
      ((t.atom.instrs = ds ++ [.call t.atom.parsed.fv] ∧ ∃ b, EnvOf n e.envs b) ∨
      (n ≠ 0 ∧ t.atom.instrs = .allocate n :: (ds ++ [.call t.atom.parsed.fv]) ∧ e.envs = [])) := by
  obtain ⟨e', he', ht⟩ := h.task id (by simp [hq])
  rw [he] at he'; cases he'
  rw [hc] at ht
  cases ht with
  | @enter r rest head body hc hr hs =>
    obtain ⟨n, hd, gs, h1, ⟨ds, h2, h3, h4⟩, h5, h6, h7⟩ := hr
    cases r with
    | nil => simp at h1
    | cons t' r =>
      simp only [List.map_cons, List.cons.injEq] at h1
      obtain ⟨rfl, h1⟩ := h1
      simp only [List.cons_append, List.cons.injEq] at hc
      obtain ⟨rfl, rfl⟩ := hc
      rw [(head?_of_proceed (ds := allocInstrs n ++ ds) (by rw [h2, List.append_assoc])).2] at hg
      cases hg
  | resume hs =>
    rcases hs.front with hb | ⟨n, ⟨ds, k1, k2, _⟩, hb, _⟩ | ⟨hd, _⟩
    · cases hb with
      | start h1 h2 =>
        obtain ⟨_, _, h3⟩ := h1
        rcases h3 with h3 | ⟨n, g, gs, h3, ⟨ds, k1, k2, _⟩, _⟩
        · simp at h3
        · simp only [List.map_cons, List.cons.injEq] at h3
          obtain ⟨rfl, rfl⟩ := h3
          refine ⟨n, ds, k2, ?_⟩
          by_cases h0 : n = 0
          · subst h0
            exact .inl ⟨by simpa [allocInstrs] using k1, e.envs, .inl ⟨rfl, rfl⟩⟩
          · exact .inr ⟨h0, by simpa [allocInstrs, h0] using k1, h2⟩
      | @rest n h1 h2 =>
        obtain ⟨ds, k1, k2, _⟩ := h1 t (by simp)
        exact ⟨n, ds, k2, .inl ⟨k1, _, h2⟩⟩
    · exact ⟨n, ds, k2, .inl ⟨k1, hb⟩⟩
    · rw [hd] at hg; cases hg

/-- **C26, own environment:** when a goal is called, every permanent register in its code lies within the topmost
environment (the first goal of a query creates it first). -/
theorem C26_own_environment {o : Org} {id q e t ts} (h : Reach o) (hq : o.queue = id :: q)
    (he : o.execs[id]? = some e) (hc : e.codes = t :: ts) (hg : t.atom.goal?.isSome) :
    (∀ i ∈ t.atom.instrs, ∀ y, i.yReg = some y → ∃ env rest, e.envs = env :: rest ∧ y < env.length) ∨
    (∃ n is, t.atom.instrs = .allocate n :: is ∧ e.envs = [] ∧ ∀ i ∈ is, ∀ y, i.yReg = some y → y < n) := by
  obtain ⟨n, ds, h1, h2⟩ := h.finv.goalCode hq he hc hg
  have key : ∀ i ∈ ds ++ [.call t.atom.parsed.fv], ∀ y, i.yReg = some y → y < n := by
    intro i hi y hy
    simp only [List.mem_append, List.mem_singleton] at hi
    rcases hi with hi | rfl
    · have := h1 i hi
      cases i <;> simp [Instr.yReg] at hy <;> simp [Instr.put] at this <;> omega
    · cases hy
  rcases h2 with ⟨h2, b, h3⟩ | ⟨h0, h2, h3⟩
  · left
    rw [h2]
    intro i hi y hy
    have := key i hi y hy
    rcases h3 with ⟨rfl, _⟩ | ⟨_, env, h3, h4⟩
    · omega
    · exact ⟨env, b, h3, by omega⟩
  · exact .inr ⟨n, _, h2, h3, key⟩

/-- **C26, the call:** the alternatives of a called goal start with the environments of the caller, in which at most
values of the caller's own, topmost environment have been set (or which the first goal of a query has just
created). -/
theorem C26_call_keeps_environments {o o1 : Org} {fuel id q e t ts r k n} (h : Reach o) (hq : o.queue = id :: q)
    (he : o.execs[id]? = some e) (hc : e.codes = t :: ts) (hg : t.atom.goal?.isSome) (ht : o.turn fuel = .ok (o1, r))
    (hk : k ∈ o1.queue) (hkq : k ∉ q) (hn : o1.execs[k]? = some n) :
    n.envs = e.envs ∨ (∃ env env' rest, e.envs = env :: rest ∧ n.envs = env' :: rest ∧ env'.length = env.length) ∨
    (e.envs = [] ∧ ∃ env, n.envs = [env]) := by
  have hf := h.finv
  obtain ⟨e', he', hrun, _⟩ := hf.rinv.inv.qrun id (by simp [hq])
  rw [he] at he'; cases he'
  obtain ⟨m, ds, h1, h2⟩ := hf.goalCode hq he hc hg
  have fin : ∀ e1 : Exec, ((o.program.rules? t.atom.parsed.fv = none ∧ o1 = { o with queue := q, execs := o.execs.set id e1.setFailed.clear, calls := o.calls + 1 }) ∨
      ∃ rules, o.program.rules? t.atom.parsed.fv = some rules ∧
        o1 = { o with
          queue := q ++ List.range' o.execs.length rules.length
          execs := o.execs.set id { e1.clear with children := e1.children ++ List.range' o.execs.length rules.length, state := .archived } ++
            rules.map (o.callChild id e1)
          calls := o.calls + 1 }) → n.envs = e1.envs := by
    intro e1 hx
    rcases hx with ⟨_, rfl⟩ | ⟨rules, hrl, rfl⟩
    · exact absurd hk hkq
    · simp only [List.mem_append, List.mem_range'_1] at hk
      rcases hk with hk | hk
      · exact absurd hk hkq
      · have hi : k - o.execs.length < rules.length := by omega
        simp only at hn
        rw [List.getElem?_append_right (by simpa using hk.1)] at hn
        simp only [List.length_set, List.getElem?_map, List.getElem?_eq_getElem hi, Option.map_some, Option.some.injEq] at hn
        rw [← hn]; rfl
  rcases h2 with ⟨h2, b, h3⟩ | ⟨h0, h2, h3⟩
  · obtain ⟨e1, hr, _, hst, hx⟩ := turn_call hf.rinv.inv hq he hc h2 (fun d hd => Instr.put_data (h1 d hd))
      (fun e1 hr => ((put_run h1 hr).2.trans hrun)) ht
    rw [fin e1 hx]
    rcases (put_run h1 hr).1 with hb | ⟨_, env, env', rest, hb1, hb2, hb3⟩
    · exact .inl hb
    · exact .inr (.inl ⟨env, env', rest, hb1, hb2, hb3⟩)
  · have hal : allocInstrs m = [.allocate m] := by simp [allocInstrs, h0]
    have hins : t.atom.instrs = (allocInstrs m ++ ds) ++ [.call t.atom.parsed.fv] := by simp [hal, h2]
    have hrn : ∀ e1, runData (preOf o.execs e) fuel o.st (allocInstrs m ++ ds) (e.start t.atom) = .ok e1 → e1.state = .running ∧ EnvOf m e1.envs [] := by
      intro e1 hr
      obtain ⟨k1, k2⟩ := env_first_run (e := e.start t.atom) hrun h1 hr
      refine ⟨k2.trans hrun, ?_⟩
      have : (e.start t.atom).envs = [] := h3
      rwa [this] at k1
    obtain ⟨e1, hr, _, hst, hx⟩ := turn_call hf.rinv.inv hq he hc hins (by
      intro d hd
      simp only [List.mem_append] at hd
      exact hd.elim (allocInstrs_data m d) fun h => Instr.put_data (h1 d h)) (fun e1 hr => (hrn e1 hr).1) ht
    rw [fin e1 hx]
    rcases (hrn e1 hr).2 with ⟨h, _⟩ | ⟨_, env, h, _⟩
    · exact absurd h h0
    · exact .inr (.inr ⟨h3, env, h⟩)

/-! ## The hypotheses can be met -/

namespace GoalExamples

/-- `p(a). q(a). q(b). r(X) :- p(X), q(X).` -/
def prog : List Clause :=
  [⟨.fn n!"p" [.cons n!"a"], []⟩, ⟨.fn n!"q" [.cons n!"a"], []⟩, ⟨.fn n!"q" [.cons n!"b"], []⟩,
   ⟨.fn n!"r" [.var n!"X"], [.fn n!"p" [.var n!"X"], .fn n!"q" [.var n!"X"]]⟩]

def start : Org := demo prog [.fn n!"r" [.var n!"X"], .fn n!"s" [.var n!"X"]]

theorem start_typed : Typed start := by
  refine .query _ _ (.program _ _ (.init Org.init_eq) ?_) ?_
  · intro p hp
    cases hp
    have : (prog.all fun cl => (cl.head :: cl.body).all (·.callable)) = true := by decide
    simpa only [List.all_eq_true] using this
  · intro l hl
    cases hl
    exact ⟨by simp, by simp [Node.callable]⟩

def next (o : Org) : Org := match o.turn 20 with
  | .ok r => r.1
  | .error _ => o

def nth : Nat → Org
  | 0 => start
  | n + 1 => next (nth n)

theorem next_eq {o : Org} (h : (o.turn 20).isOk = true) : ∃ r, o.turn 20 = .ok (next o, r) := by
  unfold next
  cases ho : o.turn 20 with
  | ok x => exact ⟨x.2, rfl⟩
  | error => rw [ho] at h; cases h

/-- Codes (as goals) and environments of the executor at work. -/
def view (o : Org) : Option (Nat × List (Option Node) × Nat) :=
  match o.queue with
  | [] => none
  | id :: _ => o.execs[id]?.map fun e => (id, e.codes.map (·.atom.goal?), e.envs.length)

def isX (f : Name) : Option Node → Bool
  | some (.fn g [.var _]) => f = g
  | _ => false

/-- After two iterations the goal `p(X)` of the clause for `r` is about to be called, with the environments of the
query and of the clause and with `q(X)`, the bookkeeping entry and `s(X)` left to do. -/
example : (match view (nth 2) with
    | some (2, [p, q, none, s], 2) => isX n!"p" p && isX n!"q" q && isX n!"s" s
    | _ => false) = true := by decide +kernel

/-- Two iterations later exactly this is left. -/
example : (match view (nth 4) with
    | some (4, [q, none, s], 2) => isX n!"q" q && isX n!"s" s
    | _ => false) = true := by decide +kernel

/-- Here two alternatives have been created, one for each clause of `q`. -/
example : (nth 5).queue = [5, 6] := by decide +kernel

/-- `r`, `p` and `q` have been called. -/
example : (nth 5).calls = 3 := by decide +kernel

/-- The hypotheses of `C26_environments_restored` hold for the call of `p(X)`. -/
example : ∃ (o o1 o2 : Org) (e e2 n : Exec) (t : TCode) (ts : List TCode) (r : Turn), Reach o ∧ o.queue = [2] ∧ o.execs[2]? = some e ∧ e.codes = t :: ts ∧
    t.atom.goal?.isSome ∧ o.turn 20 = .ok (o1, r) ∧ 3 ∈ o1.queue ∧ o1.execs[3]? = some n ∧ Within ts.length o1 3 o2 4 ∧ o2.execs[4]? = some e2 ∧
    e2.codes.length ≤ ts.length ∧ n.envs.length = 2 := by
  obtain ⟨r0, h0⟩ := next_eq (o := nth 0) (by decide +kernel)
  obtain ⟨r1, h1⟩ := next_eq (o := nth 1) (by decide +kernel)
  obtain ⟨r2, h2⟩ := next_eq (o := nth 2) (by decide +kernel)
  obtain ⟨r3, h3⟩ := next_eq (o := nth 3) (by decide +kernel)
  have get : ∀ (o : Org) (k : Nat), (o.execs[k]?).isSome = true → ∃ e, o.execs[k]? = some e := fun o k h => Option.isSome_iff_exists.1 h
  obtain ⟨e, he⟩ := get (nth 2) 2 (by decide +kernel)
  obtain ⟨n, hn⟩ := get (nth 3) 3 (by decide +kernel)
  obtain ⟨e2, he2⟩ := get (nth 4) 4 (by decide +kernel)
  have c1 : ((nth 2).execs[2]?.map fun e => match e.codes with
      | t :: ts => decide (ts.length = 3) && t.atom.goal?.isSome
      | [] => false) = some true := by decide +kernel
  have c2 : ((nth 3).execs[3]?.map fun e => decide (3 < e.codes.length) && decide (e.envs.length = 2)) = some true := by decide +kernel
  have c3 : ((nth 4).execs[4]?.map fun e => decide (e.codes.length ≤ 3)) = some true := by decide +kernel
  rw [he] at c1; rw [hn] at c2; rw [he2] at c3
  simp only [Option.map_some, Option.some.injEq, Bool.and_eq_true, decide_eq_true_eq] at c1 c2 c3
  have reach : ∀ k, k ≤ 2 → Reach (nth k) := by
    intro k hk
    have step : ∀ o : Org, Reach o → (o.turn 20).isOk = true → o.queue ≠ [] → (match o.turn 20 with | .ok (_, .continue) => true | _ => false) = true → Reach (next o) := by
      intro o hr hok hq hcont
      obtain ⟨r, h⟩ := next_eq hok
      rw [h] at hcont
      cases r with
      | «continue» =>
        refine .answer (fuel := 20) (clock := [false]) (r := (if (next o).queue = [] then .noAnswer else .running)) hr ?_
        unfold Org.getAnswer
        cases hqq : o.queue with
        | nil => exact absurd hqq hq
        | cons id q =>
          simp only [h, ok_bind]
          unfold Org.getAnswer
          cases (next o).queue <;> rfl
      | _ => cases hcont
    have r0 : Reach (nth 0) := start_typed.reach
    have r1 : Reach (nth 1) := step _ r0 (by decide +kernel) (by decide +kernel) (by decide +kernel)
    have r2 : Reach (nth 2) := step _ r1 (by decide +kernel) (by decide +kernel) (by decide +kernel)
    match k, hk with
    | 0, _ => exact r0
    | 1, _ => exact r1
    | 2, _ => exact r2
  cases hc : e.codes with
  | nil => rw [hc] at c1; cases c1
  | cons t ts =>
    rw [hc] at c1
    simp only [Bool.and_eq_true, decide_eq_true_eq] at c1
    refine ⟨nth 2, nth 3, nth 4, e, e2, n, t, ts, r2, reach 2 (by omega), by decide +kernel, he, hc, c1.2, h2, by decide +kernel, hn, ?_, he2, by omega, c2.2⟩
    exact .own (q := []) .here (by decide +kernel) hn (by omega) h3 (by decide +kernel) (by simp)

end GoalExamples
end PBfs
