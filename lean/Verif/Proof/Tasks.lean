import Verif.Proof.Exact
/-! # The stack discipline holds in every history -/
namespace PBfs
open Org

/-- Every rule of a program is the code of a clause for its key. -/
def Program.Formed (p : Program) : Prop :=
  ∀ f rs, p.rules? f = some rs → rs ≠ [] ∧ ∀ r ∈ rs, ∃ head body, RuleForm head body r ∧ head.fv = f

/-- What a goal at the front does: it calls its predicate, and what is left satisfies `Q`. -/
def GoalTurn (t : TCode) (es : List (List Cell)) (Q : List (List Cell) → Prop) : Prop :=
  ∃ ds, t.atom.instrs = ds ++ [.call t.atom.parsed.fv] ∧ (∀ d ∈ ds, d.isData = true) ∧
    (t.atom.parsed.goal = true → ds ≠ []) ∧
    ∀ pre fuel st (e e1 : Exec), e.envs = es → e.state = .running → runData pre fuel st ds e = .ok e1 → e1.state = .running ∧ Q e1.envs

/-- Bases consist of goals. -/
def Based (P : List TCode → List (List Cell) → Prop) : Prop :=
  ∀ t ts es, P (t :: ts) es → GoalTurn t es (P ts)

theorem GoalTurn.mono {t es} {Q Q' : List (List Cell) → Prop} (h : GoalTurn t es Q) (hq : ∀ es, Q es → Q' es) : GoalTurn t es Q' := by
  obtain ⟨ds, h1, h2, h3, h4⟩ := h
  exact ⟨ds, h1, h2, h3, fun pre fuel st e e1 a b c => ⟨(h4 pre fuel st e e1 a b c).1, hq _ (h4 pre fuel st e e1 a b c).2⟩⟩

theorem GoalForm.turn {n : Nat} {t : TCode} {es Q} (h : GoalForm n t.atom) (hQ : ∀ es', Below n es es' → Q es') : GoalTurn t es Q := by
  obtain ⟨ds, h1, h2, h3⟩ := h
  refine ⟨ds, h1, fun d hd => Instr.put_data (h2 d hd), h3, ?_⟩
  intro pre fuel st e e1 he hr hrun
  obtain ⟨k1, k2⟩ := put_run h2 hrun
  exact ⟨k2.trans hr, hQ _ (he ▸ k1)⟩

theorem Stacked.turn {P t ts es} (hP : P (t :: ts) es → GoalTurn t es (P ts)) (h : Stacked P (t :: ts) es) :
    GoalTurn t es (Stacked P ts) ∨ (t.atom = deallocAtom ∧ ∃ env es', es = env :: es' ∧ Stacked P ts es') := by
  rcases h.front with h | ⟨n, h1, _, h2⟩ | h
  · exact .inl ((hP h).mono fun _ h => .base h)
  · exact .inl (h1.turn h2)
  · exact .inr h

/-- What is at the front of a task. -/
theorem Task.turn {P t ts es} (hP : P (t :: ts) es → GoalTurn t es (P ts)) (h : Task P (t :: ts) es) :
    (∃ ds, t.atom.instrs = ds ++ [.proceed] ∧ (∀ d ∈ ds, d.isData = true) ∧ (t.atom.parsed.goal = true → ds ≠ []) ∧
      (∃ r rest head body, t :: ts = r ++ rest ∧ RuleForm head body (r.map (·.atom)) ∧ t.atom.parsed = head) ∧
      ∀ pre fuel st (e e1 : Exec), e.envs = es → e.state = .running → runData pre fuel st ds e = .ok e1 → Stacked P ts e1.envs) ∨
    GoalTurn t es (Stacked P ts) ∨ (t.atom = deallocAtom ∧ ∃ env es', es = env :: es' ∧ Stacked P ts es') := by
  cases h with
  | @enter r rest head body hc hr hs =>
    obtain ⟨n, hd, gs, h1, ⟨ds, h2, h3, h4⟩, h5, h6, h7⟩ := hr
    cases r with
    | nil => simp at h1
    | cons t' r =>
      simp only [List.map_cons, List.cons.injEq] at h1
      obtain ⟨rfl, h1⟩ := h1
      simp only [List.cons_append, List.cons.injEq] at hc
      obtain ⟨rfl, rfl⟩ := hc
      refine .inl ⟨allocInstrs n ++ ds, by rw [h2, List.append_assoc], ?_, fun hg => by simp [h4 hg], ⟨t :: r, rest, head, body, rfl, ?_, h6⟩, ?_⟩
      · intro d hd
        simp only [List.mem_append] at hd
        exact hd.elim (allocInstrs_data n d) fun h => Instr.get_data (h3 d h)
      · exact ⟨n, t.atom, gs, by simp [h1], ⟨ds, h2, h3, h4⟩, h5, h6, h7⟩
      · intro pre fuel st e e1 hes hrun hd
        have := env_head_run hrun h3 hd
        rw [hes] at this
        obtain ⟨gs', ds', rfl, k1, k2⟩ := List.map_eq_append_iff.1 h1
        rw [List.append_assoc]
        refine .frame hs ?_ k2 this
        intro g hg
        exact h5 g.atom (by rw [← k1]; exact List.mem_map_of_mem hg)
  | resume hs => exact .inr (hs.turn hP)

theorem formed_task {P} {o : Org} (hf : o.program.Formed) {id} {e : Exec} {f rules r} (hr : o.program.rules? f = some rules) (hm : r ∈ rules)
    (h : Stacked P (e.codes.drop 1) e.envs) : Task P (o.callChild id e r).codes (o.callChild id e r).envs := by
  obtain ⟨head, body, h1, _⟩ := (hf f rules hr).2 r hm
  exact .enter (r := r.map (⟨o.gen, ·⟩)) rfl (by simpa [Function.comp_def] using h1) h

/-- A turn of a task leads to tasks. -/
theorem Task.step {P} {o o' : Org} {fuel id q e r} (hP : ∀ t ts, e.codes = t :: ts → P (t :: ts) e.envs → GoalTurn t e.envs (P ts)) (inv : o.Inv) (hf : o.program.Formed) (hq : o.queue = id :: q)
    (he : o.execs[id]? = some e) (ht : Task P e.codes e.envs) (h : o.turn fuel = .ok (o', r)) {k : Nat} (hk : k ∈ o'.queue) (hkq : k ∉ q) :
    ∃ e', o'.execs[k]? = some e' ∧ Task P e'.codes e'.envs := by
  obtain ⟨e2, he2, hrun, _⟩ := inv.qrun id (by simp [hq])
  rw [he] at he2; cases he2
  have hlt : id < o.execs.length := (List.getElem?_eq_some_iff.1 he).1
  cases hcodes : e.codes with
  | nil => simp [Org.turn, hq, turnOf, exec, he, hcodes] at h
  | cons t ts =>
    rw [hcodes] at ht
    rcases ht.turn (hP t ts hcodes) with ⟨ds, h1, h2, _, _, h3⟩ | ⟨ds, h1, h2, _, h3⟩ | ⟨h1, env, es', h2, h3⟩
    · obtain ⟨e1, hr, hst, hx⟩ := turn_proceed inv hq he hcodes h1 h2 h
      have hs := h3 _ _ _ (e.start t.atom) _ rfl hrun hr
      have hcod : e1.codes = t :: ts := (runData_frame hr).codes.trans hcodes
      rcases hx with ⟨_, _, rfl⟩ | ⟨_, _, _, _, rfl⟩ | ⟨_, _, _, rfl⟩ | ⟨_, _, _, rfl⟩
      · exact absurd hk hkq
      · exact absurd hk hkq
      · exact absurd hk hkq
      · simp only [List.mem_append, List.mem_singleton] at hk
        rcases hk with hk | rfl
        · exact absurd hk hkq
        · refine ⟨proceedChild id e1, by simp [List.getElem?_append], .resume ?_⟩
          simpa [proceedChild, hcod] using hs
    · obtain ⟨e1, hr, _, hst, hx⟩ := turn_call inv hq he hcodes h1 h2 (fun e1 hr => (h3 _ _ _ (e.start t.atom) _ rfl hrun hr).1) h
      have hs := (h3 _ _ _ (e.start t.atom) _ rfl hrun hr).2
      have hcod : e1.codes = t :: ts := (runData_frame hr).codes.trans hcodes
      rcases hx with ⟨_, rfl⟩ | ⟨rules, hrl, rfl⟩
      · exact absurd hk hkq
      · simp only [List.mem_append, List.mem_range'_1] at hk
        rcases hk with hk | hk
        · exact absurd hk hkq
        · have hi : k - o.execs.length < rules.length := by omega
          refine ⟨o.callChild id e1 rules[k - o.execs.length], ?_, formed_task hf hrl (List.getElem_mem hi) (by simpa [hcod] using hs)⟩
          simp only
          rw [List.getElem?_append_right (by simpa using hk.1)]
          simp [hi]
    · obtain ⟨env', es2, k1, _, _, rfl⟩ := turn_dealloc inv hq he hcodes (by rw [h1]; rfl) h
      rw [h2] at k1; cases k1
      simp only [List.mem_append, List.mem_singleton] at hk
      rcases hk with hk | rfl
      · exact absurd hk hkq
      · exact ⟨_, List.getElem?_set_self hlt, .resume h3⟩

/-! ## The base of all tasks: the query -/

/-- The query, at its start or later. -/
inductive QBase (cs : List TCode) (es : List (List Cell)) : Prop
  | start {atoms} : QueryForm atoms (cs.map (·.atom)) → es = [] → QBase cs es
  | rest {n} : (∀ g ∈ cs, GoalForm n g.atom) → EnvOf n es [] → QBase cs es

theorem qbase : Based QBase := by
  intro t ts es h
  cases h with
  | start h1 h2 =>
    subst h2
    obtain ⟨_, _, h3⟩ := h1
    rcases h3 with h3 | ⟨n, g, gs, h3, ⟨ds, h4, h5, h6⟩, h7⟩
    · simp at h3
    · simp only [List.map_cons, List.cons.injEq] at h3
      obtain ⟨rfl, rfl⟩ := h3
      refine ⟨allocInstrs n ++ ds, by rw [h4, List.append_assoc], ?_, fun hg => by simp [h6 hg], ?_⟩
      · intro d hd
        simp only [List.mem_append] at hd
        exact hd.elim (allocInstrs_data n d) fun h => Instr.put_data (h5 d h)
      · intro pre fuel st e e1 he hr hrun
        obtain ⟨k1, k2⟩ := env_first_run hr h5 hrun
        exact ⟨k2.trans hr, .rest (n := n) (fun g hg => h7 g.atom (List.mem_map_of_mem hg)) (he ▸ k1)⟩
  | @rest n h1 h2 =>
    exact (h1 t (by simp)).turn fun es' hb => .rest (fun g hg => h1 g (by simp [hg])) (h2.below hb)

/-- What holds of the code and the stacks after every history. -/
structure FInv (o : Org) : Prop where
  rinv : RInv o
  prog : o.program.Formed
  bi : ∀ e ∈ o.builtins, e.2 ≠ [] ∧ ∀ r ∈ e.2, ∃ head body, RuleForm head body r ∧ head.fv = e.1
  task : ∀ id ∈ o.queue, ∃ e, o.execs[id]? = some e ∧ Task QBase e.codes e.envs

theorem Program.Formed.addRule {p : Program} (h : p.Formed) {f r head body} (hr : RuleForm head body r) (hf : head.fv = f) : (p.addRule f r).Formed := by
  intro g rs hg
  rw [rules?_addRule] at hg
  split at hg
  · rename_i hgf
    cases hg
    refine ⟨by simp, fun r' hr' => ?_⟩
    simp only [List.mem_append, List.mem_singleton] at hr'
    rcases hr' with hr' | rfl
    · cases hp : p.rules? f with
      | none => simp [hp] at hr'
      | some qs => simp [hp] at hr'; rw [hgf]; exact (h f qs hp).2 r' hr'
    · exact ⟨head, body, hr, hf.trans hgf.symm⟩
  · exact h g rs hg

theorem Program.Formed.assign {p : Program} (h : p.Formed) {f rs}
    (hr : rs ≠ [] ∧ ∀ r ∈ rs, ∃ head body, RuleForm head body r ∧ head.fv = f) : (p.assign f rs).Formed := by
  intro g rs' hg
  rw [rules?_assign] at hg
  split at hg
  · rename_i hgf
    cases hg; rw [hgf]; exact hr
  · exact h g rs' hg

theorem Program.Formed.nil : Program.Formed [] := by
  intro f rs h; simp [Program.rules?] at h

theorem compileProgram_formed {ord cs p st p' st'} (hp : Program.Formed p)
    (h : compileProgram ord cs p st = .ok (p', st')) : p'.Formed := by
  induction cs generalizing p st with
  | nil => simp only [compileProgram, pure_ok, Prod.mk.injEq] at h; rw [← h.1]; exact hp
  | cons c cs ih =>
    simp only [compileProgram, bind_ok] at h
    obtain ⟨⟨f, r, st1⟩, h1, h2⟩ := h
    exact ih (hp.addRule (compileClause_form h1) (compileClause_shaped h1).1.symm) h2

theorem mergeBuiltins_formed {b p : Program} (hb : ∀ e ∈ b, e.2 ≠ [] ∧ ∀ r ∈ e.2, ∃ head body, RuleForm head body r ∧ head.fv = e.1)
    (hp : p.Formed) : (Org.mergeBuiltins b p).Formed := by
  unfold Org.mergeBuiltins
  induction b generalizing p with
  | nil => exact hp
  | cons e b ih =>
    simp only [List.foldl_cons]
    exact ih (fun e' he' => hb e' (by simp [he'])) (hp.assign (hb e (by simp)))

theorem compileBinary_form {b : Builtin} {n : Name} {st f r st'} (h : compileBinary b n st = .ok (f, r, st')) :
    f = ⟨n, 2⟩ ∧ st' = st ∧ RuleForm (binaryHead n) [] r := by
  have h0 : compileClause id true (binaryHead n) [] st =
      .ok (⟨n, 2⟩, [⟨4, [.getVariable 2 0, .getVariable 3 1, .proceed], [⟨n!"Lhs", 2, false⟩, ⟨n!"Rhs", 3, false⟩], binaryHead n, false⟩], st) := rfl
  simp only [compileBinary, h0, ok_bind] at h
  cases h
  refine ⟨rfl, rfl, 0, _, [], rfl, ⟨[.getVariable 2 0, .getVariable 3 1, .builtin b 2 3], rfl, ?_, by simp⟩, by simp, rfl, rfl⟩
  simp [Instr.get]

theorem builtins_form {b st} (h : compileBuiltins ⟨[], []⟩ = .ok (b, st)) :
    ∀ e ∈ b, e.2 ≠ [] ∧ ∀ r ∈ e.2, ∃ head body, RuleForm head body r ∧ head.fv = e.1 := by
  simp only [compileBuiltins, bind_ok, pure_ok] at h
  obtain ⟨⟨f1, r1, s1⟩, h1, ⟨f2, r2, s2⟩, h2, ⟨f3, r3, s3⟩, h3, h⟩ := h
  obtain ⟨rfl, rfl, k1⟩ := compileBinary_form h1
  obtain ⟨rfl, rfl, k2⟩ := compileBinary_form h2
  obtain ⟨rfl, rfl, k3⟩ := compileBinary_form h3
  unfold appendClauses at h
  simp only [bind_ok, pure_ok, Prod.mk.injEq] at h
  obtain ⟨_, ⟨⟨f4, r4, s4⟩, h4, rfl⟩, ⟨f5, r5, s5⟩, h5, rfl, rfl⟩ := h
  have e4 := (compileClause_shaped h4).1
  have e5 := (compileClause_shaped h5).1
  have k4 := compileClause_form h4
  have k5 := compileClause_form h5
  subst e4 e5
  intro e he
  have : e = (⟨n!"is", 2⟩, [r1]) ∨ e = (⟨n!"==", 2⟩, [r2]) ∨ e = (⟨n!"\\==", 2⟩, [r3]) ∨ e = (⟨n!"append", 3⟩, [r4, r5]) := by
    simpa [Program.addRule, Node.fv, Node.name, Node.children] using he
  rcases this with rfl | rfl | rfl | rfl
  · refine ⟨by simp, fun r hr => ?_⟩; simp only [List.mem_singleton] at hr; subst hr; exact ⟨_, _, k1, rfl⟩
  · refine ⟨by simp, fun r hr => ?_⟩; simp only [List.mem_singleton] at hr; subst hr; exact ⟨_, _, k2, rfl⟩
  · refine ⟨by simp, fun r hr => ?_⟩; simp only [List.mem_singleton] at hr; subst hr; exact ⟨_, _, k3, rfl⟩
  · refine ⟨by simp, fun r hr => ?_⟩
    simp only [List.mem_cons, List.not_mem_nil, or_false] at hr
    rcases hr with rfl | rfl
    · exact ⟨_, _, k4, rfl⟩
    · exact ⟨_, _, k5, rfl⟩

/-- Where other alternatives are left alone. -/
theorem turn_other {o o' : Org} {fuel id q r} (inv : o.Inv) (hq : o.queue = id :: q) (h : o.turn fuel = .ok (o', r)) {k : Nat} (hk : k ∈ q) :
    o'.execs[k]? = o.execs[k]? ∧ k ∈ o'.queue := by
  have hne : id ≠ k := by
    have := inv.qnd
    rw [hq] at this
    rintro rfl
    exact (List.nodup_cons.1 this).1 hk
  obtain ⟨e, he, _⟩ := inv.qrun k (by simp [hq, hk])
  have hlt : k < o.execs.length := (List.getElem?_eq_some_iff.1 he).1
  cases turn_desc inv hq h with
  | died => exact ⟨List.getElem?_set_ne hne, hk⟩
  | error => exact ⟨List.getElem?_set_ne hne, hk⟩
  | success => exact ⟨List.getElem?_set_ne hne, hk⟩
  | spawn =>
    refine ⟨?_, by simp [hk]⟩
    simp only
    rw [List.getElem?_append_left (by simpa using hlt)]
    exact List.getElem?_set_ne hne
  | requeue => exact ⟨List.getElem?_set_ne hne, by simp [hk]⟩

theorem FInv.init {o} (h : Org.init = .ok o) : FInv o := by
  have hr := RInv.init h
  unfold Org.init at h
  simp only [bind_ok, pure_ok] at h
  obtain ⟨⟨b, st⟩, hb, rfl⟩ := h
  have k := builtins_form hb
  refine ⟨hr, ?_, k, by simp⟩
  intro f rs hf
  unfold Program.rules? at hf
  have : (f, rs) ∈ b := by
    clear hr k hb
    simp only at hf
    induction b with
    | nil => simp at hf
    | cons e p ih =>
      obtain ⟨g, qs⟩ := e
      rw [List.lookup_cons] at hf
      split at hf
      · rename_i hb
        have : f = g := by simpa using hb
        cases hf; simp [this]
      · exact List.mem_cons_of_mem _ (ih hf)
  exact k _ this

theorem FInv.program {o} (h : FInv o) (ord parsed) : FInv (o.loadProgram ord parsed).1 := by
  have hr := h.rinv.program ord parsed
  unfold Org.loadProgram at hr ⊢
  split
  · exact h
  · rename_i cs
    simp only at hr
    split
    · rename_i e st hc
      rw [hc] at hr
      exact ⟨hr, h.prog, h.bi, h.task⟩
    · rename_i p st hc
      rw [hc] at hr
      exact ⟨hr, mergeBuiltins_formed h.bi (compileProgram_formed .nil hc), h.bi, h.task⟩

theorem FInv.query {o} (h : FInv o) (ord parsed) : FInv (o.loadQuery ord parsed).1 := by
  have hr := h.rinv.query ord parsed
  unfold Org.loadQuery at hr ⊢
  simp only at hr ⊢
  cases parsed with
  | none => exact ⟨hr, h.prog, h.bi, by simp⟩
  | some cs =>
    simp only at hr ⊢
    cases hc : compileQuery ord cs o.st with
    | error x =>
      obtain ⟨e, st⟩ := x
      simp only [hc] at hr ⊢
      exact ⟨hr, h.prog, h.bi, by simp⟩
    | ok x =>
      obtain ⟨qy, st⟩ := x
      simp only [hc] at hr ⊢
      refine ⟨hr, h.prog, h.bi, ?_⟩
      intro id hid
      simp only [List.mem_singleton] at hid
      subst hid
      refine ⟨Org.initExec qy, rfl, .resume (.base (.start (atoms := cs) ?_ rfl))⟩
      have := compileQuery_form hc
      simpa [initExec, Function.comp_def] using this

theorem FInv.turn {o o' : Org} {fuel t} (h : FInv o) (ht : o.turn fuel = .ok (o', t)) : FInv o' := by
  obtain ⟨b1, b2, _⟩ := turn_builtins h.rinv.inv ht
  refine ⟨h.rinv.turn ht, by rw [b2]; exact h.prog, by rw [b1]; exact h.bi, ?_⟩
  cases hq : o.queue with
  | nil =>
    simp only [Org.turn, hq, pure_ok, Prod.mk.injEq] at ht
    rw [← ht.1]; exact h.task
  | cons id q =>
    intro k hk
    by_cases hkq : k ∈ q
    · rw [(turn_other h.rinv.inv hq ht hkq).1]
      exact h.task k (by simp [hq, hkq])
    · obtain ⟨e, he, htask⟩ := h.task id (by simp [hq])
      exact htask.step (fun _ _ _ => qbase _ _ _) h.rinv.inv h.prog hq he ht hk hkq

theorem FInv.getAnswer {o o' : Org} {fuel clock r} (h : FInv o) (ha : o.getAnswer fuel clock = .ok (o', r)) : FInv o' := by
  induction clock generalizing o with
  | nil =>
    unfold Org.getAnswer at ha
    split at ha <;> (simp only [pure_ok, Prod.mk.injEq] at ha; rw [← ha.1]; exact h)
  | cons c clock ih =>
    unfold Org.getAnswer at ha
    split at ha
    · simp only [pure_ok, Prod.mk.injEq] at ha; rw [← ha.1]; exact h
    · cases c with
      | true => simp only [pure_ok, Prod.mk.injEq] at ha; rw [← ha.1]; exact h
      | false =>
        simp only [bind_ok] at ha
        obtain ⟨⟨o1, t⟩, h1, ha⟩ := ha
        have h' := h.turn h1
        cases t with
        | «continue» => exact ih h' ha
        | answer => simp only [pure_ok, Prod.mk.injEq] at ha; rw [← ha.1]; exact h'
        | error => simp only [pure_ok, Prod.mk.injEq] at ha; rw [← ha.1]; exact h'

theorem Reach.finv {o} (h : Reach o) : FInv o := by
  induction h with
  | init h => exact .init h
  | program ord parsed _ ih => exact ih.program ord parsed
  | query ord parsed _ ih => exact ih.query ord parsed
  | answer _ ha ih => exact ih.getAnswer ha
  | @memory o hr ih =>
    refine ⟨hr.memory.rinv, .nil, ?_, ?_⟩
    · intro e he; simp [Org.clearMemory] at he
    · intro id hid; simp [Org.clearMemory] at hid

end PBfs
