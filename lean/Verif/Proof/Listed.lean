import Verif.Proof.Tree
/-! # Which goals of the query the ancestors of an executor stand for -/
namespace PBfs
open Org

/-- The pieces of code that belong to the query. -/
def fqs (cs : List TCode) : List CAtom := (cs.map (·.atom)).filter (·.fromQuery)

theorem fqs_append (a b : List TCode) : fqs (a ++ b) = fqs a ++ fqs b := by simp [fqs]

theorem fqs_cons (t : TCode) (b : List TCode) : fqs (t :: b) = fqs [t] ++ fqs b := by
  rw [← fqs_append]; rfl

theorem fqs_nil {cs : List TCode} (h : ∀ t ∈ cs, t.atom.fromQuery = false) : fqs cs = [] := by
  simp only [fqs, List.filter_eq_nil_iff, List.mem_map]
  rintro _ ⟨t, ht, rfl⟩
  simp [h t ht]

/-- Code of clauses. -/
def Program.Own (p : Program) : Prop := ∀ f rs, p.rules? f = some rs → ∀ r ∈ rs, ∀ c ∈ r, c.fromQuery = false

theorem Program.Own.addRule {p : Program} (h : p.Own) {f r} (hr : ∀ c ∈ r, c.fromQuery = false) : (p.addRule f r).Own := by
  intro g rs hg
  rw [rules?_addRule] at hg
  split at hg
  · cases hg
    intro r' hr'
    simp only [List.mem_append, List.mem_singleton] at hr'
    rcases hr' with hr' | rfl
    · cases hp : p.rules? f with
      | none => simp [hp] at hr'
      | some qs => simp [hp] at hr'; exact h f qs hp r' hr'
    · exact hr
  · exact h g rs hg

theorem Program.Own.assign {p : Program} (h : p.Own) {f rs} (hr : ∀ r ∈ rs, ∀ c ∈ r, c.fromQuery = false) : (p.assign f rs).Own := by
  intro g rs' hg
  rw [rules?_assign] at hg
  split at hg
  · cases hg; exact hr
  · exact h g rs' hg

theorem deallocAtoms_own (n : Nat) : ∀ c ∈ deallocAtoms n, c.fromQuery = false := by
  unfold deallocAtoms
  split
  · simp
  · simp [deallocAtom]

theorem compileClause_own {ord b head body st f r st'} (h : compileClause ord b head body st = .ok (f, r, st')) : ∀ c ∈ r, c.fromQuery = false := by
  cases body with
  | nil =>
    obtain ⟨_, is, g, h1, rfl, rfl, rfl⟩ := compileClause_fact h
    intro c hc
    simp only [List.mem_cons] at hc
    rcases hc with rfl | hc
    · rfl
    · exact deallocAtoms_own _ c hc
  | cons b0 bs =>
    obtain ⟨_, is, g, js, g1, cs, g2, h1, h2, h3, rfl, rfl, rfl⟩ := compileClause_rule h
    obtain ⟨i1, i2⟩ := compileQueryAtoms_form (fun v y => indexOf?_lt) h3
    intro c hc
    simp only [List.mem_cons, List.mem_append] at hc
    rcases hc with rfl | rfl | hc | hc
    · rfl
    · rfl
    · exact (i1 c hc).2
    · exact deallocAtoms_own _ c hc

theorem compileProgram_own {ord cs p st p' st'} (hp : Program.Own p) (h : compileProgram ord cs p st = .ok (p', st')) : p'.Own := by
  induction cs generalizing p st with
  | nil => simp only [compileProgram, pure_ok, Prod.mk.injEq] at h; rw [← h.1]; exact hp
  | cons c cs ih =>
    simp only [compileProgram, bind_ok] at h
    obtain ⟨⟨f, r, st1⟩, h1, h2⟩ := h
    exact ih (hp.addRule (compileClause_own h1)) h2

/-- All entries of the table, also hidden ones. -/
def Program.AllOwn (p : Program) : Prop := ∀ e ∈ p, ∀ r ∈ e.2, ∀ c ∈ r, c.fromQuery = false

theorem Program.AllOwn.own {p : Program} (h : p.AllOwn) : p.Own := by
  intro f rs hf
  have : (f, rs) ∈ p := by
    unfold Program.rules? at hf
    clear h
    induction p with
    | nil => simp at hf
    | cons e p ih =>
      obtain ⟨g, qs⟩ := e
      rw [List.lookup_cons] at hf
      split at hf
      · rename_i hb
        have : f = g := by simpa using hb
        cases hf; simp [this]
      · exact List.mem_cons_of_mem _ (ih hf)
  exact h _ this

theorem mergeBuiltins_own {b p : Program} (hb : b.AllOwn) (hp : p.Own) : (Org.mergeBuiltins b p).Own := by
  unfold Org.mergeBuiltins
  induction b generalizing p with
  | nil => exact hp
  | cons e b ih =>
    simp only [List.foldl_cons]
    exact ih (fun e' he' => hb e' (by simp [he'])) (hp.assign (hb e (by simp)))

theorem init0_allOwn : Org.init0.builtins.AllOwn := by
  have : Org.init0.builtins.all (fun e => e.2.all fun r => r.all fun c => !c.fromQuery) = true := by decide +kernel
  intro e he r hr c hc
  simp only [List.all_eq_true] at this
  simpa using this e he r hr c hc

/-- What holds of the pieces of code in the tree of executors: `anc` lists the goals of the query that the ancestors stand for. -/
structure WInv (o : Org) (anc : Nat → List CAtom) : Prop where
  root : ∀ (id : Nat) (e : Exec), o.execs[id]? = some e → e.parent = none → anc id = []
  step : ∀ (id : Nat) (e : Exec) (p : Nat) (ep : Exec), o.execs[id]? = some e → e.parent = some p → o.execs[p]? = some ep →
    anc id = anc p ++ fqs ep.codes ∧ ∃ t, ep.codes = [t]
  queue : ∀ (id : Nat) (e : Exec), id ∈ o.queue → o.execs[id]? = some e → anc id ++ fqs e.codes = o.query
  head : ∀ (id : Nat) (e : Exec), o.execs[id]? = some e → ∀ t ∈ e.codes, t.atom.fromQuery = true → t.atom.head? = none
  prog : o.program.Own
  bi : o.builtins.AllOwn

theorem WInv.congr {o o' : Org} {anc} (h : WInv o anc) (he : o'.execs = o.execs) (hq : ∀ id ∈ o'.queue, id ∈ o.queue) (hy : o'.queue ≠ [] → o'.query = o.query)
    (hp : o'.program.Own) (hb : o'.builtins.AllOwn) : WInv o' anc := by
  refine ⟨?_, ?_, ?_, ?_, hp, hb⟩ <;> rw [he]
  · exact h.root
  · exact h.step
  · intro id e h1 h2
    rw [hy (List.ne_nil_of_mem h1)]
    exact h.queue id e (hq id h1) h2
  · exact h.head

/-- The executor at work changes, without creating others. -/
theorem WInv.set {o o' : Org} {anc id q} {e e' : Exec} (h : WInv o anc) (inv : o.Inv) (he : o.execs[id]? = some e) (hq : o.queue = id :: q)
    (hx : o'.execs = o.execs.set id e') (hp : e'.parent = e.parent) (hc : ∀ t ∈ e'.codes, t ∈ e.codes)
    (hq' : o'.queue = q ∨ o'.queue = q ++ [id] ∧ fqs e'.codes = fqs e.codes) (hnd : id ∉ q)
    (hy : o'.query = o.query) (hpr : o'.program = o.program) (hbi : o'.builtins = o.builtins) : WInv o' anc := by
  have hm : id ∈ o.queue := by simp [hq]
  have get : ∀ {j x}, o'.execs[j]? = some x → (j = id ∧ x = e') ∨ (j ≠ id ∧ o.execs[j]? = some x) := by
    intro j x hj
    rw [hx] at hj
    rcases getElem?_set_some hj with ⟨rfl, rfl⟩ | ⟨h1, h2⟩
    · exact .inl ⟨rfl, rfl⟩
    · exact .inr ⟨fun h => h1 h.symm, h2⟩
  refine ⟨?_, ?_, ?_, ?_, hpr ▸ h.prog, hbi ▸ h.bi⟩
  · intro j x hj hpp
    rcases get hj with ⟨rfl, rfl⟩ | ⟨_, hj⟩
    · exact h.root _ _ he (hp ▸ hpp)
    · exact h.root _ _ hj hpp
  · intro j x p ep hj hpp hep
    obtain ⟨x0, g1, g2⟩ : ∃ x0, o.execs[j]? = some x0 ∧ x0.parent = some p := by
      rcases get hj with ⟨rfl, rfl⟩ | ⟨_, hj⟩
      · exact ⟨e, he, hp ▸ hpp⟩
      · exact ⟨x, hj, hpp⟩
    rcases get hep with ⟨rfl, rfl⟩ | ⟨_, hep⟩
    · exact absurd g2 (inv.no_child hm g1)
    · exact h.step _ _ _ _ g1 g2 hep
  · intro j x hj hjx
    rw [hy]
    rcases get hjx with ⟨rfl, rfl⟩ | ⟨hne, hjx⟩
    · rcases hq' with k | ⟨_, k⟩
      · rw [k] at hj; exact absurd hj hnd
      · rw [k]; exact h.queue _ _ hm he
    · refine h.queue _ _ ?_ hjx
      rw [hq]
      rcases hq' with k | ⟨k, _⟩
      · rw [k] at hj; simp [hj]
      · rw [k] at hj
        simp only [List.mem_append, List.mem_singleton] at hj
        rcases hj with hj | hj
        · simp [hj]
        · exact absurd hj hne
  · intro j x hj t ht
    rcases get hj with ⟨rfl, rfl⟩ | ⟨_, hj⟩
    · exact h.head _ _ he t (hc t ht)
    · exact h.head _ _ hj t ht

/-- The executor at work creates others. -/
theorem WInv.spawn {o o' : Org} {anc id q t ts} {e e' : Exec} {news : List Exec} (h : WInv o anc) (inv : o.Inv) (he : o.execs[id]? = some e) (hq : o.queue = id :: q)
    (hcod : e.codes = t :: ts) (hx : o'.execs = o.execs.set id e' ++ news) (hp : e'.parent = e.parent) (hc : e'.codes = [t])
    (hn : ∀ n ∈ news, n.parent = some id ∧ fqs n.codes = fqs ts ∧ ∀ u ∈ n.codes, u ∈ ts ∨ u.atom.fromQuery = false)
    (hq' : o'.queue = q ++ List.range' o.execs.length news.length) (hnd : id ∉ q)
    (hy : o'.query = o.query) (hpr : o'.program = o.program) (hbi : o'.builtins = o.builtins) :
    ∃ anc', WInv o' anc' := by
  have hm : id ∈ o.queue := by simp [hq]
  have hlt : id < o.execs.length := (List.getElem?_eq_some_iff.1 he).1
  refine ⟨fun j => if j < o.execs.length then anc j else anc id ++ fqs [t], ?_⟩
  have get : ∀ {j x}, o'.execs[j]? = some x → (j = id ∧ x = e') ∨ (j ≠ id ∧ j < o.execs.length ∧ o.execs[j]? = some x) ∨ (o.execs.length ≤ j ∧ x ∈ news) := by
    intro j x hj
    rw [hx] at hj
    by_cases hjl : j < o.execs.length
    · rw [List.getElem?_append_left (by simpa using hjl)] at hj
      rcases getElem?_set_some hj with ⟨rfl, rfl⟩ | ⟨h1, h2⟩
      · exact .inl ⟨rfl, rfl⟩
      · exact .inr (.inl ⟨fun h => h1 h.symm, hjl, h2⟩)
    · refine .inr (.inr ⟨by omega, ?_⟩)
      rw [List.getElem?_append_right (by simp; omega)] at hj
      exact List.mem_of_getElem? hj
  refine ⟨?_, ?_, ?_, ?_, hpr ▸ h.prog, hbi ▸ h.bi⟩
  · intro j x hj hpp
    rcases get hj with ⟨rfl, rfl⟩ | ⟨_, hjl, hj⟩ | ⟨hjl, hxn⟩
    · simp only [if_pos hlt]; exact h.root _ _ he (hp ▸ hpp)
    · simp only [if_pos hjl]; exact h.root _ _ hj hpp
    · rw [(hn x hxn).1] at hpp; cases hpp
  · intro j x p ep hj hpp hep
    have old : ∀ x0, o.execs[j]? = some x0 → x0.parent = some p → (if j < o.execs.length then anc j else anc id ++ fqs [t]) =
        (if p < o.execs.length then anc p else anc id ++ fqs [t]) ++ fqs ep.codes ∧ ∃ t, ep.codes = [t] := by
      intro x0 g1 g2
      have hjl := (List.getElem?_eq_some_iff.1 g1).1
      have hpj := (inv.par _ _ _ g1 g2).1
      rw [if_pos hjl, if_pos (by omega)]
      rcases get hep with ⟨rfl, rfl⟩ | ⟨_, _, hep⟩ | ⟨hle, _⟩
      · exact absurd g2 (inv.no_child hm g1)
      · exact h.step _ _ _ _ g1 g2 hep
      · omega
    rcases get hj with ⟨rfl, rfl⟩ | ⟨_, hjl, hj⟩ | ⟨hjl, hxn⟩
    · exact old e he (hp ▸ hpp)
    · exact old x hj hpp
    · have hpi : p = id := by
        have := (hn x hxn).1
        rw [hpp] at this; cases this; rfl
      subst hpi
      simp only [if_pos hlt, if_neg (show ¬ j < o.execs.length by omega)]
      rcases get hep with ⟨_, rfl⟩ | ⟨hne, _⟩ | ⟨hle, _⟩
      · rw [hc]; exact ⟨rfl, _, rfl⟩
      · exact absurd rfl hne
      · omega
  · intro j x hj hjx
    rw [hy]
    rcases get hjx with ⟨rfl, rfl⟩ | ⟨_, hjl, hjx⟩ | ⟨hjl, hxn⟩
    · exfalso
      rw [hq', List.mem_append, List.mem_range'_1] at hj
      rcases hj with hj | hj
      · exact hnd hj
      · omega
    · simp only [if_pos hjl]
      refine h.queue _ _ ?_ hjx
      rw [hq', List.mem_append, List.mem_range'_1] at hj
      rcases hj with hj | hj
      · simp [hq, hj]
      · omega
    · simp only [if_neg (show ¬ j < o.execs.length by omega)]
      rw [(hn x hxn).2.1, List.append_assoc, ← fqs_cons, ← hcod]
      exact h.queue _ _ hm he
  · intro j x hj u hu
    rcases get hj with ⟨rfl, rfl⟩ | ⟨_, hjl, hj⟩ | ⟨hjl, hxn⟩
    · rw [hc] at hu
      exact h.head _ _ he u (by rw [hcod]; simp only [List.mem_singleton] at hu; simp [hu])
    · exact h.head _ _ hj u hu
    · intro hfq
      rcases (hn x hxn).2.2 u hu with k | k
      · exact h.head _ _ he u (by simp [hcod, k]) hfq
      · rw [k] at hfq; cases hfq

theorem WInv.turn {o o' : Org} {fuel r anc} (h : WInv o anc) (hf : FInv o) (ht : o.turn fuel = .ok (o', r)) : ∃ anc', WInv o' anc' := by
  cases hq : o.queue with
  | nil =>
    simp only [Org.turn, hq, pure_ok, Prod.mk.injEq] at ht
    rw [← ht.1]; exact ⟨anc, h⟩
  | cons id q =>
    have inv := hf.rinv.inv
    have hm : id ∈ o.queue := by simp [hq]
    have hnd : id ∉ q := by
      have := inv.qnd
      rw [hq] at this
      exact (List.nodup_cons.1 this).1
    obtain ⟨e, he, hrun, _⟩ := inv.qrun id hm
    cases hc : e.codes with
    | nil => simp [Org.turn, hq, turnOf, Org.exec, he, hc] at ht
    | cons t ts =>
      rcases hf.front hq he hc with ⟨ds, h1, h2, _, h4⟩ | hg | ⟨h1, env, es', h2, h3⟩
      · obtain ⟨e1, hr, hst, hx⟩ := turn_proceed inv hq he hc h1 h2 ht
        have fr := runData_frame hr
        have hcod : e1.codes = t :: ts := fr.codes.trans hc
        have hpar : e1.parent = e.parent := fr.parent
        have hsub : ∀ u ∈ e1.codes.take 1, u ∈ e.codes := by rw [hcod, hc]; simp
        rcases hx with ⟨k1, k2, rfl⟩ | ⟨err, k1, k2, k3, rfl⟩ | ⟨k1, k2, k3, rfl⟩ | ⟨k1, k2, k3, rfl⟩
        · exact ⟨anc, h.set inv he hq rfl hpar hsub (.inl rfl) hnd rfl rfl rfl⟩
        · exact ⟨anc, h.set inv he hq rfl hpar hsub (.inl rfl) hnd rfl rfl rfl⟩
        · exact ⟨anc, h.set inv he hq rfl hpar hsub (.inl rfl) hnd rfl rfl rfl⟩
        · refine h.spawn (news := [proceedChild id e1]) inv he hq hc rfl hpar (by simp [hcod]) ?_ (by simp [List.range']) hnd rfl rfl rfl
          intro n hn
          simp only [List.mem_singleton] at hn
          subst hn
          refine ⟨rfl, by simp [proceedChild, hcod], fun u hu => .inl ?_⟩
          simpa [proceedChild, hcod] using hu
      · obtain ⟨ds, h1, h2, _, h3⟩ := hg
        obtain ⟨e1, hr, _, hst, hx⟩ := turn_call inv hq he hc h1 h2 (fun e1 hr => (h3 _ _ _ (e.start t.atom) _ rfl hrun hr).1) ht
        have fr := runData_frame hr
        have hpar : e1.parent = e.parent := fr.parent
        have hcod : e1.codes = t :: ts := fr.codes.trans hc
        have hsub : ∀ u ∈ e1.codes.take 1, u ∈ e.codes := by rw [hcod, hc]; simp
        rcases hx with ⟨_, rfl⟩ | ⟨rules, hrl, rfl⟩
        · exact ⟨anc, h.set inv he hq rfl hpar hsub (.inl rfl) hnd rfl rfl rfl⟩
        · refine h.spawn (news := rules.map (o.callChild id e1)) inv he hq hc rfl hpar (by simp [hcod, Exec.clear]) ?_ (by simp) hnd rfl rfl rfl
          intro n hn
          obtain ⟨r, hm, rfl⟩ := List.mem_map.1 hn
          have hown := h.prog _ _ hrl r hm
          refine ⟨rfl, ?_, fun u hu => ?_⟩
          · simp only [callChild, hcod, List.drop_succ_cons, List.drop_zero, fqs_append]
            rw [fqs_nil, List.nil_append]
            intro u hu
            obtain ⟨c, hcr, rfl⟩ := List.mem_map.1 hu
            exact hown c hcr
          · simp only [callChild, hcod, List.drop_succ_cons, List.drop_zero, List.mem_append, List.mem_map] at hu
            rcases hu with ⟨c, hcr, rfl⟩ | hu
            · exact .inr (hown c hcr)
            · exact .inl hu
      · obtain ⟨env', es2, k1, _, _, rfl⟩ := turn_dealloc inv hq he hc (by rw [h1]; rfl) ht
        refine ⟨anc, h.set inv he hq rfl rfl (by simp [hc]; intro u hu; exact .inr hu) (.inr ⟨rfl, ?_⟩) hnd rfl rfl rfl⟩
        rw [hc, fqs_cons t ts, fqs_nil (cs := [t]) (by simp [h1, deallocAtom])]
        rfl

theorem WInv.getAnswer {o o' : Org} {fuel clock r anc} (h : WInv o anc) (hf : FInv o) (ha : o.getAnswer fuel clock = .ok (o', r)) :
    ∃ anc', WInv o' anc' := by
  induction clock generalizing o anc with
  | nil =>
    unfold Org.getAnswer at ha
    split at ha <;> (simp only [pure_ok, Prod.mk.injEq] at ha; rw [← ha.1]; exact ⟨_, h⟩)
  | cons c clock ih =>
    unfold Org.getAnswer at ha
    split at ha
    · simp only [pure_ok, Prod.mk.injEq] at ha; rw [← ha.1]; exact ⟨_, h⟩
    · cases c with
      | true => simp only [pure_ok, Prod.mk.injEq] at ha; rw [← ha.1]; exact ⟨_, h⟩
      | false =>
        simp only [bind_ok] at ha
        obtain ⟨⟨o1, t⟩, h1, ha⟩ := ha
        obtain ⟨anc', h'⟩ := h.turn hf h1
        cases t with
        | «continue» => exact ih h' (hf.turn h1) ha
        | answer => simp only [pure_ok, Prod.mk.injEq] at ha; rw [← ha.1]; exact ⟨_, h'⟩
        | error => simp only [pure_ok, Prod.mk.injEq] at ha; rw [← ha.1]; exact ⟨_, h'⟩

theorem Reach.winv {o} (h : Reach o) : ∃ anc, WInv o anc := by
  induction h with
  | init h =>
    rw [Org.init_eq] at h
    cases h
    have h2 := Org.init_eq
    unfold Org.init at h2
    simp only [bind_ok, pure_ok] at h2
    obtain ⟨⟨b, st⟩, _, h2⟩ := h2
    have hx : Org.init0.execs = [initExec []] := by rw [← h2]
    have hqu : Org.init0.queue = [] := by rw [← h2]
    have get : ∀ {j : Nat} {x : Exec}, Org.init0.execs[j]? = some x → x = initExec [] := by
      intro j x hj
      rw [hx] at hj
      simpa using List.mem_of_getElem? hj
    refine ⟨fun _ => [], fun _ _ _ _ => rfl, ?_, by simp [hqu], ?_, by rw [Org.init0_program]; exact init0_allOwn.own, init0_allOwn⟩
    · intro id e p ep hj hp
      rw [get hj] at hp; cases hp
    · intro id e hj
      rw [get hj]; simp [initExec]
  | @program o ord parsed _ ih =>
    obtain ⟨anc, ih⟩ := ih
    refine ⟨anc, ?_⟩
    unfold Org.loadProgram
    split
    · exact ih
    · split
      · exact ih.congr rfl (fun _ h => h) (fun _ => rfl) ih.prog ih.bi
      · rename_i hc
        exact ih.congr rfl (fun _ h => h) (fun _ => rfl) (mergeBuiltins_own ih.bi (compileProgram_own (by intro f rs h; simp [Program.rules?] at h) hc)) ih.bi
  | @query o ord parsed hr ih =>
    obtain ⟨anc, ih⟩ := ih
    unfold Org.loadQuery
    simp only
    cases parsed with
    | none => exact ⟨anc, ih.congr rfl (by simp) (by simp) ih.prog ih.bi⟩
    | some cs =>
      simp only
      cases hc : compileQuery ord cs o.st with
      | error x => exact ⟨anc, ih.congr rfl (by simp) (by simp) ih.prog ih.bi⟩
      | ok x =>
        obtain ⟨qy, st⟩ := x
        simp only
        have hqf := compileQuery_form hc
        have get : ∀ {j : Nat} {x}, ([initExec qy] : List Exec)[j]? = some x → x = initExec qy := by
          intro j x hj
          simpa using List.mem_of_getElem? hj
        refine ⟨fun _ => [], fun _ _ _ _ => rfl, ?_, ?_, ?_, ih.prog, ih.bi⟩
        · intro id e p ep hj hp
          rw [get hj] at hp; cases hp
        · intro id e _ hj
          rw [get hj]
          simp only [initExec, fqs, List.map_map, List.nil_append]
          rw [show ((fun t : TCode => t.atom) ∘ fun a => (⟨0, a⟩ : TCode)) = (fun a => a) from rfl, List.map_id', List.filter_eq_self]
          exact hqf.2.1
        · intro id e hj t ht _
          rw [get hj] at ht
          have : Stacked QBase (initExec qy).codes [] := by
            refine .base (.start (atoms := cs) ?_ rfl)
            simpa [initExec, Function.comp_def] using hqf
          exact this.no_head t ht
  | answer hr ha ih =>
    obtain ⟨anc, ih⟩ := ih
    exact ih.getAnswer hr.finv ha
  | @memory o hr ih =>
    obtain ⟨anc, ih⟩ := ih
    obtain ⟨lab, k⟩ := hr.kinv
    have get : ∀ {j : Nat} {x : Exec}, o.clearMemory.execs[j]? = some x → ∃ e, o.execs[0]? = some e ∧ x.parent = e.parent ∧ x.codes.map (·.atom) = e.codes.map (·.atom) := by
      intro j x hj
      cases hx : o.execs with
      | nil => exact absurd hx k.nonempty
      | cons e es =>
        have : x = { e with codes := e.codes.map fun t => ⟨o.gen, t.atom⟩, children := [] } := by
          simpa [Org.clearMemory, hx] using List.mem_of_getElem? hj
        subst this
        exact ⟨e, by simp, rfl, by simp⟩
    refine ⟨fun _ => [], fun _ _ _ _ => rfl, ?_, by simp [Org.clearMemory], ?_, by intro f rs h; simp [Org.clearMemory, Program.rules?] at h, by intro e he; simp [Org.clearMemory] at he⟩
    · intro id e p ep hj hp
      obtain ⟨e0, h0, h1, _⟩ := get hj
      rw [h1, (k.par 0 e0 h0).2 rfl] at hp; cases hp
    · intro id e hj t ht
      obtain ⟨e0, h0, _, h2⟩ := get hj
      have : t.atom ∈ e0.codes.map (·.atom) := h2 ▸ List.mem_map_of_mem ht
      obtain ⟨t', h3, h4⟩ := List.mem_map.1 this
      exact h4 ▸ ih.head 0 e0 h0 t' h3

/-! ## The walk to the root -/

theorem pointSubs_names {e : Exec} : ∀ {vs L}, pointSubs e vs = .ok L → L.map (·.1) = vs.map (·.name)
  | [], L, h => by simp only [pointSubs, pure_ok] at h; subst h; rfl
  | v :: vs, L, h => by
    simp only [pointSubs, bind_ok, pure_ok] at h
    obtain ⟨c, _, a, _, rest, h1, rfl⟩ := h
    simp [pointSubs_names h1]

/-- The variables of pieces of code. -/
def namesOf (cs : List CAtom) (v : Name) : Prop := ∃ c ∈ cs, v ∈ c.subst.map (·.name)

theorem collectSubs_names {o : Org} {anc lab} (w : WInv o anc) (k : KInv o lab) : ∀ {n p L e}, o.collectSubs n p = .ok L → o.execs[p]? = some e → lab p = true →
    ∀ v, v ∈ L.map (·.1) ↔ namesOf (anc p ++ fqs e.codes) v
  | 0, p, L, e, h, _, _ => by cases h
  | n + 1, p, L, e, h, he, hl => by
    rw [collectSubs] at h
    simp only [Org.exec, he, orFault_some, ok_bind] at h
    cases hc : e.codes with
    | nil => rw [hc] at h; cases h
    | cons t ts =>
      cases ts with
      | cons t2 ts => rw [hc] at h; cases h
      | nil =>
        rw [hc] at h
        simp only [bind_ok] at h
        obtain ⟨a, ha, subs, hs, h⟩ := h
        have hat : a = t.atom := by
          unfold code at ha
          split at ha
          · cases ha
          · cases ha; rfl
        subst hat
        have hsn : ∀ v, v ∈ subs.map (·.1) ↔ namesOf (fqs [t]) v := by
          intro v
          cases hfq : t.atom.fromQuery with
          | true =>
            rw [hfq, if_pos rfl] at hs
            rw [pointSubs_names hs]
            simp [namesOf, fqs, hfq]
          | false =>
            rw [hfq] at hs
            simp only [Bool.false_eq_true, if_false, pure_ok] at hs
            subst hs
            simp [namesOf, fqs, hfq]
        cases hp : e.parent with
        | none =>
          rw [hp] at h
          simp only [pure_ok] at h
          subst h
          rw [w.root _ _ he hp, List.nil_append]
          exact hsn
        | some f =>
          rw [hp] at h
          simp only [bind_ok, orFault_ok] at h
          obtain ⟨ef, hef, h⟩ := h
          cases hpf : ef.parent with
          | none => rw [hpf] at h; cases h
          | some r =>
            rw [hpf] at h
            simp only [bind_ok, pure_ok] at h
            obtain ⟨rest, hr, rfl⟩ := h
            have hlf : lab f = false := by
              have := k.alt _ _ _ he hp
              rw [hl] at this
              cases hh : lab f
              · rfl
              · rw [hh] at this; cases this
            have hlr : lab r = true := by
              have := k.alt _ _ _ hef hpf
              rw [hlf] at this
              cases hh : lab r
              · rw [hh] at this; cases this
              · rfl
            obtain ⟨er, her⟩ : ∃ er, o.execs[r]? = some er := by
              cases n with
              | zero => cases hr
              | succ n =>
                rw [collectSubs] at hr
                simp only [bind_ok, Org.exec, orFault_ok] at hr
                obtain ⟨er, h, _⟩ := hr
                exact ⟨er, h⟩
            have ih := collectSubs_names w k hr her hlr
            -- the code of a clause does not belong to the query
            have hfz : fqs ef.codes = [] := by
              obtain ⟨t', ts', c1, c2⟩ := k.head _ _ hef hlf
              obtain ⟨_, t2, c3⟩ := w.step _ _ _ _ he hp hef
              rw [c1] at c3
              cases c3
              rw [c1]
              refine fqs_nil fun u hu => ?_
              simp only [List.mem_singleton] at hu
              subst hu
              cases hfq : u.atom.fromQuery with
              | false => rfl
              | true => rw [w.head _ _ hef u (by simp [c1]) hfq] at c2; cases c2
            intro v
            rw [(w.step _ _ _ _ he hp hef).1, hfz, List.append_nil, (w.step _ _ _ _ hef hpf her).1]
            simp only [List.map_append, List.mem_append]
            rw [hsn, ih]
            simp only [namesOf, List.mem_append]
            constructor
            · rintro (⟨c, h1, h2⟩ | ⟨c, h1, h2⟩)
              · exact ⟨c, .inr h1, h2⟩
              · exact ⟨c, .inl h1, h2⟩
            · rintro ⟨c, h1 | h1, h2⟩
              · exact .inr ⟨c, h1, h2⟩
              · exact .inl ⟨c, h1, h2⟩

end PBfs
