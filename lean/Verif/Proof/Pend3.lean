import Verif.Proof.Pend2
/-! # Turns of pending executors: `deallocate` and heads -/
namespace PBfs

/-- What every turn keeps. -/
structure Base (o o' : Org) (id : Nat) : Prop where
  keeps : Keeps o o' id
  st : o'.st = o.st
  gen : o'.gen = o.gen
  program : o'.program = o.program

theorem Goals.drop_nil {D} {A : Alg D} {σ : Nat → D} {ρq fr fs gs} (h : fr.atoms = []) (hg : Goals A σ ρq (fr :: fs) gs) :
    Goals A σ ρq fs gs := by
  cases hg with
  | cons ρ a b c => rw [h]; exact c

theorem Goals.add_nil {D} {A : Alg D} {σ : Nat → D} {ρq fr fs gs} (h : fr.atoms = []) (hq : fr.query = false) (hg : Goals A σ ρq fs gs) :
    Goals A σ ρq (fr :: fs) gs := by
  obtain ⟨ρ, hρ⟩ := exists_agree (A.int 0) fr.ν σ
  have := Goals.cons (A := A) (ρq := ρq) (fr := fr) ρ hρ (by simp [hq]) hg
  rw [h] at this
  exact this

theorem step_dealloc {X : Ctx} {o : Org} (inv : o.Inv) (hgen : o.gen = X.g)
    {fuel id q e b fr fs L} (hq : o.queue = id :: q) (hp : Pending X o id e (.res b fr fs) L) (hc : fr.codes = []) :
    b = false ∧ ∃ o' e' fr' fs', o.turn fuel = .ok (o', .continue) ∧ o'.calls = o.calls ∧ Base o o' id ∧ o'.queue = q ++ [id] ∧
      o'.execs.length = o.execs.length ∧ fs = fr' :: fs' ∧ Pending X o' id e' (.res false fr' fs') L ∧
      e'.hp.at? (preOf o'.execs e') = e.hp.at? (preOf o.execs e) ∧ fr.atoms = [] := by
  cases b with
  | true =>
    obtain ⟨rfl, rfl, yOf, ny, c, cs, a, as, S, Q, rfl⟩ := hp.exec
    have := Q.code
    rw [show X.q = [] from hc] at this
    cases this
  | false =>
    refine ⟨rfl, ?_⟩
    have R : Resume X.st X.I X.g (preOf o.execs e) e fr fs := hp.exec
    obtain ⟨h1, h2, h3, env, rest, h4, h5, h6⟩ := R.dealloc hc
    have hlt := (List.getElem?_eq_some_iff.1 hp.get).1
    have htu := Org.turn_eq (fuel := fuel) (ds := []) hq hp.get R.state inv.parLt h5 rfl (by simp) rfl
    have hcode : o.code ⟨X.g, deallocAtom⟩ = .ok deallocAtom := by
      simp [Org.code, stale_false (X := X) hgen (t := ⟨X.g, deallocAtom⟩) (.inr rfl)]
    rw [hcode, ok_bind] at htu
    have hnf : ({ e with regs := Org.resize deallocAtom.regCount e.regs } : Exec).failed = false := by simp [Exec.failed, R.state]
    let e' : Exec := { e with regs := Org.resize deallocAtom.regCount e.regs, envs := rest, codes := e.codes.drop 1 }
    let o' : Org := { o with queue := q ++ [id], execs := o.execs.set id e' }
    have hget : o'.execs[id]? = some e' := by simp [o', hlt]
    have keeps : Keeps o o' id := ⟨rfl, fun j hj _ => by simp [o', Ne.symm hj]⟩
    have hpre : preOf o'.execs e' = preOf o.execs e :=
      preOf_congr inv.parLt rfl (fun p hp' => inv.parLt _ _ _ hp.get hp') (fun j hj => keeps.same j (by omega) (by omega))
    obtain ⟨fr', fs', k1, k2⟩ := h6 e' rfl rfl rfl R.state
    subst k1
    refine ⟨o', e', fr', fs', ?_, rfl, ⟨keeps, rfl, rfl, rfl⟩, rfl, by simp [o'], rfl, ⟨hget, by rw [hpre]; exact k2, ?_, ?_, ?_, hp.fresh⟩, by rw [hpre], h2⟩
    · rw [htu]
      have hd0 : runData (preOf o.execs e) fuel o.st [] { e with regs := Org.resize deallocAtom.regCount e.regs } =
        .ok { e with regs := Org.resize deallocAtom.regCount e.regs } := rfl
      rw [hd0, ok_bind, if_neg (by rw [hnf]; simp)]
      simp only [Org.ctl, Org.deallocate, h4, Org.setExec]
      show Org.finish fuel o' id = _
      simp only [Org.finish, Org.exec, hget, orFault_some, ok_bind, e', R.state, pure, Except.pure]
    · have hna : ∀ e, o.execs[id]? = some e → e.state ≠ .archived := by
        intro e' he'
        rw [hp.get] at he'; cases he'
        rw [R.state]; simp
      obtain ⟨q', f', r', c1, c2⟩ := hp.chain.keeps keeps hna
      exact ⟨q', f', r', c1, c2⟩
    · obtain ⟨fq, done, g1, g2⟩ := hp.info
      rw [hpre]
      refine ⟨fq, done, ?_, g2⟩
      simpa [Kind.frames, List.getLast?_cons_cons] using g1
    · intro D A σ ρq gs m hg
      rw [hpre] at m
      exact hp.sound D A σ ρq gs m (Goals.add_nil h2 h1 hg)

/-- The effect of a `proceed` on the lists of executors. -/
theorem proceed_turn {o : Org} {fuel id q e t ts ds e1} (hq : o.queue = id :: q) (he : o.execs[id]? = some e)
    (hrun : e.state = .running) (hpl : ParLt o.execs) (hcodes : e.codes = t :: ts) (hst : o.stale t = false)
    (hins : t.atom.instrs = ds ++ [.proceed]) (hds : ∀ d ∈ ds, d.isData = true)
    (hr : runData (preOf o.execs e) fuel o.st ds { e with regs := Org.resize t.atom.regCount e.regs } = .ok e1) :
    ∃ o' old, Base o o' id ∧ o'.calls = o.calls ∧ o'.execs[id]? = some old ∧ old.parent = e.parent ∧ old.hp = e1.hp ∧
      (e1.state = .fail → o.turn fuel = .ok (o', .continue) ∧ o'.queue = q ∧ o'.execs.length = o.execs.length) ∧
      (e1.state = .rtErr → ∃ err, e1.err = some err ∧ o.turn fuel = .ok (o', .error err) ∧ o'.queue = q ∧ o'.execs.length = o.execs.length) ∧
      (e1.state = .running → o.allDealloc ts = .ok true →
        o.turn fuel = (o'.answer fuel id >>= fun bs => .ok (o', .answer bs)) ∧ o'.queue = q ∧ o'.execs.length = o.execs.length) ∧
      (e1.state = .running → o.allDealloc ts = .ok false →
        o.turn fuel = .ok (o', .continue) ∧ o'.queue = q ++ [o.execs.length] ∧ o'.execs.length = o.execs.length + 1 ∧
        old.state = .archived ∧ ∃ e', o'.execs[o.execs.length]? = some e' ∧ e'.parent = some id ∧ e'.hp = ⟨e1.hp.size, [], []⟩ ∧
          e'.regs = e1.regs ∧ e'.envs = e1.envs ∧ e'.codes = ts ∧ e'.state = .running) := by
  have hlt := (List.getElem?_eq_some_iff.1 he).1
  have hf := runData_frame hr
  have hcode : o.code t = .ok t.atom := by simp [Org.code, hst]
  have htu := Org.turn_eq (fuel := fuel) hq he hrun hpl hcodes hins hds rfl
  rw [hcode, ok_bind, hr, ok_bind] at htu
  have hc1 : e1.codes = t :: ts := by rw [hf.codes]; exact hcodes
  have base : ∀ (old : Exec) (q' : List Nat), Base o { o with queue := q', execs := o.execs.set id old } id :=
    fun old q' => ⟨⟨rfl, fun j hj _ => by simp [Ne.symm hj]⟩, rfl, rfl, rfl⟩
  have get : ∀ old : Exec, (o.execs.set id old)[id]? = some old := fun old => by simp [hlt]
  rcases hf.state hrun with hs | hs | hs
  · have hnf : e1.failed = false := by simp [Exec.failed, hs]
    simp only [hnf, Bool.false_eq_true, if_false, Org.ctl, Org.proceed, hc1, List.drop_succ_cons, List.drop_zero] at htu
    have hall : ({ o with queue := q } : Org).allDealloc ts = o.allDealloc ts := by
      clear htu hc1 hcodes
      induction ts with
      | nil => rfl
      | cons t' ts ih => rw [Org.allDealloc, Org.allDealloc, ih]; rfl
    rw [hall] at htu
    cases had : o.allDealloc ts with
    | error x =>
      refine ⟨_, _, base e1 q, rfl, get e1, hf.parent, rfl, by simp [hs], by simp [hs], ?_, ?_⟩ <;> intro _ h <;> cases h
    | ok bb =>
      rw [had, ok_bind] at htu
      cases bb with
      | true =>
        let old : Exec := { e1.clear with state := .success }
        refine ⟨_, _, base old q, rfl, get old, hf.parent, rfl, by simp [hs], by simp [hs], fun _ _ => ⟨?_, rfl, by simp⟩, ?_⟩
        · rw [htu]
          simp only [if_true, ok_bind, Org.setExec]
          show Org.finish fuel ({ o with queue := q, execs := o.execs.set id old } : Org) id = _
          simp only [Org.finish, Org.exec, get, orFault_some, ok_bind, old, pure, Except.pure]
        · intro _ h; cases h
      | false =>
        let old : Exec := { e1 with codes := [t], envs := e1.envs.take 1, children := e1.children ++ [o.execs.length], state := .archived }
        let e' := Org.proceedChild id e1
        let o' : Org := { o with queue := q ++ [o.execs.length], execs := o.execs.set id old ++ [e'] }
        have hget : o'.execs[id]? = some old := by
          show (o.execs.set id old ++ [e'])[id]? = _
          rw [List.getElem?_append_left (by simpa using hlt)]
          exact get old
        refine ⟨o', old, ⟨⟨rfl, ?_⟩, rfl, rfl, rfl⟩, rfl, hget, hf.parent, rfl, by simp [hs], by simp [hs], ?_, fun _ _ => ⟨?_, rfl, by simp [o'], rfl, e', ?_, rfl, rfl, rfl, rfl, ?_, rfl⟩⟩
        · intro j hj hjl
          show (o.execs.set id old ++ [e'])[j]? = _
          rw [List.getElem?_append_left (by simpa using hjl)]
          simp [Ne.symm hj]
        · intro _ h; cases h
        · rw [htu]
          simp only [Bool.false_eq_true, if_false, ok_bind, Org.setExec, List.length_set]
          show Org.finish fuel o' id = _
          simp only [Org.finish, Org.exec, hget, orFault_some, ok_bind, old, pure, Except.pure]
        · show (o.execs.set id old ++ [e'])[_]? = _
          rw [List.getElem?_append_right (by simp)]
          simp
        · show e1.codes.drop 1 = ts
          rw [hc1]; rfl
  · have hnf : e1.failed = true := by simp [Exec.failed, hs]
    simp only [hnf, if_true] at htu
    refine ⟨_, _, base e1.clear q, rfl, get _, hf.parent, rfl, fun _ => ⟨?_, rfl, by simp⟩, by simp [hs], by simp [hs], by simp [hs]⟩
    rw [htu]
    show Org.finish fuel ({ o with queue := q, execs := o.execs.set id e1.clear } : Org) id = _
    simp only [Org.finish, Org.exec, get, orFault_some, ok_bind, Exec.clear, hs, pure, Except.pure]
  · have hnf : e1.failed = true := by simp [Exec.failed, hs]
    simp only [hnf, if_true] at htu
    refine ⟨_, _, base e1.clear q, rfl, get _, hf.parent, rfl, by simp [hs], fun _ => ?_, by simp [hs], by simp [hs]⟩
    obtain ⟨err, herr⟩ := Option.isSome_iff_exists.1 hs.2
    refine ⟨err, herr, ?_, rfl, by simp⟩
    rw [htu]
    show Org.finish fuel ({ o with queue := q, execs := o.execs.set id e1.clear } : Org) id = _
    simp only [Org.finish, Org.exec, get, orFault_some, ok_bind, Exec.clear, hs.1, herr, pure, Except.pure]

/-! ## Solved queries -/

/-- What holds of the heap and the recorded variables when a query is solved. -/
structure Final (X : Ctx) (H : HV) (size : Nat) (L : List (Name × Nat)) : Prop where
  good : Good (ValidCell X.st) H size size
  lt : ∀ p ∈ L, p.2 < size
  names : ∀ v, v ∈ L.map (·.1) ↔ ∃ a ∈ X.qatoms, v ∈ Node.varss a.children
  agree : ∀ (D : Type) (A : Alg D) (σ : Nat → D), Mod (toIAlg A X.I) H σ → ∃ ρ : Name → D, ∀ p ∈ L, σ p.2 = ρ p.1
  sound : ∀ (D : Type) (A : Alg D) (σ : Nat → D) (ρq : Name → D), Mod (toIAlg A X.I) H σ → (∀ p ∈ L, σ p.2 = ρq p.1) →
    ∀ a ∈ X.qatoms, Proves A X.P (a.inst A ρq)

theorem vars_sizeOf_mem {c : Node} {cs : List Node} (h : c ∈ cs) : sizeOf c < sizeOf cs := List.sizeOf_lt_of_mem h

mutual
theorem Node.eval_congr {D} (A : Alg D) {ρ ρ' : Name → D} : ∀ n : Node, (∀ v ∈ n.vars, ρ v = ρ' v) → n.eval A ρ = n.eval A ρ'
  | .var v, h => h v (by simp [Node.vars])
  | .cons _, _ => rfl
  | .int _, _ => rfl
  | .fn f cs, h => by rw [Node.eval, Node.eval, Node.evals_congr A cs h]
  | .efn f cs, h => by rw [Node.eval, Node.eval, Node.evals_congr A cs h]
theorem Node.evals_congr {D} (A : Alg D) {ρ ρ' : Name → D} : ∀ cs : List Node, (∀ v ∈ Node.varss cs, ρ v = ρ' v) →
    Node.evals A ρ cs = Node.evals A ρ' cs
  | [], _ => rfl
  | c :: cs, h => by
    rw [Node.evals, Node.evals, Node.eval_congr A c fun v hv => h v (by simp [Node.varss, hv]),
      Node.evals_congr A cs fun v hv => h v (by simp [Node.varss, hv])]
end

theorem Node.inst_congr {D} (A : Alg D) {ρ ρ' : Name → D} {n : Node} (h : ∀ v ∈ Node.varss n.children, ρ v = ρ' v) :
    n.inst A ρ = n.inst A ρ' := by
  rw [Node.inst, Node.inst, Node.evals_congr A _ h]

theorem FrsOK.goals_nil {st I g H size fs} (h : FrsOK st I g H size fs) {fq} (hl : fs.getLast? = some fq)
    (hn : ∀ fr ∈ fs, fr.atoms = []) {D} {A : Alg D} {σ : Nat → D} {ρ} (ha : Agree fq.ν σ ρ) : Goals A σ ρ fs [] := by
  induction h with
  | @query fr h1 h2 =>
    simp only [List.getLast?_singleton, Option.some.injEq] at hl
    subst hl
    have := Goals.cons (A := A) (ρq := ρ) (fr := fr) ρ ha (fun _ => rfl) .nil
    rw [hn fr (by simp)] at this
    exact this
  | @cons fr fs h1 h2 h3 h4 ih =>
    refine Goals.add_nil (hn fr (by simp)) h1 (ih ?_ fun f hf => hn f (by simp [hf]))
    cases fs with
    | nil => cases h4
    | cons => simpa [List.getLast?_cons_cons] using hl

theorem Goals.agree_last {D} {A : Alg D} {σ : Nat → D} {ρq fs gs} (h : Goals A σ ρq fs gs) {fq} (hl : fs.getLast? = some fq)
    (hq : fq.query = true) : Agree fq.ν σ ρq := by
  induction h with
  | nil => cases hl
  | @cons fr fs gs ρ a b c ih =>
    cases fs with
    | nil =>
      simp only [List.getLast?_singleton, Option.some.injEq] at hl
      subst hl
      rw [← b hq]; exact a
    | cons => exact ih (by simpa [List.getLast?_cons_cons] using hl)

theorem final_of {X : Ctx} {H : HV} {size fs L} (good : Good (ValidCell X.st) H size size) (hi : QInfo X H size fs L)
    (hfs : FrsOK X.st X.I X.g H size fs) (hn : ∀ fr ∈ fs, fr.atoms = [])
    (sound : ∀ (D : Type) (A : Alg D) (σ : Nat → D) (ρq : Name → D), Mod (toIAlg A X.I) H σ → Goals A σ ρq fs [] →
      ∀ a ∈ X.qatoms, Proves A X.P (a.inst A ρq)) :
    Final X H size L ∧ (∀ (D : Type) (A : Alg D) (σ : Nat → D) (ρq : Name → D) gs, Mod (toIAlg A X.I) H σ → Goals A σ ρq fs gs →
      ∀ p ∈ L, σ p.2 = ρq p.1) ∧
    ∀ (D : Type) (A : Alg D) (σ : Nat → D), Mod (toIAlg A X.I) H σ → ∃ ρq, Goals A σ ρq fs [] ∧ ∀ p ∈ L, σ p.2 = ρq p.1 := by
  obtain ⟨fq, done, h1, h2, h3, h4, h5⟩ := hi
  have hd : X.qatoms = done := by
    rw [h3, hn fq (List.mem_of_getLast? h1)]; simp
  refine ⟨⟨good, fun p hp => (h5 p hp).1, by rw [hd]; exact h4, ?_, ?_⟩, ?_, ?_⟩
  · intro D A σ m
    obtain ⟨ρ, hρ⟩ := exists_agree (A.int 0) fq.ν σ
    exact ⟨ρ, fun p hp => (h5 p hp).2 D A σ ρ m hρ⟩
  · intro D A σ ρq m hL a ha
    obtain ⟨ρ, hρ⟩ := exists_agree (A.int 0) fq.ν σ
    have := sound D A σ ρ m (hfs.goals_nil h1 hn hρ) a ha
    rw [Node.inst_congr (ρ' := ρq)] at this
    · exact this
    · intro v hv
      have hmem := (h4 v).2 ⟨a, by rw [← hd]; exact ha, hv⟩
      obtain ⟨p, hp, rfl⟩ := List.mem_map.1 hmem
      rw [← hL p hp]
      exact ((h5 p hp).2 D A σ ρ m hρ).symm
  · intro D A σ ρq gs m hg p hp
    exact (h5 p hp).2 D A σ ρq m (hg.agree_last h1 h2)
  · intro D A σ m
    obtain ⟨ρ, hρ⟩ := exists_agree (A.int 0) fq.ν σ
    exact ⟨ρ, hfs.goals_nil h1 hn hρ, fun p hp => (h5 p hp).2 D A σ ρ m hρ⟩

end PBfs
