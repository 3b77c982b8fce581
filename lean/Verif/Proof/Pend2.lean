import Verif.Proof.Pend
/-! # Turns of pending executors: goals -/
namespace PBfs

theorem tcodes_cons {g : Nat} {fr fr1 : Fr} {c} (h : fr.codes = c :: fr1.codes) (hq : fr1.query = fr.query) (hn : fr1.ny = fr.ny) :
    ∃ t, fr.tcodes g = t :: fr1.tcodes g ∧ t.atom = c ∧ (t.gen = 0 ∨ t.gen = g) := by
  unfold Fr.tcodes
  rw [h, hq, hn]
  cases fr.query
  · exact ⟨⟨g, c⟩, by simp, rfl, .inr rfl⟩
  · exact ⟨⟨0, c⟩, by simp, rfl, .inl rfl⟩

theorem stale_false {X : Ctx} {o : Org} (hg : o.gen = X.g) {t : TCode} (h : t.gen = 0 ∨ t.gen = X.g) : o.stale t = false := by
  unfold Org.stale
  rcases h with h | h <;> simp [h, hg]

theorem codesOf_singleton (g fr) : codesOf g [fr] = fr.tcodes g := by simp

/-- A pending executor whose next step is a goal. -/
theorem pendE_goal {X : Ctx} {pre} {e : Exec} {b fr fs c cs} (h : PendE X pre e (.res b fr fs)) (hc : fr.codes = c :: cs)
    (hpre : b = true → pre = fun _ => none) :
    ∃ atom ds t ts, e.codes = t :: ts ∧ t.atom = c ∧ (t.gen = 0 ∨ t.gen = X.g) ∧ c.instrs = ds ++ [.call atom.fv] ∧
      (∀ d ∈ ds, d.isData = true) ∧ e.state = .running ∧ c.fromQuery = fr.query ∧
      ∀ fuel, ∃ e0 e1 ps fr1, runData pre fuel X.st ds { e with regs := Org.resize c.regCount e.regs } = .ok e1 ∧ e0.hp = e.hp ∧
        Called X.st X.I X.g pre e0 e1 fr fs c atom ps fr1 ∧ ts = fr1.tcodes X.g ++ codesOf X.g fs := by
  cases b with
  | false =>
    have R : Resume X.st X.I X.g pre e fr fs := h
    obtain ⟨atom, ds, h1, h2, h3⟩ := R.goal hc
    obtain ⟨e1, ps, fr1, -, C⟩ := h3 0
    obtain ⟨t, t1, t2, t3⟩ := tcodes_cons (g := X.g) (fr := fr) (fr1 := fr1) (by rw [C.codes]) C.query C.ny
    have hcs : fr1.codes = cs := by have := C.codes; rw [hc] at this; cases this; rfl
    refine ⟨atom, ds, t, fr1.tcodes X.g ++ codesOf X.g fs, ?_, t2, t3, h1, h2, R.state, R.fq c (by rw [hc]; simp), fun fuel => ?_⟩
    · rw [R.codes, t1]; rfl
    · obtain ⟨e1', ps', fr1', r1, C'⟩ := h3 fuel
      refine ⟨{ e with regs := Org.resize c.regCount e.regs }, e1', ps', fr1', r1, rfl, C', ?_⟩
      congr 1
      unfold Fr.tcodes
      have hcs' : fr1'.codes = cs := by have := C'.codes; rw [hc] at this; cases this; rfl
      rw [C.query, C'.query, C.ny, C'.ny, hcs, hcs']
  | true =>
    obtain ⟨rfl, rfl, yOf, ny, c0, cs0, a, as, S, Q, rfl⟩ := h
    have hpre := hpre rfl
    subst hpre
    have hc0 : X.q = c0 :: cs0 := Q.code
    have hcc : c0 = c ∧ cs0 = cs := by
      have : X.q = c :: cs := hc
      rw [hc0] at this; cases this; exact ⟨rfl, rfl⟩
    obtain ⟨rfl, rfl⟩ := hcc
    let fr : Fr := ⟨yOf, ny, true, [], fun _ => none, Sym.start, X.q, X.qatoms⟩
    let e0 : Exec := { Org.initExec X.q with
      regs := Org.resize c0.regCount [], envs := (if ny = 0 then [] else [List.replicate ny Cell.zero]) ++ [] }
    have hH : e0.hp.at? (fun _ => none) = fun _ => none := by
      funext a
      show Hp.at? (fun _ => none) ⟨0, [], []⟩ a = none
      unfold Hp.at?
      simp
    have hq : QRel ⟨X.st, X.I, fun _ => none, fr.yOf, fr.ny, c0.regCount⟩ fr.ν fr.S e0 e0.hp.size := by
      refine { good := ?_, regs := resize_length _ _, x := ?_, pl := ?_, νlt := ?_, env := ?_, y := ?_ }
      · show Good _ (e0.hp.at? (fun _ => none)) 0 0
        rw [hH]
        exact ⟨by simp, by intro a h; omega, by simp, by simp, by simp, Nat.le_refl _⟩
      · intro x n hx; simp [fr, Sym.start] at hx
      · intro n; simp [fr, Sym.start]
      · intro n a hn; simp [fr] at hn
      · intro h0
        refine ⟨List.replicate ny Cell.zero, [], ?_, List.length_replicate⟩
        show (if ny = 0 then [] else [List.replicate ny Cell.zero]) ++ [] = _
        rw [if_neg h0]; rfl
      · intro n y _ hn; simp [fr, Sym.start] at hn
    have hfq : ∀ c ∈ fr.codes, c.fromQuery = fr.query := Q.query
    obtain ⟨ds, d1, d2, d3, d4⟩ := goal_run (g := X.g) (fr := fr) (fs := []) Q.first Q.rest hc0 Q.atoms Q.ylt Q.yinj hq rfl
      ⟨List.replicate ny Cell.zero, rfl⟩ (.inl ⟨rfl, rfl⟩) hfq
    refine ⟨a, allocInstrs ny ++ ds, ⟨0, c0⟩, cs0.map (⟨0, ·⟩), ?_, rfl, .inl rfl, by rw [d1]; simp, ?_, rfl, Q.query _ (by rw [hc0]; simp), ?_⟩
    · show X.q.map _ = _
      rw [hc0]; rfl
    · intro d hd
      rcases List.mem_append.1 hd with hd | hd
      · unfold allocInstrs at hd; split at hd
        · cases hd
        · simp only [List.mem_singleton] at hd; subst hd; rfl
      · exact d3 d hd
    · intro fuel
      obtain ⟨e1, ps, fr1, r1, C⟩ := d4 fuel
      refine ⟨e0, e1, ps, fr1, ?_, rfl, C, ?_⟩
      · rw [runData_append, alloc_run rfl]
        have : ({ Org.initExec X.q with regs := Org.resize c0.regCount (Org.initExec X.q).regs } : Exec).failed = false := rfl
        simp only [ok_bind]
        exact r1
      · have hcs' : fr1.codes = cs0 := by have := C.codes; rw [hc] at this; cases this; rfl
        have hq1 : fr1.query = true := C.query
        simp [Fr.tcodes, hcs', hq1]

/-- The effect of a `call` on the lists of executors. -/
theorem call_turn {o : Org} {fuel id q e t ts ds f e1} (hq : o.queue = id :: q) (he : o.execs[id]? = some e)
    (hrun : e.state = .running) (hpl : ParLt o.execs) (hcodes : e.codes = t :: ts) (hst : o.stale t = false)
    (hins : t.atom.instrs = ds ++ [.call f]) (hds : ∀ d ∈ ds, d.isData = true)
    (hr : runData (preOf o.execs e) fuel o.st ds { e with regs := Org.resize t.atom.regCount e.regs } = .ok e1)
    (hr1 : e1.state = .running) :
    ∃ o', o.turn fuel = .ok (o', .continue) ∧ o'.calls = o.calls + 1 ∧ o'.st = o.st ∧ o'.gen = o.gen ∧ o'.program = o.program ∧
      Keeps o o' id ∧
      o'.queue = q ++ List.range' o.execs.length ((o.program.rules? f).getD []).length ∧
      o'.execs.length = o.execs.length + ((o.program.rules? f).getD []).length ∧
      (∀ (i : Nat) r, ((o.program.rules? f).getD [])[i]? = some r → ∃ old, o'.execs[id]? = some old ∧ old.parent = e.parent ∧
        old.hp = e1.hp ∧ old.state = .archived ∧ old.codes = [t] ∧ old.regs = e1.regs ∧ old.envs.head? = e1.envs.head? ∧
        ∃ e', o'.execs[o.execs.length + i]? = some e' ∧ e'.parent = some id ∧ e'.hp = ⟨e1.hp.size, [], []⟩ ∧ e'.regs = e1.regs ∧
          e'.envs = e1.envs ∧ e'.codes = r.map (⟨o.gen, ·⟩) ++ ts ∧ e'.state = .running) := by
  have hlt := (List.getElem?_eq_some_iff.1 he).1
  have hf := runData_frame hr
  have hcode : o.code t = .ok t.atom := by simp [Org.code, hst]
  have htu := Org.turn_eq (fuel := fuel) hq he hrun hpl hcodes hins hds rfl
  rw [hcode, ok_bind, hr, ok_bind] at htu
  have hnf : e1.failed = false := by simp [Exec.failed, hr1]
  simp only [hnf, Bool.false_eq_true, if_false, Org.ctl] at htu
  have hc1 : e1.codes = t :: ts := by rw [hf.codes]; exact hcodes
  cases hp : o.program.rules? f with
  | none =>
    simp only [hp, pure_ok, ok_bind] at htu
    refine ⟨{ o with queue := q, calls := o.calls + 1, execs := o.execs.set id e1.setFailed.clear }, ?_, rfl, rfl, rfl, rfl, ⟨rfl, ?_⟩, by simp, by simp, by simp⟩
    · rw [htu]
      simp [Org.finish, Org.exec, Org.setExec, hlt, orFault_some, ok_bind, Exec.clear, Exec.setFailed, pure, Except.pure]
    · intro j hj _
      simp [Ne.symm hj]
  | some rules =>
    simp only [hp, Option.getD_some] at htu ⊢
    let old : Exec := { e1.clear with children := e1.children ++ List.range' o.execs.length rules.length, state := .archived }
    let o2 : Org := { o with queue := q, calls := o.calls + 1 }
    let o' : Org := { o with
      queue := q ++ List.range' o.execs.length rules.length
      calls := o.calls + 1
      execs := o.execs.set id old ++ rules.map (o2.callChild id e1) }
    have hold : o'.execs[id]? = some old := by
      show (o.execs.set id old ++ _)[id]? = _
      rw [List.getElem?_append_left (by simpa using hlt)]
      simp [hlt]
    refine ⟨o', ?_, rfl, rfl, rfl, rfl, ⟨rfl, ?_⟩, rfl, by simp [o'], ?_⟩
    · rw [htu]
      have h2 : ({ o with queue := q } : Org).call id e1 f = o' := by
        simp only [Org.call, hp, Org.setExec, o', old, o2]
      show Org.finish fuel (({ o with queue := q } : Org).call id e1 f) id = _
      rw [h2]
      simp only [Org.finish, Org.exec, hold, orFault_some, ok_bind, old, pure, Except.pure]
    · intro j hj hjl
      show (o.execs.set id old ++ _)[j]? = _
      rw [List.getElem?_append_left (by simpa using hjl)]
      simp [Ne.symm hj]
    · intro i r hi
      refine ⟨old, hold, hf.parent, rfl, rfl, ?_, rfl, ?_, o2.callChild id e1 r, ?_, rfl, rfl, rfl, rfl, ?_, rfl⟩
      · show e1.codes.take 1 = _
        rw [hc1]; rfl
      · show (e1.envs.take 1).head? = _
        cases e1.envs <;> rfl
      · show (o.execs.set id old ++ _)[_]? = _
        rw [List.getElem?_append_right (by simp)]
        simp [hi]
      · show _ ++ e1.codes.drop 1 = _
        rw [hc1]; rfl

theorem mem_pushFr {g fr fs} {fr' : Fr} (h : fr' ∈ pushFr g fr fs) : fr' ∈ fs ∨ fr'.atoms = fr.atoms := by
  unfold pushFr at h
  split at h
  · exact .inl h
  · rcases List.mem_cons.1 h with rfl | h
    · exact .inr rfl
    · exact .inl h

theorem pushFr_atoms {g fr fs} (h : fr.codes = [] → fr.atoms = []) : (pushFr g fr fs).flatMap Fr.atoms = fr.atoms ++ fs.flatMap Fr.atoms := by
  unfold pushFr
  split
  · rename_i hh
    rw [h (Fr.tcodes_nil hh.1 hh.2).1]; rfl
  · simp

theorem getLast?_pushFr {g fr fs} (h : fr.query = true ∨ fs ≠ []) : ∃ f, (pushFr g fr fs).getLast? = some f ∧
    (fr :: fs).getLast? = some f := by
  unfold pushFr
  split
  · rename_i hh
    rcases h with h | h
    · rw [hh.1] at h; cases h
    · cases fs with
      | nil => exact absurd rfl h
      | cons a l => exact ⟨_, List.getLast?_eq_some_getLast (by simp), by simp [List.getLast?_cons_cons, List.getLast?_eq_some_getLast]⟩
  · exact ⟨_, List.getLast?_eq_some_getLast (by simp), List.getLast?_eq_some_getLast (by simp)⟩

theorem FrsOK.ne_nil {st I g H size fs} (h : FrsOK st I g H size fs) : fs ≠ [] := by cases h <;> simp

theorem Den.modLe {I H H' ν a n} (h : Den I H ν a n) (m : ModLe I H H') : Den I H' ν a n :=
  fun D A σ ρ hm ha => h D A σ ρ (m D A σ hm) ha

theorem Den.νext {I H ν ν' a n} (h : Den I H ν a n) (m : ∀ k b, ν k = some b → ν' k = some b) : Den I H ν' a n :=
  fun D A σ ρ hm ha => h D A σ ρ hm fun k b hk => ha k b (m k b hk)

/-- The recorded variables when a goal is called. -/
theorem QInfo.called {X : Ctx} {pre} {e0 e1 : Exec} {fr fs c atom ps fr1 L}
    (C : Called X.st X.I X.g pre e0 e1 fr fs c atom ps fr1) (h : QInfo X (e0.hp.at? pre) e0.hp.size (fr :: fs) L)
    (htail : fr.query = true → fs = []) (hfq : c.fromQuery = fr.query) {old : Exec} (hregs : old.regs = e1.regs)
    (henvs : old.envs.head? = e1.envs.head?) :
    ∃ subs, (if c.fromQuery then Org.pointSubs old c.subst else pure []) = .ok subs ∧
      QInfo X (e1.hp.at? pre) e1.hp.size (pushFr X.g fr1 fs) (subs ++ L) := by
  obtain ⟨fq, done, h1, h2, h3, h4, h5⟩ := h
  cases hqq : fr.query with
  | true =>
    have hfs := htail hqq
    subst hfs
    simp only [List.getLast?_singleton, Option.some.injEq] at h1
    subst h1
    obtain ⟨s1, s2⟩ := C.subs hqq
    obtain ⟨subs, p1, p2, p3⟩ := s2 old hregs henvs
    refine ⟨subs, by rw [hfq, hqq]; exact p1, ?_⟩
    have hpush : pushFr X.g fr1 [] = [fr1] := by
      unfold pushFr
      rw [if_neg]
      rw [C.query, hqq]; simp
    refine ⟨fr1, done ++ [atom], by rw [hpush]; rfl, by rw [C.query, hqq], by rw [h3, C.atoms]; simp, ?_, ?_⟩
    · intro v
      simp only [List.map_append, List.mem_append, p2, s1 v, h4 v, List.mem_singleton]
      constructor
      · rintro (h | ⟨a, ha, hv⟩)
        · exact ⟨atom, .inr rfl, h⟩
        · exact ⟨a, .inl ha, hv⟩
      · rintro ⟨a, ha | rfl, hv⟩
        · exact .inr ⟨a, ha, hv⟩
        · exact .inl hv
    · intro p hp
      rcases List.mem_append.1 hp with hp | hp
      · exact p3 p hp
      · obtain ⟨k1, k2⟩ := h5 p hp
        exact ⟨Nat.lt_of_lt_of_le k1 C.size, (k2.modLe C.modLe).νext C.νext⟩
  | false =>
    refine ⟨[], by rw [hfq, hqq]; rfl, ?_⟩
    have hfs : fs ≠ [] := by
      rintro rfl
      simp only [List.getLast?_singleton, Option.some.injEq] at h1
      rw [← h1, hqq] at h2; cases h2
    obtain ⟨f, g1, g2⟩ := getLast?_pushFr (g := X.g) (fr := fr1) (fs := fs) (.inr hfs)
    have hl : (fr :: fs).getLast? = (fr1 :: fs).getLast? := by
      cases fs with
      | nil => exact absurd rfl hfs
      | cons a l => simp [List.getLast?_cons_cons]
    rw [← hl, h1] at g2
    cases g2
    refine ⟨fq, done, g1, h2, h3, by simpa using h4, ?_⟩
    intro p hp
    obtain ⟨k1, k2⟩ := h5 p (by simpa using hp)
    exact ⟨Nat.lt_of_lt_of_le k1 C.size, k2.modLe C.modLe⟩

theorem PendE.tail {X : Ctx} {pre} {e : Exec} {b fr fs} (h : PendE X pre e (.res b fr fs)) : fr.query = true → fs = [] := by
  cases b with
  | true => intro _; exact h.2.1
  | false =>
    intro hq
    rcases Resume.tail h with h | h
    · exact h.2
    · rw [hq] at h; cases h.1

/-- A turn of an executor whose next step is a goal. -/
theorem step_goal {X : Ctx} (ok : X.OK) {o : Org} (inv : o.Inv) (hst : o.st = X.st) (hgen : o.gen = X.g) (hprog : o.program = X.prog)
    {fuel id q e b fr fs c cs L} (hq : o.queue = id :: q) (hp : Pending X o id e (.res b fr fs) L) (hc : fr.codes = c :: cs) :
    ∃ o' f ps fs' L', o.turn fuel = .ok (o', .continue) ∧ o'.calls = o.calls + 1 ∧ o'.st = X.st ∧ o'.gen = X.g ∧ o'.program = X.prog ∧
      Keeps o o' id ∧ o'.queue = q ++ List.range' o.execs.length ((X.prog.rules? f).getD []).length ∧
      o'.execs.length = o.execs.length + ((X.prog.rules? f).getD []).length ∧
      (∃ a as, fr.atoms = a :: as ∧ f = a.fv ∧ (∀ fr' ∈ fs', fr' ∈ fs ∨ fr'.atoms = as) ∧ ∃ t ts, e.codes = t :: ts ∧ t.atom.instrs.getLast? = some (.call f) ∧
        t.atom.parsed = a ∧
        ∀ (i : Nat) r e', ((X.prog.rules? f).getD [])[i]? = some r → o'.execs[o.execs.length + i]? = some e' →
          ∀ (D : Type) (A : Alg D) (σ : Nat → D), Mod (toIAlg A X.I) (e'.hp.at? (preOf o'.execs e')) σ → ∃ ρ, gAtom f (ps.map σ) = a.inst A ρ) ∧
      ∀ (i : Nat) r, ((X.prog.rules? f).getD [])[i]? = some r → ∃ e', Pending X o' (o.execs.length + i) e' (.head f ps fs' r) L' ∧
        (∀ (D : Type) (A : Alg D) (σ : Nat → D) ρq gs, Mod (toIAlg A X.I) (e.hp.at? (preOf o.execs e)) σ → Goals A σ ρq (fr :: fs) gs →
          ∃ σ' gs', Mod (toIAlg A X.I) (e'.hp.at? (preOf o'.execs e')) σ' ∧ gs = gAtom f (ps.map σ') :: gs' ∧ Goals A σ' ρq fs' gs') ∧
        (∀ (D : Type) (A : Alg D) (σ : Nat → D) ρq gs, Mod (toIAlg A X.I) (e'.hp.at? (preOf o'.execs e')) σ → Goals A σ ρq fs' gs →
          Mod (toIAlg A X.I) (e.hp.at? (preOf o.execs e)) σ ∧ Goals A σ ρq (fr :: fs) (gAtom f (ps.map σ) :: gs)) ∧
        fs'.flatMap Fr.atoms = fr.atoms.tail ++ fs.flatMap Fr.atoms ∧
        ∃ fr1, fs' = pushFr X.g fr1 fs ∧ fr1.query = fr.query ∧ fr1.ny = fr.ny ∧ fr1.atoms = fr.atoms.tail ∧ (fr1.codes = [] → fr1.atoms = []) := by
  have hroot : b = true → preOf o.execs e = fun _ => none := by
    rintro rfl
    have := hp.chain.1
    unfold preOf; rw [this]
  obtain ⟨atom, ds, t, ts, h1, h2, h3, h4, h5, h6, h7, h8⟩ := pendE_goal hp.exec hc hroot
  obtain ⟨e0, e1, ps, fr1, r1, r2, C, r3⟩ := h8 fuel
  subst h2
  rw [← hst] at r1
  obtain ⟨o', t1, t2, t3, t4, t5, t6, t7, t8, t9⟩ := call_turn hq hp.get h6 inv.parLt h1 (stale_false hgen h3) h4 h5 r1 C.state
  have hsub : ∃ subs, (if t.atom.fromQuery then Org.pointSubs e1 t.atom.subst else pure []) = .ok subs ∧
      QInfo X (e1.hp.at? (preOf o.execs e)) e1.hp.size (pushFr X.g fr1 fs) (subs ++ L) := by
    refine QInfo.called C ?_ hp.exec.tail h7 rfl rfl
    rw [r2]; exact hp.info
  obtain ⟨subs, s1, s2⟩ := hsub
  rw [hprog] at t7 t8 t9
  refine ⟨o', atom.fv, ps, pushFr X.g fr1 fs, subs ++ L, t1, t2, by rw [t3, hst], by rw [t4, hgen], by rw [t5, hprog], t6, t7, t8,
    ⟨atom, fr1.atoms, C.atoms, rfl, fun fr' h' => mem_pushFr h', t, ts, h1, by rw [h4]; simp, C.parsed, ?_⟩, fun i r hi => ?_⟩
  · intro i r e' hi he' D A σ m
    obtain ⟨old, k1, k2, k3, k4, k5, k6, k7, e'', j1, j2, j3, j4, j5, j6, j7⟩ := t9 i r hi
    rw [j1] at he'; cases he'
    rw [j3, at?_empty C.callee.good.dom (by rw [preOf_child inv.parLt t6 hp.get k1 k2 j2, k3])] at m
    exact C.den D A σ m
  obtain ⟨old, k1, k2, k3, k4, k5, k6, k7, e', j1, j2, j3, j4, j5, j6, j7⟩ := t9 i r hi
  have hview : e'.hp.at? (preOf o'.execs e') = e1.hp.at? (preOf o.execs e) := by
    rw [j3]
    refine at?_empty C.callee.good.dom ?_
    rw [preOf_child inv.parLt t6 hp.get k1 k2 j2, k3]
  have hsize : e'.hp.size = e1.hp.size := by rw [j3]; rfl
  have hold : (if t.atom.fromQuery then Org.pointSubs old t.atom.subst else pure []) = .ok subs := by
    obtain ⟨subs', q1, q2⟩ := QInfo.called C (by rw [r2]; exact hp.info) hp.exec.tail h7 k6 k7
    obtain ⟨subs2, q3, q4⟩ := QInfo.called C (by rw [r2]; exact hp.info) hp.exec.tail h7 rfl rfl
    rw [← s1]
    cases hfq : t.atom.fromQuery with
    | false => rfl
    | true =>
      simp only [if_true]
      have hps : ∀ vs, Org.pointSubs old vs = Org.pointSubs e1 vs := by
        intro vs
        induction vs with
        | nil => rfl
        | cons v vs ih =>
          rw [Org.pointSubs, Org.pointSubs, ih]
          have hperm : old.perm v.reg = e1.perm v.reg := by
            unfold Exec.perm
            cases he : e1.envs <;> cases ho : old.envs <;> simp_all
          have hreg : old.reg v.reg = e1.reg v.reg := by unfold Exec.reg; rw [k6]
          rw [hperm, hreg]
      exact hps _
  have hchain : RChain o' id (subs ++ L) := by
    have hna : ∀ e, o.execs[id]? = some e → e.state ≠ .archived := by
      intro e' he'
      rw [hp.get] at he'; cases he'
      rw [h6]; simp
    cases b with
    | true =>
      obtain ⟨c1, rfl⟩ := hp.chain
      rw [List.append_nil]
      exact .root k1 k4 k5 (stale_false (by rw [t4, hgen]) h3) hold (by rw [k2, c1])
    | false =>
      obtain ⟨q', f', r', c1, c2, c3, c4, c5⟩ := (hp.chain.keeps t6 hna : Trail o' e (.res false fr fs) L)
      exact .step k1 k4 k5 (stale_false (by rw [t4, hgen]) h3) hold (by rw [k2, c1]) c2 c3 c4 c5
  refine ⟨e', ⟨j1, ⟨j7, ?_, ts, ?_, ?_⟩, ⟨id, j2, hchain⟩, ?_, ?_, by rw [j3]⟩, ?_, ?_, ?_⟩
  · cases hrs : X.prog.rules? atom.fv with
    | none => rw [hrs] at hi; simp at hi
    | some rs =>
      rw [hrs] at hi
      exact ok.prog.ruleOK hrs (List.mem_of_getElem? hi)
  · rw [j6, hgen]
  · rw [hview, hsize, j4, j5, r3]; exact C.callee
  · rw [hview, hsize]; exact s2
  · rw [hview]
    intro D A σ ρq gs m hg
    obtain ⟨gs', rfl, hg⟩ := hg
    refine hp.sound D A σ ρq _ ?_ (C.sound D A σ ρq gs' m hg)
    have := C.modLe D A σ m
    rw [r2] at this
    exact this
  · intro D A σ ρq gs m hg
    rw [hview]
    obtain ⟨σ', gs', _, q1, q2, q3⟩ := C.complete D A σ ρq gs (by rw [r2]; exact m) hg
    exact ⟨σ', gs', q1, q2, q3⟩
  · intro D A σ ρq gs m hg
    rw [hview] at m
    have := C.modLe D A σ m
    rw [r2] at this
    exact ⟨this, C.sound D A σ ρq gs m hg⟩
  · exact ⟨by rw [pushFr_atoms C.nil, C.atoms]; rfl, fr1, rfl, C.query, C.ny, by rw [C.atoms]; rfl, C.nil⟩

end PBfs
