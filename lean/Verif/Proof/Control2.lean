import Verif.Proof.Control
/-! # Steps of executors -/
namespace PBfs

theorem alloc_run {pre fuel st ny} {e : Exec} (hr : e.state = .running) :
    runData pre fuel st (allocInstrs ny) e =
      .ok { e with envs := (if ny = 0 then [] else [List.replicate ny Cell.zero]) ++ e.envs } := by
  unfold allocInstrs
  split
  · simp [runData, pure, Except.pure]
  · simp [runData, stepData, pure, Except.pure, Exec.failed, hr, bind, Except.bind]

/-- The variables of a query atom, after its code has run. -/
theorem pointSubs_ok {Γ : QCtx} {ν S} {e e' : Exec} {lim} (q : QRel Γ ν S e lim) (hregs : e'.regs = e.regs)
    (henv : e'.envs.head? = e.envs.head?) : ∀ {vs : List VarReg},
    (∀ v ∈ vs, if v.perm then Γ.yOf v.name = some v.reg ∧ v.name ∈ S.pl else S.x v.reg = some (.var v.name)) →
    ∃ L, Org.pointSubs e' vs = .ok L ∧ L.map (·.1) = vs.map (·.name) ∧
      ∀ p ∈ L, p.2 < e.hp.size ∧ Den Γ.I (Γ.H e) ν p.2 (.var p.1) := by
  intro vs
  induction vs with
  | nil => intro _; exact ⟨[], rfl, rfl, by simp⟩
  | cons v vs ih =>
    intro h
    obtain ⟨L, h1, h2, h3⟩ := ih fun w hw => h w (by simp [hw])
    have hv := h v (by simp)
    have key : ∃ cell, (if v.perm = true then e'.perm v.reg else e'.reg v.reg) = .ok cell ∧ RegIs Γ e ν cell (.var v.name) := by
      split
      · rename_i hp
        rw [if_pos hp] at hv
        obtain ⟨cell, c1, c2⟩ := q.y _ _ hv.1 hv.2
        refine ⟨cell, ?_, c2⟩
        rw [← c1]
        unfold Exec.perm
        cases h1 : e.envs <;> cases h2 : e'.envs <;> rw [h1, h2] at henv <;> simp at henv ⊢
        subst henv; rfl
      · rename_i hp
        rw [if_neg hp] at hv
        obtain ⟨cell, c1, c2⟩ := q.x _ _ hv
        refine ⟨cell, ?_, c2⟩
        simp [Exec.reg, hregs, c1, orFault_some]
    obtain ⟨cell, c1, b, c2, c3, c4, c5⟩ := key
    refine ⟨(v.name, b) :: L, ?_, by simp [h2], ?_⟩
    · rw [Org.pointSubs, c1]
      simp only [ok_bind]
      have : cell.addr = .ok b := by
        unfold Cell.addr
        rw [c2]; rfl
      simp only [this, ok_bind, h1]; rfl
    · intro p hp
      rcases List.mem_cons.1 hp with rfl | hp
      · exact ⟨c3, c5⟩
      · exact h3 p hp

/-- What the code of a goal does (up to the call). -/
structure Called (st : Storage) (I : Int → FV) (g : Nat) (pre : Nat → Option Cell) (e0 e1 : Exec) (fr : Fr) (fs : List Fr)
    (c : CAtom) (atom : Node) (ps : List Nat) (fr1 : Fr) : Prop where
  state : e1.state = .running
  size : e0.hp.size ≤ e1.hp.size
  modLe : ModLe I (e0.hp.at? pre) (e1.hp.at? pre)
  callee : Callee st I g (e1.hp.at? pre) e1.hp.size e1.regs e1.envs (fr1.tcodes g ++ codesOf g fs) atom.fv ps (pushFr g fr1 fs)
  query : fr1.query = fr.query
  ny : fr1.ny = fr.ny
  νext : ∀ n a, fr.ν n = some a → fr1.ν n = some a
  atoms : fr.atoms = atom :: fr1.atoms
  parsed : c.parsed = atom
  den : ∀ (D : Type) (A : Alg D) (σ : Nat → D), Mod (toIAlg A I) (e1.hp.at? pre) σ → ∃ ρ, gAtom atom.fv (ps.map σ) = atom.inst A ρ
  codes : fr.codes = c :: fr1.codes
  nil : fr1.codes = [] → fr1.atoms = []
  νlt : ∀ n a, fr1.ν n = some a → a < e1.hp.size
  subs : fr.query = true → (∀ v, v ∈ c.subst.map (·.name) ↔ v ∈ Node.varss atom.children) ∧
    ∀ e' : Exec, e'.regs = e1.regs → e'.envs.head? = e1.envs.head? → ∃ L, Org.pointSubs e' c.subst = .ok L ∧
      L.map (·.1) = c.subst.map (·.name) ∧ ∀ p ∈ L, p.2 < e1.hp.size ∧ Den I (e1.hp.at? pre) fr1.ν p.2 (.var p.1)
  sound : ∀ (D : Type) (A : Alg D) (σ : Nat → D) ρq gs, Mod (toIAlg A I) (e1.hp.at? pre) σ → Goals A σ ρq (pushFr g fr1 fs) gs →
    Goals A σ ρq (fr :: fs) (gAtom atom.fv (ps.map σ) :: gs)
  complete : ∀ (D : Type) (A : Alg D) (σ : Nat → D) ρq gs, Mod (toIAlg A I) (e0.hp.at? pre) σ → Goals A σ ρq (fr :: fs) gs →
    ∃ σ' gs', (∀ a, a < e0.hp.size → σ' a = σ a) ∧ Mod (toIAlg A I) (e1.hp.at? pre) σ' ∧
      gs = gAtom atom.fv (ps.map σ') :: gs' ∧ Goals A σ' ρq (pushFr g fr1 fs) gs'

theorem goal_run {st : Storage} {I : Int → FV} {g pre} {e0 : Exec} {fr : Fr} {fs : List Fr} {al c atom S1 cs as}
    (G : GoalSem st I fr.yOf fr.ny al c atom fr.S S1) (F : FrameSem st I fr.yOf fr.ny S1.next cs as)
    (hc : fr.codes = c :: cs) (ha : fr.atoms = atom :: as)
    (ylt : ∀ n y, fr.yOf n = some y → y < fr.ny)
    (yinj : ∀ n m y, fr.yOf n = some y → fr.yOf m = some y → n = m)
    (hq : QRel ⟨st, I, pre, fr.yOf, fr.ny, c.regCount⟩ fr.ν fr.S e0 e0.hp.size) (hr : e0.state = .running)
    (henv : ∃ env, e0.envs = (if fr.ny = 0 then [] else [env]) ++ envsOf fs)
    (tail : (fr.query = true ∧ fs = []) ∨ (fr.query = false ∧ FrsOK st I g (e0.hp.at? pre) e0.hp.size fs))
    (hfq : ∀ c ∈ fr.codes, c.fromQuery = fr.query) :
    ∃ ds, c.instrs = al ++ (ds ++ [.call atom.fv]) ∧ ds ≠ [] ∧ (∀ d ∈ ds, d.isData = true) ∧
      ∀ fuel, ∃ e1 ps fr1, runData pre fuel st ds e0 = .ok e1 ∧ Called st I g pre e0 e1 fr fs c atom ps fr1 := by
  obtain ⟨ds, d1, d2, d3, d4, d5⟩ := G.code
  refine ⟨ds, d1, d2, d3, fun fuel => ?_⟩
  obtain ⟨e1, ν1, r1, r2, r3⟩ := d5 pre fuel fr.ν e0 hq hr
  obtain ⟨ps, p1, p2, p3⟩ := goal_args r2 G.args
  have hmod : ModLe I (e0.hp.at? pre) (e1.hp.at? pre) := r3.modLe
  have henv1 : ∃ env, e1.envs = (if fr.ny = 0 then [] else [env]) ++ envsOf fs := by
    obtain ⟨env, h⟩ := henv
    by_cases h0 : fr.ny = 0
    · exact ⟨env, by rw [runData_envs r1 (d4 h0), h]⟩
    · obtain ⟨env1, rest, k1, k2⟩ := r2.env h0
      have := r3.tail
      rw [h, k1, if_neg h0] at this
      refine ⟨env1, ?_⟩
      rw [if_neg h0, k1]
      simpa using this
  obtain ⟨env1, henv1⟩ := henv1
  let fr1 : Fr := ⟨fr.yOf, fr.ny, fr.query, env1, ν1, S1.next, cs, as⟩
  have hfr1 : FrOK st I (e1.hp.at? pre) e1.hp.size fr1 :=
    r2.frame F ylt yinj (fun h => ⟨envsOf fs, by rw [henv1, if_neg h]; rfl⟩) fun c' hc' => hfq c' (by rw [hc]; simp [hc'])
  have tail1 : (fr1.query = true ∧ fs = []) ∨ (fr1.query = false ∧ FrsOK st I g (e1.hp.at? pre) e1.hp.size fs) := by
    rcases tail with h | h
    · exact .inl h
    · exact .inr ⟨h.1, h.2.mono hmod r3.size⟩
  have hnil : fr1.codes = [] → fr1.atoms = [] := F.nil_iff.1
  refine ⟨e1, ps, fr1, r1, ?_⟩
  refine { state := by rw [r3.state, hr], size := r3.size, modLe := hmod, callee := ?_, query := rfl, ny := rfl, νext := r3.νext,
           atoms := ha, parsed := G.parsed, den := ?_, codes := hc, nil := hnil, νlt := r2.νlt, subs := ?_, sound := ?_, complete := ?_ }
  · refine { good := r2.good, args := p2, len := by rw [p1, atomArgs_length G.goal], const := ?_, frs := .push hfr1 tail1,
             rest := codesOf_push.symm, envs := ?_ }
    · intro h0 D A σ m
      obtain ⟨ρ, hρ⟩ := exists_agree (A.int 0) ν1 σ
      rw [p3 D A σ ρ m hρ]
      have hg := G.goal
      cases atom with
      | cons c => rfl
      | fn f cs => cases cs with
        | nil => cases hg
        | cons => cases h0
      | efn f cs => cases cs with
        | nil => cases hg
        | cons => cases h0
      | _ => cases hg
    · rw [envsOf_push, henv1]; rfl
  · intro D A σ m
    obtain ⟨ρ, hρ⟩ := exists_agree (A.int 0) ν1 σ
    exact ⟨ρ, by rw [p3 D A σ ρ m hρ, gAtom_inst G.goal]⟩
  · intro hqq
    obtain ⟨s1, s2⟩ := G.subst (by rw [hfq c (by rw [hc]; simp)]; exact hqq)
    refine ⟨s2, fun e' he1 he2 => pointSubs_ok r2 he1 he2 s1⟩
  · intro D A σ ρq gs m hg
    rw [goals_push hnil] at hg
    cases hg with
    | @cons _ _ gs ρ a b c =>
      have := Goals.cons (A := A) (ρq := ρq) (fr := fr) ρ (fun n k hk => a n k (r3.νext n k hk)) b c
      rw [ha] at this
      rw [p3 D A σ ρ m a, gAtom_inst G.goal]
      exact this
  · intro D A σ ρq gs m hg
    cases hg with
    | @cons _ _ gs ρ a b c =>
      obtain ⟨σ', s1, s2, s3⟩ := r3.ext D A σ ρ m a
      refine ⟨σ', as.map (Node.inst A ρ) ++ gs, s1, s2, ?_, ?_⟩
      · rw [ha, p3 D A σ' ρ s2 s3, gAtom_inst G.goal]; rfl
      · rw [goals_push hnil]
        refine .cons (fr := fr1) ρ s3 b ?_
        rcases tail with ⟨_, rfl⟩ | ⟨_, h⟩
        · cases c; exact .nil
        · exact c.congr h s1

/-- A goal of a running clause or query. -/
theorem Resume.goal {st : Storage} {I : Int → FV} {g pre} {e : Exec} {fr : Fr} {fs : List Fr} {c cs}
    (R : Resume st I g pre e fr fs) (hc : fr.codes = c :: cs) :
    ∃ atom ds, c.instrs = ds ++ [.call atom.fv] ∧ (∀ d ∈ ds, d.isData = true) ∧
      ∀ fuel, ∃ e1 ps fr1, runData pre fuel st ds { e with regs := Org.resize c.regCount e.regs } = .ok e1 ∧
        Called st I g pre { e with regs := Org.resize c.regCount e.regs } e1 fr fs c atom ps fr1 := by
  have sem := R.sem
  rw [hc] at sem
  generalize hA : fr.atoms = as at sem
  cases sem with
  | cons G F =>
    obtain ⟨ds, d1, d2, d3, d4⟩ := goal_run G F hc hA R.ylt R.yinj (R.rel _ _ hc) R.state ⟨fr.env, R.envs⟩ R.tail R.fq
    exact ⟨_, ds, by simpa using d1, d3, d4⟩

/-- Waiting frames continue. -/
theorem FrsOK.resume {st : Storage} {I : Int → FV} {g pre} {e : Exec} {fs : List Fr}
    (h : FrsOK st I g (e.hp.at? pre) e.hp.size fs) (hgood : Good (ValidCell st) (e.hp.at? pre) e.hp.size e.hp.size)
    (hcodes : e.codes = codesOf g fs) (henvs : e.envs = envsOf fs) (hlive : ∃ f ∈ fs, f.atoms ≠ []) (hr : e.state = .running) :
    ∃ fr fs', fs = fr :: fs' ∧ Resume st I g pre e fr fs' := by
  have rel : ∀ {fr fs'}, FrOK st I (e.hp.at? pre) e.hp.size fr → e.envs = fr.envs ++ envsOf fs' → ∀ c cs, fr.codes = c :: cs →
      QRel ⟨st, I, pre, fr.yOf, fr.ny, c.regCount⟩ fr.ν fr.S { e with regs := Org.resize c.regCount e.regs } e.hp.size := by
    intro fr fs' ok he c cs hc
    refine { good := hgood, regs := resize_length _ _, x := ?_, pl := ok.pl, νlt := ok.νlt, env := ?_, y := ?_ }
    · intro x n hx
      rw [ok.idle] at hx; cases hx
    · intro h0
      exact ⟨fr.env, envsOf fs', by simpa [Fr.envs, show fr.ny ≠ 0 from h0] using he, ok.env h0⟩
    · intro n y hy hn
      obtain ⟨cell, b, h1, h2, h3, h4, h5⟩ := ok.y n y hy hn
      have h0 : fr.ny ≠ 0 := by have := ok.ylt n y hy; omega
      refine ⟨cell, ?_, b, h2, h3, h4, h5⟩
      simp only [Exec.perm, he, Fr.envs, if_neg h0]
      simp [h1, orFault_some]
  cases h with
  | @query fr hq ok =>
    refine ⟨fr, [], rfl, .inl ⟨hq, rfl⟩, hgood, by simpa using hcodes, ?_, by simpa using henvs, ok.sem, ok.ylt, ok.yinj, rel (fs' := []) ok (by simpa using henvs), ok.fq, hlive, hr⟩
    obtain ⟨f, hf, hne⟩ := hlive
    simp only [List.mem_singleton] at hf
    subst hf
    simp only [Fr.tcodes, hq, if_true, ne_eq, List.map_eq_nil_iff]
    intro h'
    exact hne (ok.sem.nil_iff.1 h')
  | @cons fr fs' hq ht ok hfs =>
    exact ⟨fr, fs', rfl, .inr ⟨hq, hfs⟩, hgood, by simpa using hcodes, ht, by simpa using henvs, ok.sem, ok.ylt, ok.yinj, rel ok (by simpa using henvs), ok.fq, hlive, hr⟩

/-- A frame with nothing left to do but to remove its permanent registers. -/
theorem Resume.dealloc {st : Storage} {I : Int → FV} {g pre} {e : Exec} {fr : Fr} {fs : List Fr}
    (R : Resume st I g pre e fr fs) (hc : fr.codes = []) :
    fr.query = false ∧ fr.atoms = [] ∧ FrsOK st I g (e.hp.at? pre) e.hp.size fs ∧ ∃ env rest, e.envs = env :: rest ∧
      e.codes = ⟨g, deallocAtom⟩ :: codesOf g fs ∧
      ∀ e' : Exec, e'.hp = e.hp → e'.codes = e.codes.drop 1 → e'.envs = rest → e'.state = .running →
        ∃ fr' fs', fs = fr' :: fs' ∧ Resume st I g pre e' fr' fs' := by
  have hatoms := R.sem.nil_iff.1 hc
  have hq : fr.query = false := by
    cases hq : fr.query with
    | false => rfl
    | true =>
      have := R.ne
      simp [Fr.tcodes, hq, hc] at this
  have hny : fr.ny ≠ 0 := by
    intro h0
    have := R.ne
    simp [Fr.tcodes, hq, hc, deallocAtoms, h0] at this
  have hfs : FrsOK st I g (e.hp.at? pre) e.hp.size fs := by
    rcases R.tail with h | h
    · rw [hq] at h; cases h.1
    · exact h.2
  refine ⟨hq, hatoms, hfs, fr.env, envsOf fs, ?_, ?_, ?_⟩
  · rw [R.envs, Fr.envs, if_neg hny]; rfl
  · rw [R.codes, Fr.tcodes, hq, hc, deallocAtoms, if_neg hny]; rfl
  · intro e' h1 h2 h3 h4
    refine FrsOK.resume (by rw [h1]; exact hfs) (by rw [h1]; exact R.good) ?_ h3 ?_ h4
    · rw [h2, R.codes, Fr.tcodes, hq, hc, deallocAtoms, if_neg hny]; rfl
    · obtain ⟨f, hf, hne⟩ := R.live
      rcases List.mem_cons.1 hf with rfl | hf
      · exact absurd hatoms hne
      · exact ⟨f, hf, hne⟩

/-- What the code of a head does (up to `proceed`). -/
structure Entered (st : Storage) (I : Int → FV) (g : Nat) (pre : Nat → Option Cell) (e0 e1 : Exec) (fs : List Fr)
    (cl : Clause) (ps : List Nat) (frn : Fr) : Prop where
  size : e0.hp.size ≤ e1.hp.size
  modLe : ModLe I (e0.hp.at? pre) (e1.hp.at? pre)
  good : Good (ValidCell st) (e1.hp.at? pre) e1.hp.size e1.hp.size
  envs : e1.envs = frn.envs ++ envsOf fs
  query : frn.query = false
  atoms : frn.atoms = cl.body
  keeps : frn.ny ≠ 0 ↔ ∃ v, SharedVar true (cl.head :: cl.body) v
  sem : FrameSem st I frn.yOf frn.ny frn.S frn.codes frn.atoms
  ylt : ∀ n y, frn.yOf n = some y → y < frn.ny
  yinj : ∀ n m y, frn.yOf n = some y → frn.yOf m = some y → n = m
  fq : ∀ c ∈ frn.codes, c.fromQuery = frn.query
  rel : ∀ c cs, frn.codes = c :: cs → QRel ⟨st, I, pre, frn.yOf, frn.ny, c.regCount⟩ frn.ν frn.S e1 e1.hp.size ∧
    c.regCount = e1.regs.length
  sound : ∀ (D : Type) (A : Alg D) (σ : Nat → D) ρq gs, Mod (toIAlg A I) (e1.hp.at? pre) σ → Goals A σ ρq (pushFr g frn fs) gs →
    ∃ ρ gs', gs = cl.body.map (Node.inst A ρ) ++ gs' ∧ Goals A σ ρq fs gs' ∧ gAtom cl.head.fv (ps.map σ) = cl.head.inst A ρ

theorem head_run {st : Storage} {I : Int → FV} {g pre} {e : Exec} {r : Rule} {cl : Clause} {ps : List Nat} {fs : List Fr} {rest}
    (hr : RuleSem st I r cl) (C : Callee st I g (e.hp.at? pre) e.hp.size e.regs e.envs rest cl.head.fv ps fs)
    (hrun : e.state = .running) :
    ∃ hc ds frn0 tl, r = hc :: tl ∧ tl.map (⟨g, ·⟩) = Fr.tcodes g frn0 ∧ hc.instrs = ds ++ [.proceed] ∧ ds ≠ [] ∧ (∀ d ∈ ds, d.isData = true) ∧
      ∀ fuel, (runData pre fuel st ds { e with regs := Org.resize hc.regCount e.regs } = .error .hang ∧ MayHang I fuel (e.hp.at? pre) ps (atomArgs cl.head)) ∨
        ∃ e1, runData pre fuel st ds { e with regs := Org.resize hc.regCount e.regs } = .ok e1 ∧
        (e1.state = .running ∨ e1.state = .fail) ∧
        (e1.state = .running → ∃ frn, frn.tcodes g = frn0.tcodes g ∧ Entered st I g pre e e1 fs cl ps frn ∧
          ∀ (D : Type) (A : Alg D) (σ : Nat → D) ρq gs ρ, Free (toIAlg A I) (ValidCell st) → Mod (toIAlg A I) (e.hp.at? pre) σ →
          Goals A σ ρq fs gs → gAtom cl.head.fv (ps.map σ) = cl.head.inst A ρ →
          ∃ σ', (∀ a, a < e.hp.size → σ' a = σ a) ∧ Mod (toIAlg A I) (e1.hp.at? pre) σ' ∧
            Goals A σ' ρq (pushFr g frn fs) (cl.body.map (Node.inst A ρ) ++ gs)) ∧
        (∀ (D : Type) (A : Alg D) (σ : Nat → D) ρ, Free (toIAlg A I) (ValidCell st) → Mod (toIAlg A I) (e.hp.at? pre) σ →
          gAtom cl.head.fv (ps.map σ) = cl.head.inst A ρ → e1.state = .running) := by
  obtain ⟨yOf, ny, hc, bcs, S, rfl, ylt, yinj, HS, FS, hreg, hny, hfq, hsh⟩ := hr
  obtain ⟨ds, d1, d2, d3, d4, d5⟩ := HS.code
  have halen := atomArgs_length HS.goal
  have hps : ∀ (D : Type) (A : Alg D) (σ : Nat → D) (ρ : Name → D), Mod (toIAlg A I) (e.hp.at? pre) σ →
      gAtom cl.head.fv (ps.map σ) = cl.head.inst A ρ → ps.map σ = Node.evals A ρ (atomArgs cl.head) := by
    intro D A σ ρ m h
    refine evals_of_gAtom HS.goal (by simp [C.len]) (fun h0 => ?_) h
    exact C.const h0 D A σ m
  refine ⟨hc, allocInstrs ny ++ ds, ⟨yOf, ny, false, [], fun _ => none, S, bcs, cl.body⟩, bcs ++ deallocAtoms ny, rfl, ?_, by rw [d1]; simp, by simp [d2], ?_, ?_⟩
  · simp [Fr.tcodes]
  · intro d hd
    rcases List.mem_append.1 hd with hd | hd
    · unfold allocInstrs at hd; split at hd
      · cases hd
      · simp only [List.mem_singleton] at hd; subst hd; rfl
    · exact d3 d hd
  intro fuel
  have hal := alloc_run (pre := pre) (fuel := fuel) (st := st) (ny := ny) (e := { e with regs := Org.resize hc.regCount e.regs }) hrun
  let e0 : Exec := { { e with regs := Org.resize hc.regCount e.regs } with envs := (if ny = 0 then [] else [List.replicate ny Cell.zero]) ++ e.envs }
  have hrunall : runData pre fuel st (allocInstrs ny ++ ds) { e with regs := Org.resize hc.regCount e.regs } = runData pre fuel st ds e0 := by
    rw [runData_append, hal]
    simp only [ok_bind]
    rw [if_neg (by simp [Exec.failed, hrun])]
  rw [hrunall]
  have hargs : ∀ (i p : Nat), ps[i]? = some p → p < e0.hp.size ∧ ∃ cell, e0.regs[i]? = some cell ∧ cell.ptr = some p ∧ ValidCell st cell := by
    intro i p hp
    obtain ⟨h1, cell, h2, h3⟩ := C.args i p hp
    have hi := (List.getElem?_eq_some_iff.1 hp).1
    have := HS.args
    exact ⟨h1, cell, resize_get h2 (by rw [C.len] at hi; omega), h3⟩
  rcases d5 pre fuel e0 ps C.good hrun (resize_length _ _) (fun h0 => ⟨_, e.envs, by simp only [e0, if_neg h0]; rfl, by simp⟩)
    (by rw [C.len, halen]) hargs with ⟨e1, ν', r1, r2, r3⟩ | r1
  · refine .inr ⟨e1, r1, r3.state, fun hr1 => ?_, ?_⟩
    · have q := r2 hr1
      have henv1 : ∃ env, e1.envs = (if ny = 0 then [] else [env]) ++ envsOf fs := by
        by_cases h0 : ny = 0
        · exact ⟨[], by rw [runData_envs r1 (d4 h0)]; simp [e0, h0, C.envs]⟩
        · obtain ⟨env1, rest, k1, k2⟩ := q.env h0
          have := r3.tail
          rw [k1] at this
          refine ⟨env1, ?_⟩
          rw [if_neg h0, k1]
          simp only [e0, if_neg h0, C.envs] at this
          simpa using this
      obtain ⟨env1, henv1⟩ := henv1
      have hmod : ModLe I (e.hp.at? pre) (e1.hp.at? pre) := by
        intro D A σ m
        obtain ⟨ρ, hρ⟩ := exists_agree (A.int 0) ν' σ
        exact (r3.sound hr1 D A σ ρ m hρ).1
      have hnil : bcs = [] → cl.body = [] := FS.nil_iff.1
      refine ⟨⟨yOf, ny, false, env1, ν', S, bcs, cl.body⟩, rfl, ?_, ?_⟩
      · refine { size := r3.size, modLe := hmod, good := q.good, envs := henv1, query := rfl, atoms := rfl, keeps := hsh, sem := FS, ylt := ylt, yinj := yinj, fq := hfq,
                 rel := ?_, sound := ?_ }
        · intro c cs hcs
          have hcs : bcs = c :: cs := hcs
          have := hreg c (by rw [hcs]; rfl)
          refine ⟨?_, ?_⟩
          · show QRel ⟨st, I, pre, yOf, ny, c.regCount⟩ _ _ _ _
            rw [this]; exact q
          · rw [this, q.regs]
        · intro D A σ ρq gs m hg
          rw [goals_push hnil] at hg
          cases hg with
          | @cons _ _ gs ρ a b c =>
            refine ⟨ρ, gs, rfl, c, ?_⟩
            rw [(r3.sound hr1 D A σ ρ m a).2, gAtom_inst HS.goal]
      · intro D A σ ρq gs ρ fr m hg hh
        obtain ⟨_, σ', s1, s2, s3⟩ := r3.complete D A σ ρ fr m (hps D A σ ρ m hh)
        refine ⟨σ', s1, s2, ?_⟩
        rw [goals_push hnil]
        exact .cons (fr := ⟨yOf, ny, false, env1, ν', S, bcs, cl.body⟩) ρ s3 (by simp) (hg.congr C.frs s1)
    · intro D A σ ρ fr m hh
      exact (r3.complete D A σ ρ fr m (hps D A σ ρ m hh)).1
  · exact .inl r1

theorem QRel.congr {st I pre pre' yOf ny nr ν S} {e e' : Exec} {lim} (q : QRel ⟨st, I, pre, yOf, ny, nr⟩ ν S e lim)
    (hH : e'.hp.at? pre' = e.hp.at? pre) (hs : e'.hp.size = e.hp.size) (hregs : e'.regs = e.regs) (henvs : e'.envs = e.envs) :
    QRel ⟨st, I, pre', yOf, ny, nr⟩ ν S e' lim := by
  have hreg : ∀ {cell n}, RegIs ⟨st, I, pre, yOf, ny, nr⟩ e ν cell n → RegIs ⟨st, I, pre', yOf, ny, nr⟩ e' ν cell n := by
    rintro cell n ⟨b, h1, h2, h3, h4⟩
    refine ⟨b, h1, by rw [hs]; exact h2, h3, ?_⟩
    show Den I (e'.hp.at? pre') ν b n
    rw [hH]; exact h4
  refine { good := ?_, regs := by rw [hregs]; exact q.regs, x := ?_, pl := q.pl, νlt := by rw [hs]; exact q.νlt, env := by rw [henvs]; exact q.env, y := ?_ }
  · show Good _ (e'.hp.at? pre') _ _
    rw [hH, hs]; exact q.good
  · intro x c hx
    obtain ⟨cell, h1, h2⟩ := q.x x c hx
    exact ⟨cell, by rw [hregs]; exact h1, hreg h2⟩
  · intro n y hy hn
    obtain ⟨cell, h1, h2⟩ := q.y n y hy hn
    refine ⟨cell, ?_, hreg h2⟩
    rw [← h1]; simp only [Exec.perm, henvs]

/-- The executor that works on the body of a clause. -/
theorem Entered.resume {st : Storage} {I : Int → FV} {g pre pre'} {e0 e1 e' : Exec} {fs cl ps frn}
    (E : Entered st I g pre e0 e1 fs cl ps frn) (hfs : FrsOK st I g (e0.hp.at? pre) e0.hp.size fs)
    (hH : e'.hp.at? pre' = e1.hp.at? pre) (hs : e'.hp.size = e1.hp.size) (hregs : e'.regs = e1.regs) (henvs : e'.envs = e1.envs)
    (hcodes : e'.codes = frn.tcodes g ++ codesOf g fs) (hr : e'.state = .running) (live : ∃ f ∈ pushFr g frn fs, f.atoms ≠ []) :
    ∃ fr fs', pushFr g frn fs = fr :: fs' ∧ Resume st I g pre' e' fr fs' := by
  have hfs' : FrsOK st I g (e'.hp.at? pre') e'.hp.size fs := by
    rw [hH, hs]; exact hfs.mono E.modLe E.size
  have hgood : Good (ValidCell st) (e'.hp.at? pre') e'.hp.size e'.hp.size := by rw [hH, hs]; exact E.good
  by_cases hne : frn.tcodes g = []
  · have hp : pushFr g frn fs = fs := if_pos ⟨E.query, hne⟩
    rw [hp] at live ⊢
    refine hfs'.resume hgood (by simp [hcodes, hne]) ?_ live hr
    rw [henvs, E.envs, Fr.envs, if_pos (Fr.tcodes_nil E.query hne).2]; rfl
  · have hp : pushFr g frn fs = frn :: fs := if_neg (fun h => hne h.2)
    rw [hp] at live ⊢
    refine ⟨frn, fs, rfl, .inr ⟨E.query, hfs'⟩, hgood, hcodes, hne, by rw [henvs, E.envs], E.sem, E.ylt, E.yinj, ?_, E.fq, live, hr⟩
    intro c cs hc
    obtain ⟨q, hl⟩ := E.rel c cs hc
    rw [hs]
    exact q.congr (e' := { e' with regs := Org.resize c.regCount e'.regs }) hH hs (by
      show Org.resize c.regCount e'.regs = _
      rw [resize_same (by rw [hregs, hl]), hregs]) henvs

/-! ## Success -/

theorem FrameSem.notDealloc {st I yOf ny S cs as} (h : FrameSem st I yOf ny S cs as) : ∀ c ∈ cs, c.isDealloc = false := by
  induction h with
  | nil => simp
  | cons G _ ih =>
    intro c hc
    rcases List.mem_cons.1 hc with rfl | hc
    · obtain ⟨ds, h1, h2, _⟩ := G.code
      cases ds with
      | nil => exact absurd rfl h2
      | cons d ds => simp [CAtom.isDealloc, h1]
    · exact ih c hc

theorem allDealloc_append {o : Org} {l l'} (h : ∀ t ∈ l, o.stale t = false ∧ t.atom.isDealloc = true) :
    o.allDealloc (l ++ l') = o.allDealloc l' := by
  induction l with
  | nil => rfl
  | cons t l ih =>
    obtain ⟨h1, h2⟩ := h t (by simp)
    rw [List.cons_append, Org.allDealloc]
    simp only [Org.code, h1, Bool.false_eq_true, if_false, ok_bind, h2, if_true]
    exact ih fun s hs => h s (by simp [hs])

/-- The test for success looks for goals that are left. -/
theorem allDealloc_codes {o : Org} : ∀ {frs : List Fr},
    (∀ fr ∈ frs, ∃ st I yOf ny S, FrameSem st I yOf ny S fr.codes fr.atoms) →
    ∃ b, o.allDealloc (codesOf o.gen frs) = .ok b ∧ (b = true ↔ ∀ fr ∈ frs, fr.atoms = []) := by
  intro frs
  have gen : ∀ fr : Fr, ∀ t ∈ fr.tcodes o.gen, o.stale t = false := by
    intro fr t ht
    unfold Fr.tcodes at ht
    split at ht <;> obtain ⟨c, _, rfl⟩ := List.mem_map.1 ht <;> simp [Org.stale]
  induction frs with
  | nil => intro _; exact ⟨true, rfl, by simp⟩
  | cons fr frs ih =>
    intro h
    obtain ⟨b, h1, h2⟩ := ih fun f hf => h f (by simp [hf])
    obtain ⟨st, I, yOf, ny, S, sem⟩ := h fr (by simp)
    cases hc : fr.codes with
    | nil =>
      have hA := sem.nil_iff.1 hc
      refine ⟨b, ?_, by simp [hA, h2]⟩
      rw [← h1]
      refine allDealloc_append fun t ht => ⟨gen fr t ht, ?_⟩
      unfold Fr.tcodes at ht
      rw [hc] at ht
      split at ht
      · simp at ht
      · unfold deallocAtoms at ht
        split at ht
        · simp at ht
        · simp only [List.nil_append, List.map_cons, List.map_nil, List.mem_singleton] at ht
          subst ht; rfl
    | cons c cs =>
      have hA : fr.atoms ≠ [] := fun h0 => by simp [sem.nil_iff.2 h0] at hc
      refine ⟨false, ?_, by simp [hA]⟩
      have hn := sem.notDealloc c (by simp [hc])
      have : ∃ t ts, codesOf o.gen (fr :: frs) = t :: ts ∧ t.atom = c ∧ o.stale t = false := by
        simp only [codesOf, List.flatMap_cons, Fr.tcodes, hc]
        split
        · exact ⟨_, _, rfl, rfl, by simp [Org.stale]⟩
        · exact ⟨_, _, rfl, rfl, by simp [Org.stale]⟩
      obtain ⟨t, ts, e1, e2, e3⟩ := this
      rw [e1, Org.allDealloc]
      simp [Org.code, e3, e2, hn, ok_bind, pure, Except.pure]

end PBfs
