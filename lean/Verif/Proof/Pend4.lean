import Verif.Proof.Pend3
import Verif.Proof.Fuel
/-! # Turns of pending executors: rules -/
namespace PBfs

theorem runData_fuel {pre : Nat → Option Cell} {st : Storage} {n m : Nat} (hnm : n ≤ m) : ∀ (is : List Instr) (e : Exec),
    RLe (runData pre n st is e) (runData pre m st is e)
  | [], _ => .refl _
  | i :: is, e => by
    rw [runData, runData]
    exact (stepData_fuel hnm i e).bind fun e' => .ite (.refl _) (runData_fuel hnm is e')

theorem parLt_set {o o' : Org} {id : Nat} {e old : Exec} (hpl : ParLt o.execs) (hk : Keeps o o' id) (he : o.execs[id]? = some e)
    (hold : o'.execs[id]? = some old) (hpar : old.parent = e.parent) (hlen : o'.execs.length = o.execs.length) : ParLt o'.execs := by
  intro j x p hj hp
  by_cases hij : j = id
  · subst hij
    rw [hold] at hj; cases hj
    exact hpl _ _ _ he (by rw [← hpar, hp])
  · rw [hk.same j hij (by rw [← hlen]; exact (List.getElem?_eq_some_iff.1 hj).1)] at hj
    exact hpl _ _ _ hj hp

/-- The answer of a successful executor. -/
theorem answer_eq {o o' : Org} {id : Nat} {e old : Exec} {p L fuel} (hpl : ParLt o.execs) (hk : Keeps o o' id) (he : o.execs[id]? = some e)
    (hs : e.state = .running)
    (hold : o'.execs[id]? = some old) (hpar : old.parent = e.parent) (hlen : o'.execs.length = o.execs.length)
    (hp : e.parent = some p) (hc : RChain o p L) :
    o'.answer fuel id = Org.renderSubs (stringRep (preOf o.execs e) old.hp o'.st L fuel false) L [] := by
  have hpre : preOf o'.execs old = preOf o.execs e :=
    preOf_congr hpl hpar (fun p hp => hpl _ _ _ he hp)
      (fun j hj => hk.same j (by omega) (by have := (List.getElem?_eq_some_iff.1 he).1; omega))
  have hc' := (hc.keeps hk (by intro e' he'; rw [he] at he'; cases he'; rw [hs]; simp)).collect
    (parLt_set hpl hk he hold hpar hlen) (p + 1) (Nat.lt_succ_self p)
  simp only [Org.answer, Org.exec, hold, orFault_some, ok_bind, hpar, hp, hc', hpre]

theorem FrsOK.sems {st I g H size fs} (h : FrsOK st I g H size fs) :
    ∀ fr ∈ fs, ∃ st I yOf ny S, FrameSem st I yOf ny S fr.codes fr.atoms := by
  induction h with
  | @query fr h1 h2 =>
    intro f hf
    simp only [List.mem_singleton] at hf; subst hf
    exact ⟨_, _, _, _, _, h2.sem⟩
  | @cons fr fs h1 h2 h3 _ ih =>
    intro f hf
    rcases List.mem_cons.1 hf with rfl | hf
    · exact ⟨_, _, _, _, _, h3.sem⟩
    · exact ih f hf

theorem QInfo.mono {X : Ctx} {H H' : HV} {size size' fs L} (h : QInfo X H size fs L) (m : ModLe X.I H H') (hs : size ≤ size') :
    QInfo X H' size' fs L := by
  obtain ⟨fq, done, h1, h2, h3, h4, h5⟩ := h
  exact ⟨fq, done, h1, h2, h3, h4, fun p hp => ⟨Nat.lt_of_lt_of_le (h5 p hp).1 hs, (h5 p hp).2.modLe m⟩⟩

theorem QInfo.push {X : Ctx} {H : HV} {size fr fs L} (h : QInfo X H size fs L) (hne : fs ≠ []) : QInfo X H size (pushFr X.g fr fs) L := by
  obtain ⟨fq, done, h1, h2⟩ := h
  obtain ⟨f, g1, g2⟩ := getLast?_pushFr (g := X.g) (fr := fr) (fs := fs) (.inr hne)
  refine ⟨fq, done, ?_, h2⟩
  rw [g1]
  cases fs with
  | nil => exact absurd rfl hne
  | cons a l => rw [List.getLast?_cons_cons, h1] at g2; rw [g2]

/-- A turn of an executor whose next step is the head of a clause. -/
theorem step_user {X : Ctx} {o : Org} (inv : o.Inv) (hst : o.st = X.st) (hgen : o.gen = X.g)
    {fuel id q e f ps fs r L} (hq : o.queue = id :: q) (hp : Pending X o id e (.head f ps fs r) L) {cl} (hcl : cl ∈ X.P)
    (hf : cl.head.fv = f) (hs : RuleSem X.st X.I r cl) :
    (o.turn fuel = .error .hang ∧ MayHang X.I fuel (e.hp.at? (preOf o.execs e)) ps (atomArgs cl.head)) ∨ ∃ o', Base o o' id ∧ o'.calls = o.calls ∧
      ((o.turn fuel = .ok (o', .continue) ∧ o'.queue = q ∧ o'.execs.length = o.execs.length ∧
        ∀ (D : Type) (A : Alg D) (σ : Nat → D) ρ, Free (toIAlg A X.I) (ValidCell X.st) →
          Mod (toIAlg A X.I) (e.hp.at? (preOf o.execs e)) σ → gAtom f (ps.map σ) ≠ cl.head.inst A ρ) ∨
      (∃ e' fr' fs', o.turn fuel = .ok (o', .continue) ∧ o'.queue = q ++ [o.execs.length] ∧ o'.execs.length = o.execs.length + 1 ∧
        Pending X o' o.execs.length e' (.res false fr' fs') L ∧ (∀ f ∈ fr' :: fs', f ∈ fs ∨ f.atoms = cl.body) ∧
        (fr' :: fs').flatMap Fr.atoms = cl.body ++ fs.flatMap Fr.atoms ∧ (∃ frn, fr' :: fs' = pushFr X.g frn fs ∧ frn.query = false ∧ frn.atoms = cl.body ∧
          (frn.ny ≠ 0 ↔ ∃ v, SharedVar true (cl.head :: cl.body) v) ∧ (frn.codes = [] → frn.atoms = [])) ∧
        (∀ (D : Type) (A : Alg D) (σ : Nat → D) ρq gs, Mod (toIAlg A X.I) (e'.hp.at? (preOf o'.execs e')) σ → Goals A σ ρq (fr' :: fs') gs →
          ∃ ρ gs', gs = cl.body.map (Node.inst A ρ) ++ gs' ∧ Mod (toIAlg A X.I) (e.hp.at? (preOf o.execs e)) σ ∧ Goals A σ ρq fs gs' ∧
            gAtom f (ps.map σ) = cl.head.inst A ρ) ∧
        ∀ (D : Type) (A : Alg D) (σ : Nat → D) ρq gs ρ, Free (toIAlg A X.I) (ValidCell X.st) →
          Mod (toIAlg A X.I) (e.hp.at? (preOf o.execs e)) σ → Goals A σ ρq fs gs → gAtom f (ps.map σ) = cl.head.inst A ρ →
          ∃ σ', Mod (toIAlg A X.I) (e'.hp.at? (preOf o'.execs e')) σ' ∧
            Goals A σ' ρq (fr' :: fs') (cl.body.map (Node.inst A ρ) ++ gs)) ∨
      (∃ pre hp', o.turn fuel = (Org.renderSubs (stringRep pre hp' X.st L fuel false) L [] >>= fun bs => .ok (o', .answer bs)) ∧
        o'.queue = q ∧ o'.execs.length = o.execs.length ∧ Final X (hp'.at? pre) hp'.size L ∧ (∀ fr ∈ fs, fr.atoms = []) ∧ cl.body = [] ∧
        (∀ (D : Type) (A : Alg D) (σ : Nat → D), Mod (toIAlg A X.I) (hp'.at? pre) σ → ∃ ρq ρ, (∀ p ∈ L, σ p.2 = ρq p.1) ∧
          Mod (toIAlg A X.I) (e.hp.at? (preOf o.execs e)) σ ∧ Goals A σ ρq fs [] ∧ gAtom f (ps.map σ) = cl.head.inst A ρ) ∧
        (∀ (D : Type) (A : Alg D) (σ : Nat → D) ρq gs ρ, Free (toIAlg A X.I) (ValidCell X.st) →
          Mod (toIAlg A X.I) (e.hp.at? (preOf o.execs e)) σ → Goals A σ ρq fs gs → gAtom f (ps.map σ) = cl.head.inst A ρ →
          ∃ σ', Mod (toIAlg A X.I) (hp'.at? pre) σ' ∧ ∀ p ∈ L, σ' p.2 = ρq p.1) ∧
        ∀ fuel', fuel ≤ fuel' → ∃ o2, o.turn fuel' = (Org.renderSubs (stringRep pre hp' X.st L fuel' false) L [] >>= fun bs => .ok (o2, .answer bs)))) := by
  obtain ⟨hrun, _, rest, hcodes, C⟩ := hp.exec
  subst hf
  obtain ⟨hc, ds, frn0, tl, rfl, h1, h2, h3, h4, h5⟩ := head_run hs C hrun
  have hcodes' : e.codes = ⟨X.g, hc⟩ :: (frn0.tcodes X.g ++ codesOf X.g fs) := by
    rw [hcodes, C.rest, List.map_cons, h1]; rfl
  have hstale := stale_false hgen (t := ⟨X.g, hc⟩) (.inr rfl)
  rcases h5 fuel with hang | ⟨e1, r1, r2, r3, r4⟩
  · refine .inl ⟨?_, hang.2⟩
    replace hang := hang.1
    have htu := Org.turn_eq (fuel := fuel) hq hp.get hrun inv.parLt hcodes' h2 h4 rfl
    rw [← hst] at hang
    rw [htu]
    simp only [Org.code, hstale, Bool.false_eq_true, if_false, ok_bind, hang]
    rfl
  · right
    rw [← hst] at r1
    obtain ⟨o', old, t1, t2, t3, t4, t5, t6, t7, t8, t9⟩ := proceed_turn hq hp.get hrun inv.parLt hcodes' hstale h2 h4 r1
    refine ⟨o', t1, t2, ?_⟩
    rcases r2 with hr | hr
    · right
      obtain ⟨frn, k1, E, k2⟩ := r3 hr
      have hfs : FrsOK X.st X.I X.g (e1.hp.at? (preOf o.execs e)) e1.hp.size fs := C.frs.mono E.modLe E.size
      have sound : ∀ (D : Type) (A : Alg D) (σ : Nat → D) (ρq : Name → D) gs, Mod (toIAlg A X.I) (e1.hp.at? (preOf o.execs e)) σ →
          Goals A σ ρq (pushFr X.g frn fs) gs → (∀ x ∈ gs, Proves A X.P x) → ∀ a ∈ X.qatoms, Proves A X.P (a.inst A ρq) := by
        intro D A σ ρq gs m hg hpr
        obtain ⟨ρ, gs', rfl, g1, g2⟩ := E.sound D A σ ρq gs m hg
        refine hp.sound D A σ ρq (gAtom cl.head.fv (ps.map σ) :: gs') (E.modLe D A σ m) ⟨gs', rfl, g1⟩ ?_
        intro x hx
        rcases List.mem_cons.1 hx with rfl | hx
        · rw [g2]
          exact .clause hcl fun b hb => hpr _ (List.mem_append_left _ (List.mem_map_of_mem hb))
        · exact hpr x (List.mem_append_right _ hx)
      have hall := allDealloc_codes (o := o) (frs := frn :: fs) (by
        intro fr hfr
        rcases List.mem_cons.1 hfr with rfl | hfr
        · exact ⟨_, _, _, _, _, E.sem⟩
        · exact hfs.sems fr hfr)
      obtain ⟨bb, b1, b2⟩ := hall
      rw [hgen] at b1
      have hts : frn0.tcodes X.g ++ codesOf X.g fs = codesOf X.g (frn :: fs) := by simp [k1]
      rw [← hts] at b1
      have hinfo : QInfo X (e1.hp.at? (preOf o.execs e)) e1.hp.size fs L := QInfo.mono hp.info E.modLe E.size
      cases bb with
      | false =>
        left
        obtain ⟨j1, j2, j3, j4, e', m1, m2, m3, m4, m5, m6, m7⟩ := t9 hr b1
        have hview : e'.hp.at? (preOf o'.execs e') = e1.hp.at? (preOf o.execs e) := by
          rw [m3]
          refine at?_empty E.good.dom ?_
          rw [preOf_child inv.parLt t1.keeps hp.get t3 t4 m2, t5]
        have hsize : e'.hp.size = e1.hp.size := by rw [m3]; rfl
        have hlive : ∃ f ∈ pushFr X.g frn fs, f.atoms ≠ [] := by
          have : ¬ ∀ fr ∈ frn :: fs, fr.atoms = [] := by
            intro hh
            have := b2.2 hh
            cases this
          by_contra hno
          apply this
          intro fr hfr
          by_contra hne
          apply hno
          rcases List.mem_cons.1 hfr with rfl | hfr
          · refine ⟨fr, ?_, hne⟩
            unfold pushFr
            rw [if_neg]
            · simp
            · rintro ⟨q1, q2⟩
              exact hne (E.sem.nil_iff.1 (Fr.tcodes_nil q1 q2).1)
          · refine ⟨fr, ?_, hne⟩
            unfold pushFr
            split
            · exact hfr
            · simp [hfr]
        obtain ⟨fr', fs', n1, n2⟩ := E.resume (pre' := preOf o'.execs e') (e' := e') C.frs hview hsize m4 m5 (by rw [m6, k1]) m7 hlive
        refine ⟨e', fr', fs', j1, j2, j3, ⟨m1, n2, ?_, ?_, ?_, by rw [m3]⟩, fun f hf => ?_, ?_, ?_, ?_, ?_⟩
        · obtain ⟨p, c1, c2⟩ := hp.chain
          refine ⟨id, old, p, m2, t3, j4, by rw [t4, c1], c2.keeps t1.keeps ?_⟩
          intro e'' he''
          rw [hp.get] at he''; cases he''
          rw [hrun]; simp
        · rw [hview, hsize]
          show QInfo X _ _ (fr' :: fs') L
          rw [← n1]
          exact hinfo.push hfs.ne_nil
        · rw [hview]
          intro D A σ ρq gs m hg
          exact sound D A σ ρq gs m (by rw [n1]; exact hg)
        · rw [← n1] at hf
          rw [← E.atoms]
          exact mem_pushFr hf
        · rw [← n1, pushFr_atoms (fun h => E.sem.nil_iff.1 h), E.atoms]
        · exact ⟨frn, n1.symm, E.query, E.atoms, E.keeps, E.sem.nil_iff.1⟩
        · intro D A σ ρq gs m hg
          rw [hview] at m
          rw [← n1] at hg
          obtain ⟨ρ, gs', g0, g1, g2⟩ := E.sound D A σ ρq gs m hg
          exact ⟨ρ, gs', g0, E.modLe D A σ m, g1, g2⟩
        · intro D A σ ρq gs ρ hfree m hg he
          obtain ⟨σ', _, s1, s2⟩ := k2 D A σ ρq gs ρ hfree m hg he
          rw [hview, ← n1]
          exact ⟨σ', s1, s2⟩
      | true =>
        right
        obtain ⟨j1, j2, j3⟩ := t8 hr b1
        have hn := b2.1 rfl
        have hna : frn.atoms = [] := hn frn (by simp)
        have hn' : ∀ fr ∈ fs, fr.atoms = [] := fun fr hfr => hn fr (by simp [hfr])
        obtain ⟨F, cov, back⟩ := final_of E.good hinfo hfs hn' (by
          intro D A σ ρq m hg
          refine sound D A σ ρq [] m ?_ (by simp)
          rw [goals_push (fun _ => hna)]
          exact Goals.add_nil hna E.query hg)
        obtain ⟨p, c1, c2⟩ := hp.chain
        refine ⟨preOf o.execs e, e1.hp, ?_, j2, j3, F, hn', by rw [← E.atoms]; exact hna, ?_, ?_, ?_⟩
        · rw [j1, answer_eq inv.parLt t1.keeps hp.get hrun t3 t4 j3 c1 c2, t5, t1.st, hst]
        · intro D A σ m
          obtain ⟨ρq, g1, g2⟩ := back D A σ m
          obtain ⟨ρ, gs', g3, g4, g5⟩ := E.sound D A σ ρq [] m (by
            rw [goals_push (fun _ => hna)]
            exact Goals.add_nil hna E.query g1)
          have : gs' = [] := (List.append_eq_nil_iff.1 g3.symm).2
          subst this
          exact ⟨ρq, ρ, g2, E.modLe D A σ m, g4, g5⟩
        · intro D A σ ρq gs ρ hfree m hg he
          obtain ⟨σ', _, s1, s2⟩ := k2 D A σ ρq gs ρ hfree m hg he
          rw [goals_push (fun _ => hna)] at s2
          exact ⟨σ', s1, cov D A σ' ρq _ s1 (Goals.drop_nil hna s2)⟩
        · intro fuel' hle
          have r1' := (runData_fuel hle ds _ (by rw [r1]; simp)).trans r1
          obtain ⟨o2, old2, u1, _, u3, u4, u5, _, _, u8, _⟩ := proceed_turn hq hp.get hrun inv.parLt hcodes' hstale h2 h4 r1'
          obtain ⟨v1, v2, v3⟩ := u8 hr b1
          exact ⟨o2, by rw [v1, answer_eq inv.parLt u1.keeps hp.get hrun u3 u4 v3 c1 c2, u5, u1.st, hst]⟩
    · left
      obtain ⟨j1, j2, j3⟩ := t6 hr
      refine ⟨j1, j2, j3, fun D A σ ρ hfree m he => ?_⟩
      have := r4 D A σ ρ hfree m he
      rw [hr] at this
      cases this

theorem BHolds.proves {D} {A : Alg D} {P : List Clause} {b : Builtin} {vs : List D} (h : BHolds A b vs) :
    Proves A P (gAtom ⟨b.name, 2⟩ vs) := by
  cases b with
  | is => obtain ⟨v, d, rfl, hv⟩ := h; exact .is hv
  | eq => obtain ⟨d, rfl⟩ := h; exact .eq
  | neq => obtain ⟨d, e, rfl⟩ := h; exact .neq

/-- The code of a built-in predicate without its `proceed`. -/
def builtinData (b : Builtin) : List Instr := [.getVariable 2 0, .getVariable 3 1, .builtin b 2 3]

/-- A turn of an executor whose next step is a built-in predicate, by what the predicate does. -/
theorem builtin_turn {X : Ctx} (ok : X.OK) {o : Org} (inv : o.Inv) (hst : o.st = X.st) (hgen : o.gen = X.g)
    {fuel id q e ps fs L} {b : Builtin} {sub src} (hq : o.queue = id :: q)
    (hp : Pending X o id e (.head ⟨b.name, 2⟩ ps fs (builtinRule b sub src)) L) :
    match runData (preOf o.execs e) fuel X.st (builtinData b) { e with regs := Org.resize 4 e.regs } with
    | .error x => o.turn fuel = .error x
    | .ok e1 => ∃ o', Base o o' id ∧ o'.calls = o.calls ∧
      ((e1.state = .fail ∧ o.turn fuel = .ok (o', .continue) ∧ o'.queue = q ∧ o'.execs.length = o.execs.length) ∨
      (∃ err, e1.state = .rtErr ∧ e1.err = some err ∧ o.turn fuel = .ok (o', .error err) ∧ o'.queue = q ∧ o'.execs.length = o.execs.length) ∨
      (∃ e' fr' fs', e1.state = .running ∧ o.turn fuel = .ok (o', .continue) ∧ o'.queue = q ++ [o.execs.length] ∧
        o'.execs.length = o.execs.length + 1 ∧ fs = fr' :: fs' ∧ Pending X o' o.execs.length e' (.res false fr' fs') L ∧
        e'.hp.at? (preOf o'.execs e') = e1.hp.at? (preOf o.execs e)) ∨
      (e1.state = .running ∧
        o.turn fuel = (Org.renderSubs (stringRep (preOf o.execs e) e1.hp X.st L fuel false) L [] >>= fun bs => .ok (o', .answer bs)) ∧
        o'.queue = q ∧ o'.execs.length = o.execs.length ∧ Final X (e1.hp.at? (preOf o.execs e)) e1.hp.size L ∧ (∀ fr ∈ fs, fr.atoms = []) ∧
        (∀ (D : Type) (A : Alg D) (σ : Nat → D) (ρq : Name → D) gs, Mod (toIAlg A X.I) (e1.hp.at? (preOf o.execs e)) σ → Goals A σ ρq fs gs →
          ∀ p ∈ L, σ p.2 = ρq p.1) ∧
        ∀ (D : Type) (A : Alg D) (σ : Nat → D), Mod (toIAlg A X.I) (e1.hp.at? (preOf o.execs e)) σ →
          ∃ ρq, Goals A σ ρq fs [] ∧ ∀ p ∈ L, σ p.2 = ρq p.1)) := by
  obtain ⟨hrun, _, rest, hcodes, C⟩ := hp.exec
  have hcodes' : e.codes = ⟨X.g, ⟨4, [.getVariable 2 0, .getVariable 3 1, .builtin b 2 3, .proceed], sub, src, false⟩⟩ :: codesOf X.g fs := by
    rw [hcodes, C.rest]; rfl
  have hstale := stale_false hgen (t := ⟨X.g, ⟨4, [.getVariable 2 0, .getVariable 3 1, .builtin b 2 3, .proceed], sub, src, false⟩⟩) (.inr rfl)
  have hds : ∀ d ∈ builtinData b, d.isData = true := by simp [builtinData, Instr.isData]
  cases hr' : runData (preOf o.execs e) fuel X.st (builtinData b) { e with regs := Org.resize 4 e.regs } with
  | error x =>
    have hr := hr'
    rw [← hst] at hr
    have htu := Org.turn_eq (fuel := fuel) (ds := builtinData b) (c := .proceed) hq hp.get hrun inv.parLt hcodes' rfl hds rfl
    simp only
    rw [htu]
    simp only [Org.code, hstale, Bool.false_eq_true, if_false, ok_bind, hr]
    rfl
  | ok e1 =>
    have hr := hr'
    rw [← hst] at hr
    obtain ⟨o', old, t1, t2, t3, t4, t5, t6, t7, t8, t9⟩ := proceed_turn
      (ds := builtinData b) hq hp.get hrun inv.parLt hcodes' hstale rfl hds hr
    refine ⟨o', t1, t2, ?_⟩
    rcases (runData_frame hr).state hrun with hs | hs | hs
    · right; right
      have B := builtin_run ok.st ok.interp C hrun hr' hs
      have hfs : FrsOK X.st X.I X.g (e1.hp.at? (preOf o.execs e)) e1.hp.size fs := C.frs.mono B.modLe B.size
      have hinfo : QInfo X (e1.hp.at? (preOf o.execs e)) e1.hp.size fs L := QInfo.mono hp.info B.modLe B.size
      have sound : ∀ (D : Type) (A : Alg D) (σ : Nat → D) (ρq : Name → D) gs, Mod (toIAlg A X.I) (e1.hp.at? (preOf o.execs e)) σ →
          Goals A σ ρq fs gs → (∀ x ∈ gs, Proves A X.P x) → ∀ a ∈ X.qatoms, Proves A X.P (a.inst A ρq) := by
        intro D A σ ρq gs m hg hpr
        refine hp.sound D A σ ρq (gAtom ⟨b.name, 2⟩ (ps.map σ) :: gs) (B.modLe D A σ m) ⟨gs, rfl, hg⟩ ?_
        intro x hx
        rcases List.mem_cons.1 hx with rfl | hx
        · exact (B.sound D A σ m).proves
        · exact hpr x hx
      obtain ⟨bb, b1, b2⟩ := allDealloc_codes (o := o) hfs.sems
      rw [hgen] at b1
      cases bb with
      | false =>
        left
        obtain ⟨j1, j2, j3, j4, e', m1, m2, m3, m4, m5, m6, m7⟩ := t9 hs b1
        have hview : e'.hp.at? (preOf o'.execs e') = e1.hp.at? (preOf o.execs e) := by
          rw [m3]
          refine at?_empty B.good.dom ?_
          rw [preOf_child inv.parLt t1.keeps hp.get t3 t4 m2, t5]
        have hsize : e'.hp.size = e1.hp.size := by rw [m3]; rfl
        have hlive : ∃ f ∈ fs, f.atoms ≠ [] := by
          by_contra hno
          have : false = true := b2.2 fun fr hfr => by
            by_contra hne
            exact hno ⟨fr, hfr, hne⟩
          cases this
        obtain ⟨fr', fs', n1, n2⟩ := FrsOK.resume (pre := preOf o'.execs e') (e := e') (by rw [hview, hsize]; exact hfs)
          (by rw [hview, hsize]; exact B.good) m6 (by rw [m5, B.envs, C.envs]) hlive m7
        subst n1
        refine ⟨e', fr', fs', hs, j1, j2, j3, rfl, ⟨m1, n2, ?_, ?_, ?_, by rw [m3]⟩, hview⟩
        · obtain ⟨p, c1, c2⟩ := hp.chain
          refine ⟨id, old, p, m2, t3, j4, by rw [t4, c1], c2.keeps t1.keeps ?_⟩
          intro e'' he''
          rw [hp.get] at he''; cases he''
          rw [hrun]; simp
        · rw [hview, hsize]
          exact hinfo
        · rw [hview]
          exact sound
      | true =>
        right
        obtain ⟨j1, j2, j3⟩ := t8 hs b1
        have hn := b2.1 rfl
        obtain ⟨F, cov, back⟩ := final_of B.good hinfo hfs hn (by
          intro D A σ ρq m hg
          exact sound D A σ ρq [] m hg (by simp))
        obtain ⟨p, c1, c2⟩ := hp.chain
        refine ⟨hs, ?_, j2, j3, F, hn, cov, back⟩
        rw [j1, answer_eq inv.parLt t1.keeps hp.get hrun t3 t4 j3 c1 c2, t5, t1.st, hst]
    · left; exact ⟨hs, t6 hs⟩
    · right; left
      obtain ⟨err, j0, j1, j2, j3⟩ := t7 hs.1
      exact ⟨err, hs.1, j0, j1, j2, j3⟩

/-- A turn of an executor whose next step is a built-in predicate. -/
theorem step_builtin {X : Ctx} (ok : X.OK) {o : Org} (inv : o.Inv) (hst : o.st = X.st) (hgen : o.gen = X.g)
    {fuel id q e ps fs L} {b : Builtin} {sub src} (hq : o.queue = id :: q)
    (hp : Pending X o id e (.head ⟨b.name, 2⟩ ps fs (builtinRule b sub src)) L) :
    (∃ x, o.turn fuel = .error x ∧ (b ≠ .is → x = .hang)) ∨ ∃ o', Base o o' id ∧ o'.calls = o.calls ∧
      ((o.turn fuel = .ok (o', .continue) ∧ o'.queue = q ∧ o'.execs.length = o.execs.length) ∨
      (∃ err, o.turn fuel = .ok (o', .error err) ∧ o'.queue = q ∧ o'.execs.length = o.execs.length ∧ b = .is) ∨
      (∃ e' fr' fs', o.turn fuel = .ok (o', .continue) ∧ o'.queue = q ++ [o.execs.length] ∧ o'.execs.length = o.execs.length + 1 ∧
        fs = fr' :: fs' ∧ Pending X o' o.execs.length e' (.res false fr' fs') L) ∨
      (∃ pre hp', o.turn fuel = (Org.renderSubs (stringRep pre hp' X.st L fuel false) L [] >>= fun bs => .ok (o', .answer bs)) ∧
        o'.queue = q ∧ o'.execs.length = o.execs.length ∧ Final X (hp'.at? pre) hp'.size L ∧ (∀ fr ∈ fs, fr.atoms = []))) := by
  have hbt := builtin_turn (fuel := fuel) ok inv hst hgen hq hp
  obtain ⟨hrun, _, rest, hcodes, C⟩ := hp.exec
  have tot : b ≠ .is → runData (preOf o.execs e) fuel X.st (builtinData b) { e with regs := Org.resize 4 e.regs } = .error .hang ∨
    ∃ e1, runData (preOf o.execs e) fuel X.st (builtinData b) { e with regs := Org.resize 4 e.regs } = .ok e1 ∧
      (e1.state = .running ∨ e1.state = .fail) := fun hb => builtin_total (fuel := fuel) hb C hrun
  cases hr : runData (preOf o.execs e) fuel X.st (builtinData b) { e with regs := Org.resize 4 e.regs } with
  | error x =>
    rw [hr] at hbt tot
    refine .inl ⟨x, hbt, fun hb => ?_⟩
    rcases tot hb with h | ⟨e1, h, _⟩ <;> cases h
    rfl
  | ok e1 =>
    rw [hr] at hbt tot
    obtain ⟨o', B, hc, h⟩ := hbt
    refine .inr ⟨o', B, hc, ?_⟩
    rcases h with ⟨_, h⟩ | ⟨err, hs, _, h1, h2, h3⟩ | ⟨e', fr', fs', _, h1, h2, h3, h4, h5, _⟩ | ⟨_, h1, h2, h3, h4, h5, _⟩
    · exact .inl h
    · refine .inr (.inl ⟨err, h1, h2, h3, ?_⟩)
      by_contra hb
      rcases tot hb with h | ⟨e2, h, h'⟩ <;> cases h
      rw [hs] at h'
      rcases h' with h' | h' <;> cases h'
    · exact .inr (.inr (.inl ⟨e', fr', fs', h1, h2, h3, h4, h5⟩))
    · exact .inr (.inr (.inr ⟨_, _, h1, h2, h3, h4, h5⟩))

end PBfs
