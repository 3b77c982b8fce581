import Verif.Proof.Pend4
import Verif.Proof.Grow
import Verif.Proof.Reach
import Verif.Spec.Session
/-! # What loaded programs and queries mean -/
namespace PBfs

/-- The rule `r` is the code of the clause, generated for a storage contained in `st`. -/
def CodeOf (ord : HashOrder) (bi : Bool) (st : Storage) (r : Rule) (cl : Clause) : Prop :=
  ∃ st0 st1, compileClause ord bi cl.head cl.body st0 = .ok (cl.head.fv, r, st1) ∧ StLe st1 st

theorem CodeOf.mono {ord bi st st' r cl} (h : CodeOf ord bi st r cl) (hs : StLe st st') : CodeOf ord bi st' r cl := by
  obtain ⟨a, b, h1, h2⟩ := h
  exact ⟨a, b, h1, h2.trans hs⟩

theorem forall₂_imp {α β} {R S : α → β → Prop} (h : ∀ a b, R a b → S a b) {l : List α} {l' : List β} (hl : List.Forall₂ R l l') :
    List.Forall₂ S l l' := by
  induction hl with
  | nil => exact .nil
  | cons h1 _ ih => exact .cons (h _ _ h1) ih

theorem forall₂_imp_mem {α β} {R S : α → β → Prop} {l : List α} {l' : List β} (h : ∀ a, ∀ b ∈ l', R a b → S a b)
    (hl : List.Forall₂ R l l') : List.Forall₂ S l l' := by
  induction hl with
  | nil => exact .nil
  | cons h1 _ ih => exact .cons (h _ _ (by simp) h1) (ih fun a b hb => h a b (by simp [hb]))

theorem forall₂_append {α β} {R : α → β → Prop} {l1 l2 : List α} {l1' l2' : List β} (h : List.Forall₂ R l1 l1')
    (h' : List.Forall₂ R l2 l2') : List.Forall₂ R (l1 ++ l2) (l1' ++ l2') := by
  induction h with
  | nil => exact h'
  | cons h1 _ ih => exact .cons h1 ih

/-- The rules of a compiled program: one per clause, in order. -/
theorem compileProgram_rules {ord : HashOrder} : ∀ {cs p st p' st'}, compileProgram ord cs p st = .ok (p', st') →
    StLe st st' ∧ (∀ cl ∈ cs, redefines cl.head = false) ∧
    ∀ f, ∃ rs, (p'.rules? f).getD [] = (p.rules? f).getD [] ++ rs ∧
      List.Forall₂ (CodeOf ord false st') rs (cs.filter (·.head.fv = f)) := by
  intro cs
  induction cs with
  | nil =>
    intro p st p' st' h
    simp only [compileProgram, pure_ok, Prod.mk.injEq] at h
    obtain ⟨rfl, rfl⟩ := h
    exact ⟨.refl _, by simp, fun f => ⟨[], by simp, .nil⟩⟩
  | cons c cs ih =>
    intro p st p' st' h
    simp only [compileProgram, bind_ok] at h
    obtain ⟨⟨f0, r, st1⟩, h1, h2⟩ := h
    obtain ⟨i1, i2, i3⟩ := ih h2
    have hf0 := (compileClause_shaped h1).1
    subst hf0
    have hg := (compileClause_grows ord false c.head c.body st).of_ok h1
    have hred : redefines c.head = false := by
      cases hb : c.body with
      | nil => rw [hb] at h1; simpa using (compileClause_fact h1).1
      | cons => rw [hb] at h1; simpa using (compileClause_rule h1).1
    refine ⟨hg.le.trans i1, ?_, fun f => ?_⟩
    · intro cl hcl
      rcases List.mem_cons.1 hcl with rfl | hcl
      · exact hred
      · exact i2 cl hcl
    · obtain ⟨rs, k1, k2⟩ := i3 f
      rw [Program.rules?_addRule] at k1
      by_cases hf : f = c.head.fv
      · subst hf
        refine ⟨r :: rs, by rw [k1]; simp, ?_⟩
        rw [List.filter_cons_of_pos (by simp)]
        exact .cons ⟨st, st1, h1, i1⟩ k2
      · rw [if_neg hf] at k1
        refine ⟨rs, k1, ?_⟩
        rw [List.filter_cons_of_neg (by simpa using Ne.symm hf)]
        exact k2

theorem mergeBuiltins_rules (p : Program) (f : FV) : ∀ b : Program, (b.map (·.1)).Nodup →
    (Org.mergeBuiltins b p).rules? f = match b.rules? f with
      | some rs => some rs
      | none => p.rules? f := by
  intro b
  induction b generalizing p with
  | nil => intro _; rfl
  | cons e b ih =>
    intro hn
    simp only [List.map_cons, List.nodup_cons] at hn
    have h1 : Org.mergeBuiltins (e :: b) p = Org.mergeBuiltins b (p.assign e.1 e.2) := rfl
    rw [h1, ih _ hn.2, Program.rules?_assign]
    have hc : Program.rules? (e :: b) f = if f = e.1 then some e.2 else Program.rules? b f := by
      unfold Program.rules?
      rw [List.lookup_cons]
      by_cases h : f = e.1
      · simp [h]
      · have : (f == e.1) = false := by simpa using h
        rw [this, if_neg h]
    rw [hc]
    by_cases hf : f = e.1
    · subst hf
      have hnone : Program.rules? b e.1 = none := by
        unfold Program.rules?
        rw [List.lookup_eq_none_iff]
        intro p hp
        have : e.1 ≠ p.1 := fun he => hn.1 (by rw [he]; exact List.mem_map_of_mem hp)
        simp [this]
      simp [hnone]
    · simp [hf]

/-! ## The built-in predicates -/

theorem compileBinary_rule {b : Builtin} {n : Name} {st f r st'} (h : compileBinary b n st = .ok (f, r, st')) :
    f = ⟨n, 2⟩ ∧ st' = st ∧ ∃ sub src, r = builtinRule b sub src := by
  have h0 : compileClause id true (binaryHead n) [] st =
      .ok (⟨n, 2⟩, [⟨4, [.getVariable 2 0, .getVariable 3 1, .proceed], [⟨n!"Lhs", 2, false⟩, ⟨n!"Rhs", 3, false⟩], binaryHead n, false⟩], st) := rfl
  simp only [compileBinary, h0, ok_bind] at h
  cases h
  exact ⟨rfl, rfl, _, _, rfl⟩

structure BuiltinsOK (b : Program) (st : Storage) : Prop where
  keys : b.map (·.1) = builtinFVs
  own : ∀ i : Builtin, ∃ sub src, b.rules? ⟨i.name, 2⟩ = some [builtinRule i sub src]
  append : ∃ rs, b.rules? ⟨n!"append", 3⟩ = some rs ∧ List.Forall₂ (CodeOf id true st) rs appendClauses

theorem BuiltinsOK.mono {b st st'} (h : BuiltinsOK b st) (hs : StLe st st') : BuiltinsOK b st' :=
  ⟨h.keys, h.own, by
    obtain ⟨rs, h1, h2⟩ := h.append
    exact ⟨rs, h1, forall₂_imp (fun _ _ h => h.mono hs) h2⟩⟩

theorem BuiltinsOK.none {b st} (h : BuiltinsOK b st) {f : FV} (hf : f ∉ builtinFVs) : b.rules? f = none := by
  unfold Program.rules?
  rw [List.lookup_eq_none_iff]
  intro p hp
  have : f ≠ p.1 := by
    rintro rfl
    rw [← h.keys] at hf
    exact hf (List.mem_map_of_mem hp)
  simp [this]

theorem builtins_ok {b st} (h : compileBuiltins ⟨[], []⟩ = .ok (b, st)) : BuiltinsOK b st ∧ st.functors.Nodup := by
  simp only [compileBuiltins, bind_ok, pure_ok] at h
  obtain ⟨⟨f1, r1, s1⟩, h1, ⟨f2, r2, s2⟩, h2, ⟨f3, r3, s3⟩, h3, h⟩ := h
  obtain ⟨rfl, rfl, sub1, src1, rfl⟩ := compileBinary_rule h1
  obtain ⟨rfl, rfl, sub2, src2, rfl⟩ := compileBinary_rule h2
  obtain ⟨rfl, rfl, sub3, src3, rfl⟩ := compileBinary_rule h3
  unfold appendClauses at h
  simp only [bind_ok, pure_ok, Prod.mk.injEq] at h
  obtain ⟨_, ⟨⟨f4, r4, s4⟩, h4, rfl⟩, ⟨f5, r5, s5⟩, h5, rfl, rfl⟩ := h
  have e4 := (compileClause_shaped h4).1
  have e5 := (compileClause_shaped h5).1
  have g4 := (compileClause_grows _ _ _ _ _).of_ok h4
  have g5 := (compileClause_grows _ _ _ _ _).of_ok h5
  subst e4 e5
  refine ⟨⟨rfl, fun i => by cases i <;> exact ⟨_, _, rfl⟩, ?_⟩, g5.nodup (g4.nodup (by simp))⟩
  refine ⟨[r4, r5], rfl, .cons ⟨_, _, h4, g5.le⟩ (.cons ⟨_, _, h5, .refl _⟩ .nil)⟩

/-! ## The program in force -/

/-- Well-formed, and the first body atom finds its registers intact. -/
def SafeProg (ord : HashOrder) (p : List Clause) : Prop := ∀ cl ∈ p, cl.wf ∧ safeClause ord cl.head cl.body = true

/-- What is known about an interpreter with the program `p`. -/
structure ServInv (o : Org) (ord : HashOrder) (p : List Clause) : Prop where
  builtins : BuiltinsOK o.builtins o.st
  nodup : o.st.functors.Nodup
  gen : o.gen ≠ 0
  redef : ∀ cl ∈ p, redefines cl.head = false
  rules : ∀ f, f ∉ builtinFVs → List.Forall₂ (CodeOf ord false o.st) ((o.program.rules? f).getD []) (p.filter (·.head.fv = f))
  own : ∀ f, f ∈ builtinFVs → o.program.rules? f = o.builtins.rules? f

theorem ServInv.grow {o o' : Org} {ord p} (h : ServInv o ord p) (hb : o'.builtins = o.builtins) (hp : o'.program = o.program)
    (hg : o'.gen = o.gen) (hst : Grow o.st o'.st) : ServInv o' ord p :=
  ⟨by rw [hb]; exact h.builtins.mono hst.le, hst.nodup h.nodup, by rw [hg]; exact h.gen, h.redef,
    fun f hf => by rw [hp]; exact forall₂_imp (fun _ _ h => h.mono hst.le) (h.rules f hf),
    fun f hf => by rw [hp, hb]; exact h.own f hf⟩

theorem builtinFVs_nodup : builtinFVs.Nodup := by decide

theorem loadProgram_ok {ord : HashOrder} {o o' : Org} {p'} (h : o.loadProgram ord (some p') = (o', .ok)) :
    ∃ q, compileProgram ord p' [] o.st = .ok (q, o'.st) ∧ o' = { o with st := o'.st, program := Org.mergeBuiltins o.builtins q, gen := o.gen + 1 } := by
  unfold Org.loadProgram at h
  simp only at h
  split at h
  · rename_i e st he
    cases e <;> simp [Org.Load.ofErr] at h
  · rename_i q st he
    simp only [Prod.mk.injEq, and_true] at h
    subst h
    exact ⟨q, he, rfl⟩

theorem loadProgram_rejected {ord : HashOrder} {o o' : Org} {parsed l} (h : o.loadProgram ord parsed = (o', l)) (hl : l ≠ .ok) :
    Grow o.st o'.st ∧ o' = { o with st := o'.st } := by
  unfold Org.loadProgram at h
  split at h
  · cases h; exact ⟨.refl _, rfl⟩
  · split at h
    · rename_i e st he
      cases h
      exact ⟨(compileProgram_grows _ _ _ _).of_err he, rfl⟩
    · cases h; exact absurd rfl hl

theorem loadQuery_st {ord : HashOrder} {o : Org} {parsed} : Grow o.st (o.loadQuery ord parsed).1.st ∧
    (o.loadQuery ord parsed).1.builtins = o.builtins ∧ (o.loadQuery ord parsed).1.program = o.program ∧
    (o.loadQuery ord parsed).1.gen = o.gen := by
  unfold Org.loadQuery
  simp only
  split
  · exact ⟨.refl _, rfl, rfl, rfl⟩
  · split
    · rename_i e st he
      exact ⟨(compileQuery_grows _ _ _).of_err he, rfl, rfl, rfl⟩
    · rename_i q st he
      exact ⟨(compileQuery_grows _ _ _).of_ok he, rfl, rfl, rfl⟩

theorem getAnswer_keeps {o o' : Org} {fuel clock r} (hi : RInv o) (h : o.getAnswer fuel clock = .ok (o', r)) :
    o'.builtins = o.builtins ∧ o'.program = o.program ∧ o'.st = o.st ∧ o'.gen = o.gen := by
  induction clock generalizing o with
  | nil =>
    unfold Org.getAnswer at h
    split at h <;> (simp only [pure_ok, Prod.mk.injEq] at h; rw [← h.1]; simp)
  | cons b clock ih =>
    unfold Org.getAnswer at h
    split at h
    · simp only [pure_ok, Prod.mk.injEq] at h; rw [← h.1]; simp
    · cases b with
      | true => simp only [pure_ok, Prod.mk.injEq] at h; rw [← h.1]; simp
      | false =>
        simp only [bind_ok] at h
        obtain ⟨⟨o1, t⟩, h1, h⟩ := h
        obtain ⟨k1, k2, k3, k4, _⟩ := turn_builtins hi.inv h1
        cases t with
        | «continue» =>
          obtain ⟨j1, j2, j3, j4⟩ := ih (hi.turn h1) h
          exact ⟨j1.trans k1, j2.trans k2, j3.trans k3, j4.trans k4⟩
        | answer => simp only [pure_ok, Prod.mk.injEq] at h; rw [← h.1]; exact ⟨k1, k2, k3, k4⟩
        | error => simp only [pure_ok, Prod.mk.injEq] at h; rw [← h.1]; exact ⟨k1, k2, k3, k4⟩

theorem Serves.inv {o ord p} (h : Serves o ord p) : ServInv o ord p := by
  induction h with
  | @init o ord h =>
    unfold Org.init at h
    simp only [bind_ok, pure_ok] at h
    obtain ⟨⟨b, st⟩, h1, rfl⟩ := h
    obtain ⟨b1, b2⟩ := builtins_ok h1
    refine ⟨b1, b2, by simp, by simp, fun f hf => ?_, fun f hf => rfl⟩
    rw [b1.none hf]; exact .nil
  | @program o o' ord ord' p p' _ hl ih =>
    obtain ⟨q, h1, h2⟩ := loadProgram_ok hl
    obtain ⟨c1, c2, c3⟩ := compileProgram_rules h1
    have hg := (compileProgram_grows _ _ _ _).of_ok h1
    have hb : o'.builtins = o.builtins := by rw [h2]
    have hp : o'.program = Org.mergeBuiltins o.builtins q := by rw [h2]
    have hm := fun f => mergeBuiltins_rules q f o.builtins (by rw [ih.builtins.keys]; exact builtinFVs_nodup)
    refine ⟨by rw [hb]; exact ih.builtins.mono hg.le, hg.nodup ih.nodup, by rw [h2]; simp, c2, fun f hf => ?_, fun f hf => ?_⟩
    · obtain ⟨rs, r1, r2⟩ := c3 f
      rw [hp, hm, ih.builtins.none hf]
      simp only
      rw [r1]
      exact r2
    · rw [hp, hm, hb]
      cases hh : o.builtins.rules? f with
      | some => rfl
      | none =>
        exfalso
        rw [← ih.builtins.keys] at hf
        unfold Program.rules? at hh
        rw [List.lookup_eq_none_iff] at hh
        obtain ⟨p, hp, rfl⟩ := List.mem_map.1 hf
        have := hh p hp
        simp at this
  | @rejected o o' ord ord' p parsed l _ hl hne ih =>
    obtain ⟨h1, h2⟩ := loadProgram_rejected hl hne
    exact ih.grow (by rw [h2]) (by rw [h2]) (by rw [h2]) h1
  | @query o ord ord' p parsed _ ih =>
    obtain ⟨h1, h2, h3, h4⟩ := loadQuery_st (ord := ord') (o := o) (parsed := parsed)
    exact ih.grow h2 h3 h4 h1
  | @answer o o' ord p fuel clock r hs ha ih =>
    obtain ⟨h1, h2, h3, h4⟩ := getAnswer_keeps hs.reach.rinv ha
    exact ih.grow h1 h2 h4 (by rw [h3]; exact .refl _)

theorem HashOrder.id_ok : HashOrder.OK id := fun l => .refl l

theorem append_safe : SafeProg id appendClauses := by
  intro cl hcl
  unfold appendClauses at hcl
  simp only [List.mem_cons, List.not_mem_nil, or_false] at hcl
  rcases hcl with rfl | rfl
  · exact ⟨by intro a ha; simp only [List.mem_cons, List.not_mem_nil, or_false] at ha; subst ha; exact ⟨rfl, rfl⟩, rfl⟩
  · refine ⟨?_, by decide +kernel⟩
    intro a ha
    simp only [List.mem_cons, List.not_mem_nil, or_false] at ha
    rcases ha with rfl | rfl <;> exact ⟨rfl, rfl⟩

theorem filter_inForce_user {p : List Clause} {f : FV} (hf : f ∉ builtinFVs) :
    (inForce p).filter (·.head.fv = f) = p.filter (·.head.fv = f) := by
  unfold inForce
  rw [List.filter_append, List.filter_filter]
  have : appendClauses.filter (·.head.fv = f) = [] := by
    rw [List.filter_eq_nil_iff]
    intro cl hcl
    simp only [decide_eq_true_eq]
    rintro rfl
    apply hf
    unfold appendClauses at hcl
    simp only [List.mem_cons, List.not_mem_nil, or_false] at hcl
    rcases hcl with rfl | rfl <;> decide
  rw [this, List.append_nil]
  congr 1
  funext cl
  by_cases h : cl.head.fv = f
  · subst h
    simp [hf]
  · simp [h]

theorem filter_inForce_append {p : List Clause} : (inForce p).filter (·.head.fv = ⟨n!"append", 3⟩) = appendClauses := by
  unfold inForce
  rw [List.filter_append, List.filter_filter]
  have h1 : appendClauses.filter (·.head.fv = ⟨n!"append", 3⟩) = appendClauses := rfl
  rw [h1]
  have h2 : p.filter (fun a => decide (a.head.fv = ⟨n!"append", 3⟩) && !builtinFVs.contains a.head.fv) = [] := by
    rw [List.filter_eq_nil_iff]
    intro cl hcl
    by_cases h : cl.head.fv = ⟨n!"append", 3⟩
    · rw [h]; decide
    · simp [h]
  rw [h2, List.nil_append]

theorem ServInv.progSem {o : Org} {ord p} (h : ServInv o ord p) (ho : ord.OK) (hs : SafeProg ord p) {st I} (hst : StOK st) (hI : Interp I st)
    (hle : StLe o.st st) : ProgSem st I o.program (inForce p) := by
  refine ⟨fun f hf => ?_, fun b => ?_⟩
  · by_cases hb : f ∈ builtinFVs
    · have : f = ⟨n!"append", 3⟩ := by
        unfold builtinFVs at hb
        simp only [List.mem_cons, List.not_mem_nil, or_false] at hb
        rcases hb with rfl | rfl | rfl | rfl
        · exact absurd rfl (hf .is)
        · exact absurd rfl (hf .eq)
        · exact absurd rfl (hf .neq)
        · rfl
      subst this
      rw [h.own _ hb, filter_inForce_append]
      obtain ⟨rs, h1, h2⟩ := h.builtins.append
      rw [h1]
      refine forall₂_imp_mem (fun r cl hcl hc => ?_) h2
      obtain ⟨s0, s1, k1, k2⟩ := hc
      have hsafe := append_safe cl hcl
      exact compileClause_sem hst hI HashOrder.id_ok k1 (k2.trans hle) hsafe.1 hsafe.2
    · rw [filter_inForce_user hb]
      refine forall₂_imp_mem (fun r cl hcl hc => ?_) (h.rules f hb)
      obtain ⟨s0, s1, k1, k2⟩ := hc
      have hsafe := hs cl (List.mem_filter.1 hcl).1
      exact compileClause_sem hst hI ho k1 (k2.trans hle) hsafe.1 hsafe.2
  · obtain ⟨sub, src, h1⟩ := h.builtins.own b
    refine ⟨sub, src, ?_⟩
    rw [h.own _ (by cases b <;> decide), h1]

/-! ## Running a query -/

/-- The context of a query. -/
def ctxOf (o : Org) (I : Int → FV) (p : List Clause) (atoms : List Node) : Ctx :=
  ⟨o.st, I, o.gen, o.program, inForce p, o.query, atoms⟩

/-- What index stands for what symbol. -/
def interpOf (st : Storage) (i : Int) : FV :=
  match (List.range st.functors.length).find? (fun k => toShort k = i) with
  | some k => st.functors.getD k ⟨[], 0⟩
  | none => ⟨[], 0⟩

theorem interpOf_ok {st : Storage} (h : StOK st) : Interp (interpOf st) st := by
  intro k fv hk
  have hlt := (List.getElem?_eq_some_iff.1 hk).1
  unfold interpOf
  cases hf : (List.range st.functors.length).find? (fun k' => toShort k' = toShort k) with
  | none =>
    rw [List.find?_eq_none] at hf
    exact absurd (by simp) (hf k (by simpa using hlt))
  | some k' =>
    have h1 := List.find?_some hf
    have h2 := List.mem_of_find?_eq_some hf
    simp only [decide_eq_true_eq] at h1
    simp only [List.mem_range] at h2
    have : k' = k := toShort_inj (by have := h.small; omega) (by have := h.small; omega) h1
    subst this
    simp [List.getD, hk]

theorem Work.init {o o' : Org} {ord ord' p atoms} (hs : Serves o ord p) (ho : ord.OK) (hsafe : SafeProg ord p) (ho' : ord'.OK)
    (hq : o.loadQuery ord' (some atoms) = (o', .ok)) (hw : ∀ a ∈ atoms, Node.goal a = true ∧ a.wf = true) (hne : atoms ≠ [])
    (hsm : o'.st.functors.length ≤ 65536) :
    (ctxOf o' (interpOf o'.st) p atoms).OK ∧ Work (ctxOf o' (interpOf o'.st) p atoms) o' ∧
      ∃ e k, Pending (ctxOf o' (interpOf o'.st) p atoms) o' 0 e k [] ∧ o'.queue = [0] ∧
        (∃ fr, k = .res true fr [] ∧ fr.query = true ∧ fr.atoms = atoms ∧ fr.ν = fun _ => none) ∧ e.hp.at? (preOf o'.execs e) = fun _ => none := by
  have inv := hs.inv
  have hr := hs.reach.rinv.query ord' (some atoms)
  have hss := loadQuery_st (ord := ord') (o := o) (parsed := some atoms)
  rw [hq] at hr hss
  obtain ⟨g1, g2, g3, g4⟩ := hss
  simp only at hr g1 g2 g3 g4
  have inv' : ServInv o' ord p := inv.grow g2 g3 g4 g1
  have hst : StOK o'.st := ⟨inv'.nodup, hsm⟩
  have hI := interpOf_ok hst
  have hc : ∃ st, compileQuery ord' atoms o.st = .ok (o'.query, st) ∧ o'.st = st ∧ o'.execs = [Org.initExec o'.query] ∧ o'.queue = [0] := by
    unfold Org.loadQuery at hq
    simp only at hq
    split at hq
    · rename_i e st he
      cases e <;> simp [Org.Load.ofErr] at hq
    · rename_i q st he
      simp only [Prod.mk.injEq, and_true] at hq
      subst hq
      exact ⟨st, he, rfl, rfl, rfl⟩
  obtain ⟨st, c1, c2, c3, c4⟩ := hc
  subst c2
  obtain ⟨c, cs, a, as, S, Q⟩ := compileQuery_sem hst hI ho' c1 (.refl _) hw hne
  have hget : o'.execs[0]? = some (Org.initExec o'.query) := by rw [c3]; rfl
  have hv : (Org.initExec o'.query).hp.at? (preOf o'.execs (Org.initExec o'.query)) = fun _ => none := by
    funext a
    show Hp.at? (fun _ => none) ⟨0, [], []⟩ a = none
    unfold Hp.at?
    simp
  let fr : Fr := ⟨(indexOf? · (permVars ord' false atoms)), (permVars ord' false atoms).length, true, [], fun _ => none, Sym.start, o'.query, atoms⟩
  have hp : Pending (ctxOf o' (interpOf o'.st) p atoms) o' 0 (Org.initExec o'.query) (.res true fr []) [] := by
    refine ⟨hget, ⟨rfl, rfl, _, _, c, cs, a, as, S, Q, rfl⟩, ⟨rfl, rfl⟩, ?_, ?_, rfl⟩
    · exact ⟨fr, [], rfl, rfl, rfl, by simp, by simp⟩
    · intro D A σ ρq gs m hg hpr x hx
      cases hg with
      | cons ρ h1 h2 h3 =>
        have := h2 rfl
        subst this
        cases h3
        exact hpr _ (by rw [List.append_nil]; exact List.mem_map_of_mem hx)
  refine ⟨⟨hst, hI, inv'.gen, inv'.progSem ho hsafe hst hI (.refl _)⟩, ⟨hr.inv, rfl, rfl, rfl, ?_⟩, _, _, hp, c4, ⟨fr, rfl, rfl, rfl, rfl⟩, hv⟩
  intro id hid
  rw [c4] at hid
  simp only [List.mem_singleton] at hid
  subst hid
  refine ⟨_, _, _, hp, ?_⟩
  intro f hf a ha
  simp only [List.mem_singleton] at hf
  subst hf
  exact .inl ha

end PBfs
