import Verif.Proof.Source
import Verif.Props.Defined
/-! # Source positions: the compiler -/
namespace PBfs

/-! ## Without positions -/

/-- Without the position of the error. -/
def unlocated : CRAt α → CR α
  | .ok a => .ok a
  | .error (e, _, st) => .error (e, st)

theorem unlocated_at? (i : Info) (m : CR α) : unlocated (at? i m) = m := by
  cases m with
  | ok a => rfl
  | error e => obtain ⟨e, st⟩ := e; rfl

theorem unlocated_bind (m : CRAt α) (k : α → CRAt β) : unlocated (m >>= k) = unlocated m >>= fun a => unlocated (k a) := by
  cases m with
  | ok a => rfl
  | error e => obtain ⟨e, i, st⟩ := e; rfl

theorem unlocated_pure (a : α) : unlocated (pure a : CRAt α) = pure a := rfl

theorem CR.map_eq {m : CR α} {f : α → β} : f <$> m = m >>= fun a => pure (f a) := by
  cases m <;> rfl

theorem bind_congr_ok {ε} {m : Except ε α} {k k' : α → Except ε β} (h : ∀ a, m = .ok a → k a = k' a) : m >>= k = m >>= k' := by
  cases m with
  | ok a => exact h a rfl
  | error e => rfl

theorem bind_assoc_ok {ε} {m : Except ε α} {k : α → Except ε β} {l : β → Except ε γ} : (m >>= k) >>= l = m >>= fun a => k a >>= l := by
  cases m <;> rfl

theorem compileQueryAtomsAt_unlocated (yOf : Name → Option Nat) (fq : Bool) : ∀ (as : List (Node × Info)) (pre : List Instr) (g : GenSt),
    (unlocated (compileQueryAtomsAt yOf pre fq as g) >>= fun x => pure (x.1.map (·.1), x.2)) = compileQueryAtoms yOf pre fq (as.map (·.1)) g := by
  intro as
  induction as with
  | nil => intro pre g; rfl
  | cons a as ih =>
    intro pre g
    simp only [compileQueryAtomsAt, List.map_cons, compileQueryAtoms, unlocated_bind, unlocated_at?, bind_assoc_ok]
    refine bind_congr_ok fun x _ => ?_
    rw [← ih]
    simp only [bind_assoc_ok]
    refine bind_congr_ok fun y _ => rfl

theorem compileQueryAt_unlocated (ord : HashOrder) (as : List (Node × Info)) (st : Storage) :
    (unlocated (compileQueryAt ord as st) >>= fun x => pure (x.1.map (·.1), x.2)) = compileQuery ord (as.map (·.1)) st := by
  simp only [compileQueryAt, compileQuery, unlocated_bind, bind_assoc_ok, ← compileQueryAtomsAt_unlocated]
  refine bind_congr_ok fun y _ => rfl

theorem map_noInfo (cs : List CAtom) : (cs.map (·, noInfo)).map (·.1) = cs := by simp [Function.comp_def]

theorem compileClauseAt_unlocated (ord : HashOrder) (c : ClauseAt) (st : Storage) :
    (unlocated (compileClauseAt ord c st) >>= fun x => pure (x.1, x.2.1.map (·.1), x.2.2)) =
      compileClause ord false c.clause.head c.clause.body st := by
  unfold compileClauseAt compileClause ClauseAt.clause
  simp only [Bool.not_false, Bool.true_and]
  by_cases hr : redefines c.head.1 = true
  · simp only [hr, if_true]; rfl
  · simp only [hr, Bool.false_eq_true, if_false]
    cases c.body with
    | nil =>
      simp only [List.map_nil, unlocated_bind, unlocated_at?, bind_assoc_ok]
      refine bind_congr_ok fun x _ => ?_
      simp only [unlocated_pure, pure_bind, List.map_append, List.map_cons, List.map_nil, map_noInfo]
    | cons b bs =>
      simp only [List.map_cons, unlocated_bind, unlocated_at?, bind_assoc_ok]
      refine bind_congr_ok fun x _ => ?_
      refine bind_congr_ok fun y _ => ?_
      rw [← compileQueryAtomsAt_unlocated, bind_assoc_ok]
      refine bind_congr_ok fun z _ => ?_
      simp only [unlocated_pure, pure_bind, List.map_append, List.map_cons, List.map_nil, map_noInfo]

theorem compileProgramAt_unlocated (ord : HashOrder) : ∀ (cs : List ClauseAt) (p : Program) (st : Storage),
    (unlocated (compileProgramAt ord cs st) >>= fun x => pure (x.1.foldl (fun p r => p.addRule r.1 (r.2.2.map (·.1))) p, x.2)) =
      compileProgram ord (cs.map (·.clause)) p st := by
  intro cs
  induction cs with
  | nil => intro p st; rfl
  | cons c cs ih =>
    intro p st
    simp only [compileProgramAt, List.map_cons, compileProgram, unlocated_bind, bind_assoc_ok, ← compileClauseAt_unlocated]
    refine bind_congr_ok fun x _ => ?_
    obtain ⟨f, r, st'⟩ := x
    simp only [pure_bind]
    rw [← ih]
    refine bind_congr_ok fun y _ => ?_
    rfl

/-! ## Where errors are reported -/

theorem at?_ok {i : Info} {m : CR α} {a} : at? i m = .ok a ↔ m = .ok a := by
  cases m with
  | ok b => simp [at?]
  | error e => obtain ⟨e, st⟩ := e; simp [at?]

theorem at?_error {i : Info} {m : CR α} {e j st} : at? i m = .error (e, j, st) ↔ m = .error (e, st) ∧ j = i := by
  cases m with
  | ok b => simp [at?]
  | error e => obtain ⟨e', st'⟩ := e; simp [at?]; grind

section
variable {yOf : Name → Option Nat} (yinj : ∀ n m y, yOf n = some y → yOf m = some y → n = m)
include yinj

/-- An error in a list of goals: the goal has a variable without value; and if nothing else counts as seen, it is the first. -/
theorem atomsAt_fault : ∀ {as : List (Node × Info)} {K pre fq g e i st}, Shares yOf K (as.map (·.1)) →
    (∀ v ∈ K, ∀ y, yOf v = some y → SReg.y y ∈ g.seen) →
    compileQueryAtomsAt yOf pre fq as g = .error (e, i, st) → e ≠ .outOfRange →
    ∃ gs a gs', as = gs ++ (a, i) :: gs' ∧ Node.buildable (Node.known K (gs.map (·.1))) a.builds = false ∧
      ((∀ v y, yOf v = some y → SReg.y y ∈ g.seen → v ∈ K) → (∀ x, SReg.x x ∉ g.seen) → Node.defined K (gs.map (·.1)) = true) := by
  intro as
  induction as with
  | nil => intro K pre fq g e i st _ _ h; cases h
  | cons a as ih =>
    intro K pre fq g e i st hs hK h he
    obtain ⟨a, j⟩ := a
    simp only [compileQueryAtomsAt, bind_err, at?_ok, at?_error] at h
    rcases h with ⟨h, rfl⟩ | ⟨⟨c, g2⟩, h1, h⟩
    · refine ⟨[], a, as, rfl, ?_, fun _ _ => rfl⟩
      unfold compileQueryAtom at h
      simp only [assignSingle_eq] at h
      rw [← Bool.not_eq_true]
      intro hb
      refine he (Only.bind (toQuery_fine yinj (K := K) ?_ hb) (fun _ _ => .pure _) e st h)
      intro v hv ha
      rw [placed_perm (hs.1 v ha hv)]
      exact hK v hv
    · unfold compileQueryAtom at h1
      simp only [assignSingle_eq, bind_ok, pure_ok] at h1
      obtain ⟨⟨is, g1⟩, h1, h3⟩ := h1
      cases h3
      rcases h with h | ⟨_, _, h⟩
      · obtain ⟨a1, a2⟩ := toQuery_places yinj h1
        obtain ⟨gs, b, gs', rfl, hb, hf⟩ := ih hs.2 (by
          intro v hv y hy
          simp only [mem_dropX]
          refine ⟨?_, y, rfl⟩
          rcases List.mem_append.1 hv with hv | hv
          · have := a2 v hv
            unfold placed at this
            rwa [hy] at this
          · exact a1 _ (hK v hv y hy)) h he
        refine ⟨(a, j) :: gs, b, gs', rfl, hb, fun hK' hx => ?_⟩
        have hpl : ∀ v ∈ Node.varss a.children, placed yOf ((assignAtom [] a).2.varX.lookup ·) g.seen v → v ∈ K := by
          intro v hv hp
          unfold placed at hp
          cases hy : yOf v with
          | some y => rw [hy] at hp; exact hK' v y hy hp
          | none => rw [hy] at hp; obtain ⟨x, _, hp⟩ := hp; exact absurd hp (hx x)
        obtain ⟨b1, b2⟩ := toQuery_exact yinj (K := K) (by simp) hpl h1
        simp only [List.map_cons, Node.defined, Bool.and_eq_true]
        refine ⟨b1, hf ?_ ?_⟩
        · intro v y hy hm
          simp only [mem_dropX] at hm
          rcases b2 v y hy hm.1 with h | h
          · exact List.mem_append.2 (.inr (hK' v y hy h))
          · exact List.mem_append.2 (.inl h)
        · intro x hm
          simp [mem_dropX] at hm
      · cases h

end

theorem compileQueryAt_fault {ord : HashOrder} (ho : ord.OK) {as : List (Node × Info)} {e i} {st st' : Storage}
    (h : compileQueryAt ord as st = .error (e, i, st')) (he : e ≠ .outOfRange) :
    ∃ gs a gs', as = gs ++ (a, i) :: gs' ∧ Node.buildable (Node.known [] (gs.map (·.1))) a.builds = false ∧ Node.defined [] (gs.map (·.1)) = true := by
  simp only [compileQueryAt, bind_err] at h
  rcases h with h | ⟨_, _, h⟩
  · obtain ⟨gs, a, gs', h1, h2, h3⟩ := atomsAt_fault yOf_inj (shares_query ho _) (by simp) h he
    exact ⟨gs, a, gs', h1, h2, h3 (by simp) (by simp)⟩
  · cases h

theorem toProgram_located {yOf head hs g e i j st} (h : at? i (toProgram yOf head hs g) = .error (e, j, st)) : e = .outOfRange :=
  toProgram_only e st (at?_error.1 h).1

theorem compileClauseAt_fault {ord : HashOrder} (ho : ord.OK) {c : ClauseAt} {e i} {st st' : Storage}
    (h : compileClauseAt ord c st = .error (e, i, st')) (he : e ≠ .outOfRange) :
    (e = .redefinition ∧ i = c.head.2 ∧ redefines c.head.1 = true) ∨
    (e = .undefinedVar ∧ redefines c.head.1 = false ∧ ∃ gs a gs', c.body = gs ++ (a, i) :: gs' ∧
      Node.buildable (Node.known (Node.varss c.head.1.children) (gs.map (·.1))) a.builds = false ∧
      (c.clause.apart = true → Node.defined (Node.varss c.head.1.children) (gs.map (·.1)) = true)) := by
  obtain ⟨info, ⟨head, hi⟩, body⟩ := c
  unfold compileClauseAt at h
  by_cases hr : redefines head = true
  · simp only [hr, if_true] at h
    cases h
    exact .inl ⟨rfl, rfl, hr⟩
  · refine .inr ?_
    have hu : e = .undefinedVar := by
      have h1 := compileClauseAt_unlocated ord ⟨info, (head, hi), body⟩ st
      unfold compileClauseAt at h1
      rw [h] at h1
      have := compileClause_onlyUndefined (ord := ord) (body := (ClauseAt.clause ⟨info, (head, hi), body⟩).body) (st := st) (show redefines head = false by simpa using hr) e st' h1.symm
      rcases this with this | this
      · exact absurd this he
      · exact this
    refine ⟨hu, by simpa using hr, ?_⟩
    simp only [hr, Bool.false_eq_true, if_false] at h
    cases body with
    | nil =>
      simp only [bind_err] at h
      rcases h with h | ⟨_, _, h⟩
      · exact absurd (toProgram_located h) he
      · cases h
    | cons b bs =>
      obtain ⟨b, bi⟩ := b
      obtain ⟨varX, e1, e2, e3, e4⟩ := pair_first head b
      have hsh := shares_clause ho head b (bs.map (·.1))
      have hper : ∀ v, indexOf? v (permVars ord true (head :: b :: bs.map (·.1))) = none → v ∈ Node.varss b.children →
          v ∉ (bs.map (·.1)).flatMap fun a => Node.varss a.children := by
        intro v hy hv hbs
        obtain ⟨a, ha, hva⟩ := List.mem_flatMap.1 hbs
        exact yOf_none ho hy (permVarsRaw_clause_first (.inr hv) ha hva)
      have yinj : ∀ n m y, indexOf? n (permVars ord true (head :: b :: bs.map (·.1))) = some y →
        indexOf? m (permVars ord true (head :: b :: bs.map (·.1))) = some y → n = m := yOf_inj
      have hpair : b.isCons = false → head.isCons = false → (assignPair head b).2.1.2 = (assignAtom (assignAtom [] head).2.varX b).2.varX := by
        intro h1 h2
        rw [assignPair_eq h2 h1]
      simp only [List.map_cons] at h
      generalize hyOf : (indexOf? · (permVars ord true (head :: b :: bs.map (·.1)))) = yOf at *
      replace yinj : ∀ n m y, yOf n = some y → yOf m = some y → n = m := by subst hyOf; exact yinj
      replace hper : ∀ v, yOf v = none → v ∈ Node.varss b.children → v ∉ (bs.map (·.1)).flatMap fun a => Node.varss a.children := by
        subst hyOf; exact hper
      simp only [e1, e2] at h hpair
      simp only [bind_err, at?_ok] at h
      rcases h with h | ⟨⟨is, g1⟩, h1, h⟩
      · exact absurd (toProgram_located h) he
      have hplaces : ∀ v ∈ Node.varss head.children, v ∈ Node.varss b.children →
          placed yOf ((assignAtom varX b).2.varX.lookup ·) (eraseStructRegs head (assignAtom [] head).1 g1.seen) v := by
        intro v hv hb
        obtain ⟨p1, p2⟩ := head_places yinj h1 hv
        unfold placed
        cases hy : yOf v with
        | some y => exact p1 y hy
        | none =>
          obtain ⟨r, hr⟩ := Option.isSome_iff_exists.1 ((head_lookup head).2 hv)
          exact ⟨r, e4 v hb r hr, p2 r hr⟩
      rcases h with h | ⟨⟨js, g2⟩, h2, h⟩
      · obtain ⟨h', rfl⟩ := at?_error.1 h
        refine ⟨[], b, bs, rfl, ?_, fun _ => rfl⟩
        rw [← Bool.not_eq_true]
        intro hb
        exact he (toQuery_fine yinj (K := Node.varss head.children) hplaces hb e st' h')
      rcases h with h | ⟨_, _, h⟩
      · obtain ⟨a1, a2⟩ := toQuery_places yinj h2
        obtain ⟨gs, a, gs', rfl, hb, hf⟩ := atomsAt_fault yinj hsh (by
          intro v hv y hy
          simp only [mem_dropX]
          refine ⟨?_, y, rfl⟩
          rcases List.mem_append.1 hv with hv | hv
          · have := a2 v hv
            unfold placed at this
            rwa [hy] at this
          · exact a1 _ ((head_places yinj h1 hv).1 y hy)) h he
        refine ⟨(b, bi) :: gs, a, gs', rfl, hb, fun hu => ?_⟩
        have hpl : ∀ v ∈ Node.varss b.children, placed yOf ((assignAtom varX b).2.varX.lookup ·) (eraseStructRegs head (assignAtom [] head).1 g1.seen) v →
            v ∈ Node.varss head.children := by
          intro v hv hp
          unfold placed at hp
          cases hy : yOf v with
          | some y => rw [hy] at hp; exact head_ymarks yinj h1 hy hp
          | none =>
            rw [hy] at hp
            obtain ⟨x, hx, hp⟩ := hp
            by_cases hc : head.isCons = true
            · cases head with
              | cons c =>
                rw [head_const_xmarks h1] at hp
                simp [eraseStructRegs, Node.isCons] at hp
              | _ => cases hc
            · have hc : head.isCons = false := by simpa using hc
              have hb : b.isCons = false := by
                cases b with
                | cons c => simp [Node.children, Node.varss] at hv
                | _ => rfl
              obtain ⟨a, ha, hax, hak⟩ := head_xmarks hc h1 hp
              refine (head_lookup head).1 ?_
              by_contra hn
              refine apart_new hc hb hu (hper v hy hv) (not_isSome.1 hn) ?_ ha hax hak
              rw [← hpair hb hc]; exact hx
        obtain ⟨b1, b2⟩ := toQuery_exact yinj (K := Node.varss head.children) (fun v hk hv => hplaces v ((e3 v hv).1 hk) hv) hpl h2
        simp only [List.map_cons, Node.defined, Bool.and_eq_true]
        refine ⟨b1, hf ?_ ?_⟩
        · intro v y hy hm
          simp only [mem_dropX] at hm
          rcases b2 v y hy hm.1 with h | h
          · exact List.mem_append.2 (.inr (head_ymarks yinj h1 hy h))
          · exact List.mem_append.2 (.inl h)
        · intro x hm
          simp [mem_dropX] at hm
      · cases h

end PBfs
