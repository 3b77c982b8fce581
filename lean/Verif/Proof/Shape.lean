import Verif.Proof.Turn
/-! # The shape of compiled code -/
namespace PBfs

theorem structCell_ok {n g c g'} (h : structCell n g = .ok (c, g')) : g'.seen = g.seen := by
  unfold structCell at h
  split at h
  · simp only [bind_ok, pure_ok, Prod.mk.injEq] at h
    obtain ⟨v, _, _, rfl⟩ := h; rfl
  · simp only [pure_ok, Prod.mk.injEq] at h; rw [← h.2]
  · simp only [pure_ok, Prod.mk.injEq] at h; rw [← h.2]
  · split at h
    · simp only [pure_ok, Prod.mk.injEq] at h; rw [← h.2]
    · cases h
  · cases h

theorem queryKid_data {yOf c x g i g'} (h : queryKid yOf c x g = .ok (i, g')) : i.isData = true := by
  have xc : ∀ {n : Name}, (if g.has (.x x) then pure (.setValue x, g)
      else
        let g := g.mark (.x x)
        let (v, st) := g.st.pushBackVar n
        pure (.setVariable x v, { g with st := st }) : CR (Instr × GenSt)) = .ok (i, g') →
      i.isData = true := by
    intro n h
    split at h
    · simp only [pure_ok, Prod.mk.injEq] at h; rw [← h.1]; rfl
    · simp only [pure_ok, Prod.mk.injEq] at h; rw [← h.1]; rfl
  unfold queryKid at h
  cases c with
  | int => 
    simp only [bind_ok, pure_ok, Prod.mk.injEq] at h
    obtain ⟨_, _, rfl, _⟩ := h; rfl
  | cons => 
    simp only [bind_ok, pure_ok, Prod.mk.injEq] at h
    obtain ⟨_, _, rfl, _⟩ := h; rfl
  | var n =>
    simp only at h
    split at h
    · split at h
      · simp only [pure_ok, Prod.mk.injEq] at h; rw [← h.1]; rfl
      · simp only [pure_ok, Prod.mk.injEq] at h; rw [← h.1]; rfl
    · exact xc h
  | fn => exact xc h
  | efn => exact xc h

theorem queryKids_data {yOf ks g is g'} (h : queryKids yOf ks g = .ok (is, g')) :
    ∀ i ∈ is, i.isData = true := by
  induction ks generalizing g is g' with
  | nil => simp only [queryKids, pure_ok, Prod.mk.injEq] at h; rw [← h.1]; simp
  | cons k ks ih =>
    obtain ⟨c, x⟩ := k
    simp only [queryKids, bind_ok, pure_ok, Prod.mk.injEq] at h
    obtain ⟨⟨i, g1⟩, h1, ⟨is', g2⟩, h2, rfl, _⟩ := h
    intro j hj
    simp only [List.mem_cons] at hj
    rcases hj with rfl | hj
    · exact queryKid_data h1
    · exact ih h2 j hj

theorem queryItem_data {yOf xOf a g is g'} (h : queryItem yOf xOf a g = .ok (is, g')) :
    (∀ i ∈ is, i.isData = true) ∧ is ≠ [] := by
  unfold queryItem at h
  split at h
  · split at h
    · split at h <;> (simp only [pure_ok, Prod.mk.injEq] at h; rw [← h.1]; simp [Instr.isData])
    · split at h <;> (simp only [pure_ok, Prod.mk.injEq] at h; rw [← h.1]; simp [Instr.isData])
  · simp only at h
    split at h
    · simp only [bind_ok, pure_ok, Prod.mk.injEq] at h
      obtain ⟨⟨c, g1⟩, _, ⟨is', g2⟩, h2, rfl, _⟩ := h
      refine ⟨?_, by simp⟩
      intro j hj
      simp only [List.mem_cons] at hj
      rcases hj with rfl | hj
      · rfl
      · exact queryKids_data h2 j hj
    · cases h
  · simp only [bind_ok, pure_ok, Prod.mk.injEq] at h
    obtain ⟨⟨c, g1⟩, _, ⟨is', g2⟩, h2, rfl, _⟩ := h
    refine ⟨?_, by simp⟩
    intro j hj
    simp only [List.mem_cons] at hj
    rcases hj with rfl | hj
    · rfl
    · exact queryKids_data h2 j hj

theorem queryItems_data {yOf xOf as g is g'} (h : queryItems yOf xOf as g = .ok (is, g')) :
    (∀ i ∈ is, i.isData = true) ∧ (as ≠ [] → is ≠ []) := by
  induction as generalizing g is g' with
  | nil => simp only [queryItems, pure_ok, Prod.mk.injEq] at h; rw [← h.1]; simp
  | cons a as ih =>
    simp only [queryItems, bind_ok, pure_ok, Prod.mk.injEq] at h
    obtain ⟨⟨is1, g1⟩, h1, ⟨is2, g2⟩, h2, rfl, _⟩ := h
    have q := queryItem_data h1
    refine ⟨?_, fun _ => by simp [q.2]⟩
    intro j hj
    simp only [List.mem_append] at hj
    rcases hj with hj | hj
    · exact q.1 j hj
    · exact (ih h2).1 j hj

theorem programKid_data {yOf c x g i g'} (h : programKid yOf c x g = .ok (i, g')) : i.isData = true := by
  unfold programKid at h
  cases c with
  | int => 
    simp only [bind_ok, pure_ok, Prod.mk.injEq] at h
    obtain ⟨_, _, rfl, _⟩ := h; rfl
  | cons => 
    simp only [bind_ok, pure_ok, Prod.mk.injEq] at h
    obtain ⟨_, _, rfl, _⟩ := h; rfl
  | var n =>
    simp only at h
    split at h
    · split at h <;> (simp only [pure_ok, Prod.mk.injEq] at h; rw [← h.1]; rfl)
    · split at h <;> (simp only [pure_ok, Prod.mk.injEq] at h; rw [← h.1]; rfl)
  | fn =>
    simp only at h
    split at h <;> (simp only [pure_ok, Prod.mk.injEq] at h; rw [← h.1]; rfl)
  | efn =>
    simp only at h
    split at h <;> (simp only [pure_ok, Prod.mk.injEq] at h; rw [← h.1]; rfl)

theorem programKids_data {yOf ks g is g'} (h : programKids yOf ks g = .ok (is, g')) :
    ∀ i ∈ is, i.isData = true := by
  induction ks generalizing g is g' with
  | nil => simp only [programKids, pure_ok, Prod.mk.injEq] at h; rw [← h.1]; simp
  | cons k ks ih =>
    obtain ⟨c, x⟩ := k
    simp only [programKids, bind_ok, pure_ok, Prod.mk.injEq] at h
    obtain ⟨⟨i, g1⟩, h1, ⟨is', g2⟩, h2, rfl, _⟩ := h
    intro j hj
    simp only [List.mem_cons] at hj
    rcases hj with rfl | hj
    · exact programKid_data h1
    · exact ih h2 j hj

theorem programItem_data {yOf a g is g'} (h : programItem yOf a g = .ok (is, g')) :
    (∀ i ∈ is, i.isData = true) ∧ is ≠ [] := by
  unfold programItem at h
  split at h
  · split at h
    · split at h <;> (simp only [pure_ok, Prod.mk.injEq] at h; rw [← h.1]; simp [Instr.isData])
    · simp only at h
      split at h <;> (simp only [pure_ok, Prod.mk.injEq] at h; rw [← h.1]; simp [Instr.isData])
  · simp only [bind_ok, pure_ok, Prod.mk.injEq] at h
    obtain ⟨⟨c, g1⟩, _, ⟨is', g2⟩, h2, rfl, _⟩ := h
    refine ⟨?_, by simp⟩
    intro j hj
    simp only [List.mem_cons] at hj
    rcases hj with rfl | hj
    · rfl
    · exact programKids_data h2 j hj

theorem programItems_data {yOf as g is g'} (h : programItems yOf as g = .ok (is, g')) :
    (∀ i ∈ is, i.isData = true) ∧ (as ≠ [] → is ≠ []) := by
  induction as generalizing g is g' with
  | nil => simp only [programItems, pure_ok, Prod.mk.injEq] at h; rw [← h.1]; simp
  | cons a as ih =>
    simp only [programItems, bind_ok, pure_ok, Prod.mk.injEq] at h
    obtain ⟨⟨is1, g1⟩, h1, ⟨is2, g2⟩, h2, rfl, _⟩ := h
    have q := programItem_data h1
    refine ⟨?_, fun _ => by simp [q.2]⟩
    intro j hj
    simp only [List.mem_append] at hj
    rcases hj with hj | hj
    · exact q.1 j hj
    · exact (ih h2).1 j hj

theorem allocInstrs_data (n : Nat) : ∀ i ∈ allocInstrs n, i.isData = true := by
  unfold allocInstrs
  split <;> simp [Instr.isData]

theorem toQuery_shape {yOf xOf atom as g is g'} (h : toQuery yOf xOf atom as g = .ok (is, g')) :
    ∃ ds, is = ds ++ [.call atom.fv] ∧ (∀ d ∈ ds, d.isData = true) ∧
      (flattenQuery (atomArgs atom).length as ≠ [] → ds ≠ []) := by
  simp only [toQuery, bind_ok, pure_ok, Prod.mk.injEq] at h
  obtain ⟨⟨js, g1⟩, h1, rfl, _⟩ := h
  exact ⟨js, rfl, (queryItems_data h1).1, (queryItems_data h1).2⟩

theorem toProgram_shape {yOf atom as g is g'} (h : toProgram yOf atom as g = .ok (is, g')) :
    ∃ ds, is = ds ++ [.proceed] ∧ (∀ d ∈ ds, d.isData = true) ∧
      (flattenProgram (atomArgs atom).length as ≠ [] → ds ≠ []) := by
  simp only [toProgram, bind_ok, pure_ok, Prod.mk.injEq] at h
  obtain ⟨⟨js, g1⟩, h1, rfl, _⟩ := h
  exact ⟨js, rfl, (programItems_data h1).1, (programItems_data h1).2⟩

theorem shaped_pre {pre ds : List Instr} {c : Instr} (hp : ∀ i ∈ pre, i.isData = true)
    (hd : ∀ i ∈ ds, i.isData = true) (hc : c.isData = false) {a : CAtom}
    (ha : a.instrs = pre ++ (ds ++ [c])) : a.Shaped :=
  ⟨pre ++ ds, c, by rw [ha, List.append_assoc], by
    intro d hd'
    simp only [List.mem_append] at hd'
    exact hd'.elim (hp d) (hd d), hc⟩

theorem compileQueryAtom_shaped {yOf pre fq atom g c g'} (hp : ∀ i ∈ pre, i.isData = true)
    (h : compileQueryAtom yOf pre fq atom g = .ok (c, g')) : c.Shaped := by
  simp only [compileQueryAtom, bind_ok, pure_ok, Prod.mk.injEq] at h
  obtain ⟨⟨is, g1⟩, h1, rfl, _⟩ := h
  obtain ⟨ds, rfl, hd, _⟩ := toQuery_shape h1
  exact shaped_pre hp hd rfl rfl

theorem compileQueryAtoms_shaped {yOf pre fq atoms g cs g'} (hp : ∀ i ∈ pre, i.isData = true)
    (h : compileQueryAtoms yOf pre fq atoms g = .ok (cs, g')) : ∀ c ∈ cs, c.Shaped := by
  induction atoms generalizing pre g cs g' with
  | nil => simp only [compileQueryAtoms, pure_ok, Prod.mk.injEq] at h; rw [← h.1]; simp
  | cons a as ih =>
    simp only [compileQueryAtoms, bind_ok, pure_ok, Prod.mk.injEq] at h
    obtain ⟨⟨c, g1⟩, h1, ⟨cs', g2⟩, h2, rfl, _⟩ := h
    intro c' hc'
    simp only [List.mem_cons] at hc'
    rcases hc' with rfl | hc'
    · exact compileQueryAtom_shaped hp h1
    · exact ih (by intro i hi; cases hi) h2 c' hc'

theorem deallocAtoms_shaped (n : Nat) : ∀ c ∈ deallocAtoms n, c.Shaped := by
  unfold deallocAtoms
  split
  · simp
  · simp only [List.mem_singleton]
    rintro c rfl
    exact ⟨[], .deallocate, rfl, by simp, rfl⟩

theorem compileQuery_shaped {ord atoms st q st'} (h : compileQuery ord atoms st = .ok (q, st')) :
    ∀ c ∈ q, c.Shaped := by
  simp only [compileQuery, bind_ok, pure_ok, Prod.mk.injEq] at h
  obtain ⟨⟨cs, g⟩, h1, rfl, _⟩ := h
  exact compileQueryAtoms_shaped (allocInstrs_data _) h1

/-- Compiling a fact. -/
theorem compileClause_fact {ord b head st f r st'} (h : compileClause ord b head [] st = .ok (f, r, st')) :
    (b = true ∨ redefines head = false) ∧ ∃ is g,
      toProgram (indexOf? · (permVars ord true [head])) head (assignSingle head).1 ⟨[], st⟩ = .ok (is, g) ∧
      f = head.fv ∧ st' = g.st ∧
      r = (⟨(assignSingle head).2.2, allocInstrs (permVars ord true [head]).length ++ is,
        varRegs (indexOf? · (permVars ord true [head])) (assignSingle head).1 [], head, false⟩ : CAtom) ::
        deallocAtoms (permVars ord true [head]).length := by
  unfold compileClause at h
  simp only at h
  split at h
  · cases h
  rename_i hn
  simp only [bind_ok, pure_ok, Prod.mk.injEq] at h
  obtain ⟨⟨is, g⟩, h1, rfl, rfl, rfl⟩ := h
  refine ⟨?_, is, g, h1, rfl, rfl, rfl⟩
  cases b with
  | true => exact .inl rfl
  | false => exact .inr (by simpa using hn)

/-- Compiling a clause with a body. -/
theorem compileClause_rule {ord b head b0 bs st f r st'}
    (h : compileClause ord b head (b0 :: bs) st = .ok (f, r, st')) :
    (b = true ∨ redefines head = false) ∧ ∃ is g js g1 cs g2,
      toProgram (indexOf? · (permVars ord true (head :: b0 :: bs))) head (assignPair head b0).1.1 ⟨[], st⟩
        = .ok (is, g) ∧
      toQuery (indexOf? · (permVars ord true (head :: b0 :: bs))) ((assignPair head b0).2.1.2.lookup ·) b0
        (assignPair head b0).2.1.1 ⟨eraseStructRegs head (assignPair head b0).1.1 g.seen, g.st⟩ = .ok (js, g1) ∧
      compileQueryAtoms (indexOf? · (permVars ord true (head :: b0 :: bs))) [] false bs
        ⟨dropX g1.seen, g1.st⟩ = .ok (cs, g2) ∧
      f = head.fv ∧ st' = g2.st ∧
      r = (⟨(assignPair head b0).2.2, allocInstrs (permVars ord true (head :: b0 :: bs)).length ++ is,
          varRegs (indexOf? · (permVars ord true (head :: b0 :: bs))) (assignPair head b0).1.1 [], head, false⟩ : CAtom) ::
        (⟨(assignPair head b0).2.2, js,
          varRegs (indexOf? · (permVars ord true (head :: b0 :: bs))) (assignPair head b0).2.1.1 [], b0, false⟩ : CAtom) ::
        (cs ++ deallocAtoms (permVars ord true (head :: b0 :: bs)).length) := by
  unfold compileClause at h
  simp only at h
  split at h
  · cases h
  rename_i hn
  simp only [bind_ok, pure_ok, Prod.mk.injEq] at h
  obtain ⟨⟨is, g⟩, h1, ⟨js, g1⟩, h2, ⟨cs, g2⟩, h3, rfl, rfl, rfl⟩ := h
  refine ⟨?_, is, g, js, g1, cs, g2, h1, h2, h3, rfl, rfl, rfl⟩
  cases b with
  | true => exact .inl rfl
  | false => exact .inr (by simpa using hn)

theorem compileClause_shaped {ord b head body st f r st'}
    (h : compileClause ord b head body st = .ok (f, r, st')) :
    f = head.fv ∧ r ≠ [] ∧ ∀ c ∈ r, c.Shaped := by
  cases body with
  | nil =>
    obtain ⟨_, is, g, h1, rfl, rfl, rfl⟩ := compileClause_fact h
    obtain ⟨ds, rfl, hd, _⟩ := toProgram_shape h1
    refine ⟨rfl, by simp, ?_⟩
    intro c hc
    simp only [List.mem_cons] at hc
    rcases hc with rfl | hc
    · exact shaped_pre (allocInstrs_data _) hd rfl rfl
    · exact deallocAtoms_shaped _ c hc
  | cons b0 bs =>
    obtain ⟨_, is, g, js, g1, cs, g2, h1, h2, h3, rfl, rfl, rfl⟩ := compileClause_rule h
    obtain ⟨ds, rfl, hd, _⟩ := toProgram_shape h1
    obtain ⟨ds', rfl, hd', _⟩ := toQuery_shape h2
    refine ⟨rfl, by simp, ?_⟩
    intro c hc
    simp only [List.mem_append, List.mem_cons] at hc
    rcases hc with rfl | rfl | hc | hc
    · exact shaped_pre (allocInstrs_data _) hd rfl rfl
    · exact ⟨ds', .call b0.fv, rfl, hd', rfl⟩
    · exact compileQueryAtoms_shaped (by intro i hi; cases hi) h3 c hc
    · exact deallocAtoms_shaped _ c hc

/-- All code of a program has the right shape. -/
def Program.Shaped (p : Program) : Prop :=
  ∀ f rs, p.rules? f = some rs → ∀ r ∈ rs, r ≠ [] ∧ ∀ c ∈ r, c.Shaped

theorem Program.rules?_addRule (p : Program) (f g : FV) (r : Rule) :
    (p.addRule f r).rules? g = if g = f then some ((p.rules? f).getD [] ++ [r]) else p.rules? g := by
  unfold rules?
  induction p with
  | nil =>
    simp only [addRule, List.lookup_cons, List.lookup_nil]
    by_cases h : g = f
    · simp [h]
    · have : (g == f) = false := by simpa using h
      simp [h, this]
  | cons e p ih =>
    obtain ⟨k, qs⟩ := e
    simp only [addRule]
    by_cases hk : f = k
    · subst hk
      simp only [if_true, List.lookup_cons]
      by_cases h : g = f
      · simp [h]
      · have : (g == f) = false := by simpa using h
        simp [h, this]
    · simp only [hk, if_false, List.lookup_cons, ih]
      by_cases h : g = k
      · subst h
        have : ¬ g = f := fun h => hk h.symm
        simp [this]
      · have h1 : (g == k) = false := by simpa using h
        have h2 : (f == k) = false := by simpa using hk
        simp [h1, h2]

theorem Program.rules?_assign (p : Program) (f g : FV) (rs : List Rule) :
    (p.assign f rs).rules? g = if g = f then some rs else p.rules? g := by
  unfold rules?
  induction p with
  | nil =>
    simp only [assign, List.lookup_cons, List.lookup_nil]
    by_cases h : g = f
    · simp [h]
    · have : (g == f) = false := by simpa using h
      simp [h, this]
  | cons e p ih =>
    obtain ⟨k, qs⟩ := e
    simp only [assign]
    by_cases hk : f = k
    · subst hk
      simp only [if_true, List.lookup_cons]
      by_cases h : g = f
      · simp [h]
      · have : (g == f) = false := by simpa using h
        simp [h, this]
    · simp only [hk, if_false, List.lookup_cons, ih]
      by_cases h : g = k
      · subst h
        have : ¬ g = f := fun h => hk h.symm
        simp [this]
      · have h1 : (g == k) = false := by simpa using h
        simp [h1]

theorem Program.Shaped.addRule {p : Program} (h : p.Shaped) {f r} (hr : r ≠ [] ∧ ∀ c ∈ r, c.Shaped) :
    (p.addRule f r).Shaped := by
  intro g rs hg r' hr'
  rw [rules?_addRule] at hg
  split at hg
  · cases hg
    simp only [List.mem_append, List.mem_singleton] at hr'
    rcases hr' with hr' | rfl
    · cases hp : p.rules? f with
      | none => simp [hp] at hr'
      | some qs => simp [hp] at hr'; exact h f qs hp r' hr'
    · exact hr
  · exact h g rs hg r' hr'

theorem Program.Shaped.assign {p : Program} (h : p.Shaped) {f rs}
    (hr : ∀ r ∈ rs, r ≠ [] ∧ ∀ c ∈ r, c.Shaped) : (p.assign f rs).Shaped := by
  intro g rs' hg r' hr'
  rw [rules?_assign] at hg
  split at hg
  · cases hg; exact hr r' hr'
  · exact h g rs' hg r' hr'

theorem Program.Shaped.nil : Program.Shaped [] := by
  intro f rs h; simp [Program.rules?] at h

theorem compileProgram_shaped {ord cs p st p' st'} (hp : Program.Shaped p)
    (h : compileProgram ord cs p st = .ok (p', st')) : p'.Shaped := by
  induction cs generalizing p st with
  | nil => simp only [compileProgram, pure_ok, Prod.mk.injEq] at h; rw [← h.1]; exact hp
  | cons c cs ih =>
    simp only [compileProgram, bind_ok] at h
    obtain ⟨⟨f, r, st1⟩, h1, h2⟩ := h
    exact ih (hp.addRule (compileClause_shaped h1).2) h2

theorem mergeBuiltins_shaped {b p : Program} (hb : ∀ e ∈ b, ∀ r ∈ e.2, r ≠ [] ∧ ∀ c ∈ r, c.Shaped)
    (hp : p.Shaped) : (Org.mergeBuiltins b p).Shaped := by
  unfold Org.mergeBuiltins
  induction b generalizing p with
  | nil => exact hp
  | cons e b ih =>
    simp only [List.foldl_cons]
    exact ih (fun e' he' => hb e' (by simp [he'])) (hp.assign (hb e (by simp)))

end PBfs
