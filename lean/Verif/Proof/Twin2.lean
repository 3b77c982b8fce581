import Verif.Proof.Twin
/-! # Related executors: the data instructions -/
namespace PBfs

/-- The permanent variables of a clause or query in the order of their registers, on both sides. -/
structure YFrame where
  ys : List Name
  ys' : List Name

/-- Registers of the same permanent variable. -/
def YRel (fr : YFrame) (y y' : Nat) : Prop := ∃ n, indexOf? n fr.ys = some y ∧ indexOf? n fr.ys' = some y'

theorem YRel.inj {fr y y' z z'} (h : YRel fr y y') (h' : YRel fr z z') : y = z ↔ y' = z' := by
  obtain ⟨n, h1, h2⟩ := h
  obtain ⟨m, h3, h4⟩ := h'
  constructor
  · rintro rfl
    have := (indexOf?_get h1).symm.trans (indexOf?_get h3)
    cases this
    rw [h2] at h4; exact Option.some.inj h4
  · rintro rfl
    have := (indexOf?_get h2).symm.trans (indexOf?_get h4)
    cases this
    rw [h1] at h3; exact Option.some.inj h3

structure EnvRel (M : Cmp) (st st' : Storage) (fr : YFrame) (e e' : List Cell) : Prop where
  len : e.length = fr.ys.length
  len' : e'.length = fr.ys'.length
  get : ∀ y y', YRel fr y y' → ORel (CellRel M st st') e[y]? e'[y']?

inductive EnvsRel (M : Cmp) (st st' : Storage) : List YFrame → List (List Cell) → List (List Cell) → Prop
  | nil : EnvsRel M st st' [] [] []
  | cons {fr frs e es e' es'} : EnvRel M st st' fr e e' → EnvsRel M st st' frs es es' → EnvsRel M st st' (fr :: frs) (e :: es) (e' :: es')

/-- Errors with the same meaning; the text of a type error may differ. -/
def ErrRel (M : Cmp) (e e' : RtErr) : Prop := e.kind = e'.kind ∧ ((M.lax → e.kind ≠ .notArithmetic) → e.mention = e'.mention)

/-- Executors equal up to numbering; `cs`, `cs'` are their pending atoms. -/
structure ERel (M : Cmp) (st st' : Storage) (frs : List YFrame) (cs cs' : List TCode) (e e' : Exec) : Prop where
  parent : e.parent = e'.parent
  hp : HpRel M st st' e.hp e'.hp
  children : e.children = e'.children
  regs : List.Forall₂ (CellRel M st st') e.regs e'.regs
  mode : e.mode = e'.mode
  s : e.s = e'.s
  state : e.state = e'.state
  codes : e.codes = cs
  codes' : e'.codes = cs'
  envs : EnvsRel M st st' frs e.envs e'.envs
  err : ORel (ErrRel M) e.err e'.err

/-- Data instructions equal up to numbering. -/
inductive DRel (M : Cmp) (st st' : Storage) (cur : Option YFrame) : Instr → Instr → Prop
  | putStructure {c c'} (x) : c.isRef = false → CellRel M st st' c c' → DRel M st st' cur (.putStructure c x) (.putStructure c' x)
  | setVariable {v v'} (x) : VIdx M st st' v v' → DRel M st st' cur (.setVariable x v) (.setVariable x v')
  | setPermVariable {fr y y' v v'} : cur = some fr → YRel fr y y' → VIdx M st st' v v' → DRel M st st' cur (.setPermVariable y v) (.setPermVariable y' v')
  | setValue (x) : DRel M st st' cur (.setValue x) (.setValue x)
  | setPermValue {fr y y'} : cur = some fr → YRel fr y y' → DRel M st st' cur (.setPermValue y) (.setPermValue y')
  | getStructure {c c'} (x) : c.isRef = false → CellRel M st st' c c' → DRel M st st' cur (.getStructure c x) (.getStructure c' x)
  | unifyStructure {c c'} (x) : c.isRef = false → CellRel M st st' c c' → DRel M st st' cur (.unifyStructure c x) (.unifyStructure c' x)
  | unifyVariable {v v'} (x) : VIdx M st st' v v' → DRel M st st' cur (.unifyVariable x v) (.unifyVariable x v')
  | unifyPermVariable {fr y y' v v'} : cur = some fr → YRel fr y y' → VIdx M st st' v v' → DRel M st st' cur (.unifyPermVariable y v) (.unifyPermVariable y' v')
  | unifyValue (x) : DRel M st st' cur (.unifyValue x) (.unifyValue x)
  | unifyPermValue {fr y y'} : cur = some fr → YRel fr y y' → DRel M st st' cur (.unifyPermValue y) (.unifyPermValue y')
  | putVariable {v v'} (x a) : VIdx M st st' v v' → DRel M st st' cur (.putVariable x a v) (.putVariable x a v')
  | putPermVariable {fr y y' v v'} (a) : cur = some fr → YRel fr y y' → VIdx M st st' v v' → DRel M st st' cur (.putPermVariable y a v) (.putPermVariable y' a v')
  | putValue (x a) : DRel M st st' cur (.putValue x a) (.putValue x a)
  | putPermValue {fr y y'} (a) : cur = some fr → YRel fr y y' → DRel M st st' cur (.putPermValue y a) (.putPermValue y' a)
  | getVariable (x a) : DRel M st st' cur (.getVariable x a) (.getVariable x a)
  | getPermVariable {fr y y'} (a) : cur = some fr → YRel fr y y' → DRel M st st' cur (.getPermVariable y a) (.getPermVariable y' a)
  | getValue (x a) : DRel M st st' cur (.getValue x a) (.getValue x a)
  | getPermValue {fr y y'} (a) : cur = some fr → YRel fr y y' → DRel M st st' cur (.getPermValue y a) (.getPermValue y' a)
  | builtin (b l r) : (b = .is → M.calls isFV) → DRel M st st' cur (.builtin b l r) (.builtin b l r)

section
variable {M : Cmp} {st st' : Storage} {pre pre' : Nat → Option Cell} {frs : List YFrame} {cs cs' : List TCode} {e e' : Exec}

theorem ERel.reg (h : ERel M st st' frs cs cs' e e') (x : Nat) : Sim M (CellRel M st st') (e.reg x) (e'.reg x) :=
  .orFault (forall₂_get h.regs x)

theorem ERel.setReg (h : ERel M st st' frs cs cs' e e') (x : Nat) {c c'} (hc : CellRel M st st' c c') :
    Sim M (ERel M st st' frs cs cs') (e.setReg x c) (e'.setReg x c') := by
  unfold Exec.setReg
  rw [← forall₂_len h.regs]
  split
  · exact { h with regs := forall₂_set h.regs hc }
  · exact .err _

theorem ERel.perm (h : ERel M st st' frs cs cs' e e') {fr y y'} (hf : frs.head? = some fr) (hy : YRel fr y y') :
    Sim M (CellRel M st st') (e.perm y) (e'.perm y') := by
  unfold Exec.perm
  have := h.envs
  generalize e.envs = es at this
  generalize e'.envs = es' at this
  cases this with
  | nil => cases hf
  | cons h1 h2 => cases hf; exact .orFault (h1.get _ _ hy)

theorem YRel.lt {fr y y'} (h : YRel fr y y') : y < fr.ys.length ∧ y' < fr.ys'.length := by
  obtain ⟨n, h1, h2⟩ := h
  exact ⟨(List.getElem?_eq_some_iff.1 (indexOf?_get h1)).1, (List.getElem?_eq_some_iff.1 (indexOf?_get h2)).1⟩

theorem ERel.setPerm (h : ERel M st st' frs cs cs' e e') {fr y y'} (hf : frs.head? = some fr) (hy : YRel fr y y') {c c'} (hc : CellRel M st st' c c') :
    Sim M (ERel M st st' frs cs cs') (e.setPerm y c) (e'.setPerm y' c') := by
  unfold Exec.setPerm
  have he := h.envs
  generalize hes : e.envs = es at he
  generalize hes' : e'.envs = es' at he
  cases he with
  | nil => cases hf
  | @cons fr' frs env es env' es' h1 h2 =>
    cases hf
    simp only
    rw [if_pos (by rw [h1.len]; exact hy.lt.1), if_pos (by rw [h1.len']; exact hy.lt.2)]
    refine { h with envs := ?_ }
    refine .cons ⟨by simp [h1.len], by simp [h1.len'], fun z z' hz => ?_⟩ h2
    rw [List.getElem?_set, List.getElem?_set]
    by_cases hyz : y = z
    · rw [if_pos hyz, if_pos ((hy.inj hz).1 hyz), if_pos (by rw [h1.len]; exact hy.lt.1), if_pos (by rw [h1.len']; exact hy.lt.2)]
      exact hc
    · rw [if_neg hyz, if_neg fun h => hyz ((hy.inj hz).2 h)]
      exact h1.get _ _ hz

theorem ERel.push (h : ERel M st st' frs cs cs' e e') {c c'} (hc : CellRel M st st' c c') : ERel M st st' frs cs cs' (e.push c) (e'.push c') :=
  { h with hp := h.hp.push hc }

theorem ERel.newRef (h : ERel M st st' frs cs cs' e e') {v v'} (hv : VIdx M st st' v v') : CellRel M st st' (e.newRef v) (e'.newRef v') := by
  unfold Exec.newRef
  rw [← h.hp.size]
  exact .ref _ hv

theorem ERel.pushRef (h : ERel M st st' frs cs cs' e e') {v v'} (hv : VIdx M st st' v v') : ERel M st st' frs cs cs' (e.pushRef v) (e'.pushRef v') :=
  h.push (h.newRef hv)

theorem addr_sim {c c'} (h : CellRel M st st' c c') : Sim M Eq c.addr c'.addr := by
  unfold Cell.addr
  rw [h.ptr]
  exact .refl _

theorem ERel.deref (hp : PreRel M st st' pre pre') (h : ERel M st st' frs cs cs' e e') (a : Nat) : Sim M Eq (e.deref pre a) (e'.deref pre' a) :=
  deref_sim hp h.hp a

theorem ERel.heapAt (hp : PreRel M st st' pre pre') (h : ERel M st st' frs cs cs' e e') (a : Nat) : Sim M (CellRel M st st') (e.heapAt pre a) (e'.heapAt pre' a) :=
  .orFault (h.hp.at? hp a)

theorem ERel.unify (T : Twin M st st') (hp : PreRel M st st' pre pre') (h : ERel M st st' frs cs cs' e e') (n a b : Nat) :
    Sim M (ERel M st st' frs cs cs') (e.unify pre n a b) (e'.unify pre' n a b) := by
  unfold Exec.unify
  refine (unifyLoop_sim T hp n [a, b] h.hp).bind fun r r' hr => ?_
  exact { h with hp := hr.1, state := by simp only [hr.2, h.state] }

theorem ERel.setFailed (h : ERel M st st' frs cs cs' e e') : ERel M st st' frs cs cs' e.setFailed e'.setFailed :=
  { h with state := rfl }

theorem ERel.bind (hp : PreRel M st st' pre pre') (h : ERel M st st' frs cs cs' e e') (i t : Nat) :
    Sim M (HpRel M st st') (e.hp.bind pre i t) (e'.hp.bind pre' i t) := h.hp.bind hp i t

theorem getStructure_sim (T : Twin M st st') (hp : PreRel M st st' pre pre') (h : ERel M st st' frs cs cs' e e') (x : Nat) {c c'} (hc : CellRel M st st' c c')
    (hr : c.isRef = false) : Sim M (ERel M st st' frs cs cs') (getStructure pre c x e) (getStructure pre' c' x e') := by
  unfold getStructure
  refine (h.reg x).bind fun r r' hr => ?_
  refine (addr_sim hr).bind ?_
  rintro a _ rfl
  refine (h.deref hp a).bind ?_
  rintro d _ rfl
  refine (h.heapAt hp d).bind fun cell cell' hcell => ?_
  rw [hcell.isRef]
  split
  · have hq := h.push hc
    simp only
    rw [← hq.hp.size]
    refine (hq.bind hp d _).bind fun hp1 hp2 hh => ?_
    exact { hq with hp := hh, mode := rfl }
  · exact Sim.ite (hcell.eq_iff T hc ‹_›) { h with s := rfl, mode := rfl } h.setFailed

theorem unifyStructure_sim (T : Twin M st st') (hp : PreRel M st st' pre pre') (h : ERel M st st' frs cs cs' e e') (x : Nat) {c c'} (hc : CellRel M st st' c c')
    (hr : c.isRef = false) : Sim M (ERel M st st' frs cs cs') (unifyStructure pre c x e) (unifyStructure pre' c' x e') := by
  unfold unifyStructure
  rw [← h.mode, ← h.s]
  split
  · refine (h.deref hp _).bind ?_
    rintro d _ rfl
    refine (h.heapAt hp d).bind fun cell cell' hcell => ?_
    rw [hcell.isRef]
    refine Sim.bind (P := ERel M st st' frs cs cs') ?_ fun e1 e1' h1 => ?_
    · split
      · have hq := h.push hc
        simp only
        rw [← hq.hp.size]
        refine (hq.bind hp d _).bind fun hp1 hp2 hh => ?_
        exact { hq with hp := hh }
      · exact Sim.ite (hcell.eq_iff T hc hr) h h.setFailed
    · exact { h1 with s := by simp only [h1.s] }
  · have hq := h.push hc
    simp only
    rw [← hq.hp.size]
    refine (hq.setReg x (.str _)).bind fun e1 e1' h1 => ?_
    exact { h1 with s := by simp only [h1.s] }

theorem pushValue_sim (hp : PreRel M st st' pre pre') (h : ERel M st st' frs cs cs' e e') {r r'} (hr : CellRel M st st' r r') :
    Sim M (ERel M st st' frs cs cs') (pushValue pre r e) (pushValue pre' r' e') := by
  unfold pushValue
  refine (addr_sim hr).bind ?_
  rintro a _ rfl
  refine (h.deref hp a).bind ?_
  rintro d _ rfl
  refine (h.heapAt hp d).bind fun cell cell' hcell => ?_
  cases hcell with
  | str => exact .err _
  | fn => exact h.push (.str d)
  | efn => exact h.push (.str d)
  | cons hi => exact h.push (.cons hi)
  | int v => exact h.push (.int v)
  | ref a hv => exact h.push (.ref a hv)

theorem unifyVal_sim (T : Twin M st st') (hp : PreRel M st st' pre pre') (h : ERel M st st' frs cs cs' e e') (n : Nat) {r r'} (hr : CellRel M st st' r r') :
    Sim M (ERel M st st' frs cs cs') (unifyVal pre n r e) (unifyVal pre' n r' e') := by
  unfold unifyVal
  rw [← h.mode, ← h.s]
  refine Sim.bind (P := ERel M st st' frs cs cs') ?_ fun e1 e1' h1 => { h1 with s := by simp only [h1.s] }
  split
  · refine (addr_sim hr).bind ?_
    rintro a _ rfl
    exact h.unify T hp _ _ _
  · exact pushValue_sim hp h hr

theorem functorEquals_sim {eq eq' : Nat → Nat → R Bool} (h : ∀ a b, Sim M Eq (eq a b) (eq' a b)) (l r i k : Nat) :
    Sim M Eq (functorEquals eq l r i k) (functorEquals eq' l r i k) := by
  induction k generalizing i with
  | zero => exact rfl
  | succ k ih =>
    unfold functorEquals
    refine (h _ _).bind ?_
    rintro b _ rfl
    split
    · exact ih _
    · exact rfl

/-- Two unbound variables: their cells are equal exactly if they are at the same place. -/
theorem self_ref {h : Hp} {n a d} {c : Cell} (hd : derefN pre h n a = .ok d) (hc : h.at? pre d = some c) (hr : c.isRef = true) :
    ∃ v, c = .ref d v := by
  induction n generalizing a with
  | zero => cases hd
  | succ n ih =>
    unfold derefN at hd
    split at hd
    · cases hd
    · split at hd
      · rename_i hb
        cases hd
        rename_i b v h1
        rw [h1] at hc
        cases hc
        exact ⟨v, by rw [hb]⟩
      · exact ih hd
    · split at hd
      · rename_i h1 hb
        cases hd
        rw [h1] at hc
        cases hc
        cases hr
      · exact ih hd
    · rename_i c' h1 h2 h3
      cases hd
      rw [h3] at hc
      cases hc
      cases c <;> first | (cases hr; done) | exact (h1 _ _ rfl).elim

theorem heapRegEquals_sim (T : Twin M st st') (hp : PreRel M st st' pre pre') {h h' : Hp} (hr : HpRel M st st' h h') (n l r : Nat) :
    Sim M Eq (heapRegEquals pre h n l r) (heapRegEquals pre' h' n l r) := by
  induction n generalizing l r with
  | zero => exact .err _
  | succ n ih =>
    unfold heapRegEquals
    refine (deref_sim hp hr l).bind' ?_
    rintro l1 _ hl1 - rfl
    refine (deref_sim hp hr r).bind' ?_
    rintro r1 _ hr1 - rfl
    refine (Sim.orFault (hr.at? hp l1)).bind' fun cl cl' hcl hcl' hcl2 => ?_
    refine (Sim.orFault (hr.at? hp r1)).bind' fun cr cr' hcr hcr' hcr2 => ?_
    rw [orFault_ok] at hcl hcl' hcr hcr'
    have hiff : cl ≠ cr ↔ cl' ≠ cr' := by
      refine not_congr ?_
      by_cases hcrr : cr.isRef = true
      · by_cases hclr : cl.isRef = true
        · obtain ⟨v, hv⟩ := self_ref hl1 hcl hclr
          obtain ⟨w, hw⟩ := self_ref hr1 hcr hcrr
          by_cases hlr : l1 = r1
          · subst hlr
            rw [hcl] at hcr
            rw [hcl'] at hcr'
            cases hcr; cases hcr'
            simp
          · subst hv hw
            cases hcl2
            cases hcr2
            simp [hlr]
        · refine ⟨?_, ?_⟩
          · rintro rfl; exact absurd hcrr hclr
          · rintro rfl; rw [← hcr2.isRef, hcl2.isRef] at hcrr; exact absurd hcrr hclr
      · exact hcl2.eq_iff T hcr2 (by simpa using hcrr)
    refine Sim.ite hiff rfl ?_
    cases hcl2 with
    | ref => exact rfl
    | fn k _ => exact functorEquals_sim ih _ _ _ _
    | efn f k => exact functorEquals_sim ih _ _ _ _
    | _ => exact rfl

theorem equalsCheck_sim (T : Twin M st st') (hp : PreRel M st st' pre pre') (h : ERel M st st' frs cs cs' e e') (n l r : Nat) :
    Sim M (ERel M st st' frs cs cs') (equalsCheck pre n l r e) (equalsCheck pre' n l r e') := by
  unfold equalsCheck
  refine (h.reg l).bind fun c c' hc => ?_
  refine (addr_sim hc).bind ?_
  rintro a _ rfl
  refine (h.reg r).bind fun c c' hc => ?_
  refine (addr_sim hc).bind ?_
  rintro b _ rfl
  refine (heapRegEquals_sim T hp h.hp n a b).bind ?_
  rintro q _ rfl
  cases q
  · exact h.setFailed
  · exact h

theorem ERel.failed (h : ERel M st st' frs cs cs' e e') : e.failed = e'.failed := by
  unfold Exec.failed; rw [h.state]

theorem notEqualsCheck_sim (T : Twin M st st') (hp : PreRel M st st' pre pre') (h : ERel M st st' frs cs cs' e e') (n l r : Nat) :
    Sim M (ERel M st st' frs cs cs') (notEqualsCheck pre n l r e) (notEqualsCheck pre' n l r e') := by
  unfold notEqualsCheck
  refine (equalsCheck_sim T hp h n l r).bind fun e1 e1' h1 => ?_
  rw [← h1.failed]
  cases e1.failed
  · exact h1.setFailed
  · exact { h1 with state := rfl }

/-- A step that may read outside of the heap on one of the sides. -/
theorem Sim.ofLax {α β} {P : α → β → Prop} {x : R α} {y : R β} (hl : M.lax) (hx : ∀ e, x = .error e → e = .memory) (hy : ∀ e, y = .error e → e = .memory)
    (h : ∀ a b, x = .ok a → y = .ok b → P a b) : Sim M P x y := by
  cases x with
  | ok a =>
    cases y with
    | ok b => exact h _ _ rfl rfl
    | error f => exact ⟨hl, hy f rfl⟩
  | error f =>
    cases y with
    | ok b => exact ⟨hl, hx f rfl⟩
    | error g => exact .inr ⟨hl, .inl (hx f rfl)⟩

theorem functorOfAddr_err {st : Storage} {h : Hp} {i e} (hx : functorOfAddr pre st h i = .error e) : e = .memory := by
  unfold functorOfAddr at hx
  simp only [bind_err, orFault_err] at hx
  rcases hx with ⟨_, rfl⟩ | ⟨_, _, _, rfl⟩ <;> rfl

theorem CellRel.index {c c'} (T : Twin M st st') (he : M.ex) (hc : CellRel M st st' c c') : c.index = c'.index := by
  cases hc with
  | cons hi => exact hi.exact T he
  | fn k hi => exact hi.exact T he
  | ref a hv => rfl
  | _ => rfl

theorem checkEvaluable_sim (T : Twin M st st') (hl : M.calls isFV) (hp : PreRel M st st' pre pre') {h h' : Hp} (hr : HpRel M st st' h h') {c c'} (hc : CellRel M st st' c c') :
    Sim M (ORel (ErrRel M)) (checkEvaluable pre st h c) (checkEvaluable pre' st' h' c') := by
  have key : ∀ i j, FIdx M st st' i j → Sim M (ORel (ErrRel M)) ((functorOfAddr pre st h i).bind fun fv => Pure.pure (some ⟨.notArithmetic, fv.str⟩))
      ((functorOfAddr pre' st' h' j).bind fun fv => Pure.pure (some (⟨.notArithmetic, fv.str⟩ : RtErr))) := by
    intro i j hij
    rcases M.ok hl with hl | he
    · refine Sim.bind (P := fun _ _ => True) (Sim.ofLax hl (fun e h => functorOfAddr_err h) (fun e h => functorOfAddr_err h) fun _ _ _ _ => trivial) ?_
      intro a b _
      exact ⟨rfl, fun h => absurd rfl (h hl)⟩
    · refine Sim.bind (P := Eq) ?_ ?_
      · have hs := T.same he
        have : i = j := hij.exact T he
        subst this
        unfold functorOfAddr
        refine Sim.bind (P := CellRel M st st') ?_ fun c c' hc => ?_
        · split
          · exact .orFault (hr.at? hp _)
          · exact .err _
        · rw [hc.index T he, hs]
          exact .refl _
      · rintro a _ rfl
        exact ⟨rfl, fun _ => rfl⟩
  cases hc with
  | cons hi => exact key _ _ hi
  | fn k hi => exact key _ _ hi
  | ref a hv =>
    simp only [checkEvaluable, hv.same T]
    refine Sim.bind (P := Eq) (.refl _) ?_
    rintro n _ rfl
    exact ⟨rfl, fun _ => rfl⟩
  | _ => exact trivial

def SumRel (M : Cmp) : RtErr ⊕ Int → RtErr ⊕ Int → Prop
  | .inl e, .inl e' => ErrRel M e e'
  | .inr v, .inr w => v = w
  | _, _ => False

theorem evalArith_sim (T : Twin M st st') (hl : M.calls isFV) (hp : PreRel M st st' pre pre') {h h' : Hp} (hr : HpRel M st st' h h') (n a : Nat) :
    Sim M (SumRel M) (evalArith pre st h n a) (evalArith pre' st' h' n a) := by
  induction n generalizing a with
  | zero => exact .err _
  | succ n ih =>
    unfold evalArith
    refine (deref_sim hp hr a).bind ?_
    rintro d _ rfl
    refine (Sim.orFault (hr.at? hp d)).bind fun c c' hc => ?_
    refine (checkEvaluable_sim T hl hp hr hc).bind fun err err' he => ?_
    cases err <;> cases err'
    · cases hc with
      | int v => exact rfl
      | efn f k =>
        refine (ih (d + 1)).bind fun l l' h1 => ?_
        cases l <;> cases l'
        · exact h1
        · exact h1.elim
        · exact h1.elim
        · have h1 : _ = _ := h1
          subst h1
          refine (ih (d + 2)).bind fun r r' h2 => ?_
          cases r <;> cases r'
          · exact h2
          · exact h2.elim
          · exact h2.elim
          · have h2 : _ = _ := h2
            subst h2
            refine Sim.ite Iff.rfl ⟨rfl, fun _ => rfl⟩ ?_
            refine (Sim.refl _).bind ?_
            rintro v _ rfl
            exact rfl
      | _ => exact .err _
    · exact he.elim
    · exact he.elim
    · exact he

theorem isPred_sim (T : Twin M st st') (hl : M.calls isFV) (hp : PreRel M st st' pre pre') (h : ERel M st st' frs cs cs' e e') (n l r : Nat) :
    Sim M (ERel M st st' frs cs cs') (isPred pre n st l r e) (isPred pre' n st' l r e') := by
  unfold isPred
  refine (h.reg r).bind fun c c' hc => ?_
  refine (addr_sim hc).bind ?_
  rintro b _ rfl
  refine (evalArith_sim T hl hp h.hp n b).bind fun v v' hv => ?_
  cases v <;> cases v'
  · exact { h with state := rfl, err := hv }
  · exact hv.elim
  · exact hv.elim
  · rename_i v v'
    have hv : v = v' := hv
    subst hv
    refine (h.reg l).bind fun c c' hc => ?_
    refine (addr_sim hc).bind ?_
    rintro a _ rfl
    refine (h.deref hp a).bind ?_
    rintro d _ rfl
    refine (h.heapAt hp d).bind fun cell cell' hcell => ?_
    cases hcell with
    | int w =>
      simp only
      split
      · exact h
      · exact h.setFailed
    | ref a' hv =>
      simp only
      rw [← h.hp.start]
      refine Sim.ite Iff.rfl (.err _) ?_
      have hq := h.push (.int v)
      rw [← hq.hp.size]
      refine (hq.bind hp d _).bind fun hp1 hp2 hh => ?_
      exact { hq with hp := hh }
    | _ => exact h.setFailed

theorem stepData_sim (T : Twin M st st') (hp : PreRel M st st' pre pre') (h : ERel M st st' frs cs cs' e e') (n : Nat) {i i'}
    (hi : DRel M st st' frs.head? i i') : Sim M (ERel M st st' frs cs cs') (stepData pre n st i e) (stepData pre' n st' i' e') := by
  have setS : ∀ {x y : R Exec}, Sim M (ERel M st st' frs cs cs') x y →
      Sim M (ERel M st st' frs cs cs') (x >>= fun e' => Pure.pure { e' with s := e'.s + 1 }) (y >>= fun e' => Pure.pure { e' with s := e'.s + 1 }) :=
    fun h => h.bind fun e1 e1' h1 => { h1 with s := by simp only [h1.s] }
  cases hi with
  | putStructure x hr hc =>
    have hq := h.push hc
    simp only [stepData]
    rw [← hq.hp.size]
    exact hq.setReg x (.str _)
  | setVariable x hv => exact (h.pushRef hv).setReg x (h.newRef hv)
  | setPermVariable hf hy hv => exact (h.pushRef hv).setPerm hf hy (h.newRef hv)
  | setValue x => exact (h.reg x).bind fun c c' hc => h.push hc
  | setPermValue hf hy => exact (h.perm hf hy).bind fun c c' hc => h.push hc
  | getStructure x hr hc => exact getStructure_sim T hp h x hc hr
  | unifyStructure x hr hc => exact unifyStructure_sim T hp h x hc hr
  | unifyVariable x hv =>
    refine setS ?_
    rw [← h.mode, ← h.s]
    split
    · exact h.setReg x (.str _)
    · exact (h.pushRef hv).setReg x (h.newRef hv)
  | unifyPermVariable hf hy hv =>
    refine setS ?_
    rw [← h.mode, ← h.s]
    split
    · exact h.setPerm hf hy (.str _)
    · exact (h.pushRef hv).setPerm hf hy (h.newRef hv)
  | unifyValue x => exact (h.reg x).bind fun c c' hc => unifyVal_sim T hp h n hc
  | unifyPermValue hf hy => exact (h.perm hf hy).bind fun c c' hc => unifyVal_sim T hp h n hc
  | putVariable x a hv => exact ((h.pushRef hv).setReg x (h.newRef hv)).bind fun e1 e1' h1 => h1.setReg a (h.newRef hv)
  | putPermVariable a hf hy hv => exact ((h.pushRef hv).setPerm hf hy (h.newRef hv)).bind fun e1 e1' h1 => h1.setReg a (h.newRef hv)
  | putValue x a => exact (h.reg x).bind fun c c' hc => h.setReg a hc
  | putPermValue a hf hy => exact (h.perm hf hy).bind fun c c' hc => h.setReg a hc
  | getVariable x a => exact (h.reg a).bind fun c c' hc => h.setReg x hc
  | getPermVariable a hf hy => exact (h.reg a).bind fun c c' hc => h.setPerm hf hy hc
  | getValue x a =>
    refine (h.reg x).bind fun c c' hc => (addr_sim hc).bind ?_
    rintro p _ rfl
    refine (h.reg a).bind fun c c' hc => (addr_sim hc).bind ?_
    rintro q _ rfl
    exact h.unify T hp _ _ _
  | getPermValue a hf hy =>
    refine (h.perm hf hy).bind fun c c' hc => (addr_sim hc).bind ?_
    rintro p _ rfl
    refine (h.reg a).bind fun c c' hc => (addr_sim hc).bind ?_
    rintro q _ rfl
    exact h.unify T hp _ _ _
  | builtin b l r hb =>
    cases b with
    | is => exact isPred_sim T (hb rfl) hp h n l r
    | eq => exact equalsCheck_sim T hp h n l r
    | neq => exact notEqualsCheck_sim T hp h n l r

end
end PBfs
