import Verif.Proof.Plain
import Verif.Proof.Exact
/-! # What the executors of an interpreter can complain about -/
namespace PBfs
open Org

/-- The error of the second executor is that of the first one, or was found in an arithmetic expression. -/
def ErrFrom (pre : Nat → Option Cell) (st : Storage) (e e' : Exec) : Prop :=
  e'.err = e.err ∨ ∃ x, e'.err = some x ∧ ∃ h n a, evalArith pre st h n a = .ok (.inl x)

theorem ErrFrom.setS {pre st} {e e' : Exec} {k} (h : ErrFrom pre st e e') : ErrFrom pre st e { e' with s := k } := h

theorem ErrFrom.trans {pre st} {a b c : Exec} (h : ErrFrom pre st a b) (h' : ErrFrom pre st b c) : ErrFrom pre st a c := by
  rcases h' with h' | h'
  · rcases h with h | ⟨x, h, hx⟩
    · exact .inl (h'.trans h)
    · exact .inr ⟨x, h'.trans h, hx⟩
  · exact .inr h'

theorem exec_unify_err {pre fuel st} {e e' : Exec} {a b} (h : e.unify pre fuel a b = .ok e') : ErrFrom pre st e e' := by
  simp only [Exec.unify, bind_ok, pure_ok, PBfs.unify] at h
  obtain ⟨r, hr, rfl⟩ := h
  exact .inl rfl

theorem stepData_errFrom {pre fuel st} {i : Instr} {e e' : Exec} (h : stepData pre fuel st i e = .ok e') :
    ErrFrom pre st e e' := by
  cases i with
  | putStructure c x =>
    obtain ⟨_, rfl⟩ := setReg_ok h
    exact .inl rfl
  | setVariable x v =>
    obtain ⟨_, rfl⟩ := setReg_ok h
    exact .inl rfl
  | setPermVariable y v =>
    obtain ⟨env, rest, he, _, rfl⟩ := setPerm_ok h
    exact .inl rfl
  | setValue x =>
    simp only [stepData, bind_ok, pure_ok] at h
    obtain ⟨c, _, rfl⟩ := h
    exact .inl rfl
  | setPermValue x =>
    simp only [stepData, bind_ok, pure_ok] at h
    obtain ⟨c, _, rfl⟩ := h
    exact .inl rfl
  | getStructure c x =>
    simp only [stepData, getStructure, bind_ok] at h
    obtain ⟨r, _, a, _, d, _, cell, _, h⟩ := h
    split at h
    · simp only [bind_ok, pure_ok] at h
      obtain ⟨hp, hb, rfl⟩ := h
      exact .inl rfl
    · split at h
      · simp only [pure_ok] at h; subst h; exact .inl rfl
      · simp only [pure_ok] at h; subst h; exact .inl rfl
  | unifyStructure c x =>
    simp only [stepData, unifyStructure] at h
    split at h
    · simp only [bind_ok, pure_ok] at h
      obtain ⟨d, _, cell, _, e1, h1, rfl⟩ := h
      refine ErrFrom.setS ?_
      split at h1
      · simp only [bind_ok, pure_ok] at h1
        obtain ⟨hp, hb, rfl⟩ := h1
        exact .inl rfl
      · split at h1
        · simp only [pure_ok] at h1; subst h1; exact .inl rfl
        · simp only [pure_ok] at h1; subst h1; exact .inl rfl
    · simp only [bind_ok, pure_ok] at h
      obtain ⟨e1, h1, rfl⟩ := h
      obtain ⟨_, rfl⟩ := setReg_ok h1
      exact .inl rfl
  | unifyVariable x v =>
    simp only [stepData, bind_ok, pure_ok] at h
    obtain ⟨e1, h1, rfl⟩ := h
    refine ErrFrom.setS ?_
    split at h1
    · obtain ⟨_, rfl⟩ := setReg_ok h1
      exact .inl rfl
    · obtain ⟨_, rfl⟩ := setReg_ok h1
      exact .inl rfl
  | unifyPermVariable y v =>
    simp only [stepData, bind_ok, pure_ok] at h
    obtain ⟨e1, h1, rfl⟩ := h
    refine ErrFrom.setS ?_
    split at h1
    · obtain ⟨env, rest, he, _, rfl⟩ := setPerm_ok h1
      exact .inl rfl
    · obtain ⟨env, rest, he, _, rfl⟩ := setPerm_ok h1
      exact .inl rfl
  | unifyValue x =>
    simp only [stepData, unifyVal, bind_ok, pure_ok] at h
    obtain ⟨r, _, e1, h1, rfl⟩ := h
    refine ErrFrom.setS ?_
    split at h1
    · simp only [bind_ok] at h1
      obtain ⟨a, _, h1⟩ := h1
      exact exec_unify_err h1
    · simp only [pushValue, bind_ok] at h1
      obtain ⟨a, _, d, _, cell, _, h1⟩ := h1
      split at h1 <;> first | (simp only [pure_ok] at h1; subst h1; exact .inl rfl) | cases h1
  | unifyPermValue y =>
    simp only [stepData, unifyVal, bind_ok, pure_ok] at h
    obtain ⟨r, _, e1, h1, rfl⟩ := h
    refine ErrFrom.setS ?_
    split at h1
    · simp only [bind_ok] at h1
      obtain ⟨a, _, h1⟩ := h1
      exact exec_unify_err h1
    · simp only [pushValue, bind_ok] at h1
      obtain ⟨a, _, d, _, cell, _, h1⟩ := h1
      split at h1 <;> first | (simp only [pure_ok] at h1; subst h1; exact .inl rfl) | cases h1
  | putVariable x a v =>
    simp only [stepData, bind_ok] at h
    obtain ⟨e1, h1, h⟩ := h
    obtain ⟨_, rfl⟩ := setReg_ok h1
    obtain ⟨_, rfl⟩ := setReg_ok h
    exact .inl rfl
  | putPermVariable y a v =>
    simp only [stepData, bind_ok] at h
    obtain ⟨e1, h1, h⟩ := h
    obtain ⟨env, rest, he, _, rfl⟩ := setPerm_ok h1
    obtain ⟨_, rfl⟩ := setReg_ok h
    exact .inl rfl
  | putValue x a =>
    simp only [stepData, bind_ok] at h
    obtain ⟨c, _, h⟩ := h
    obtain ⟨_, rfl⟩ := setReg_ok h
    exact .inl rfl
  | putPermValue y a =>
    simp only [stepData, bind_ok] at h
    obtain ⟨c, _, h⟩ := h
    obtain ⟨_, rfl⟩ := setReg_ok h
    exact .inl rfl
  | getVariable x a =>
    simp only [stepData, bind_ok] at h
    obtain ⟨c, _, h⟩ := h
    obtain ⟨_, rfl⟩ := setReg_ok h
    exact .inl rfl
  | getPermVariable y a =>
    simp only [stepData, bind_ok] at h
    obtain ⟨c, _, h⟩ := h
    obtain ⟨env, rest, he, _, rfl⟩ := setPerm_ok h
    exact .inl rfl
  | getValue x a =>
    simp only [stepData, bind_ok] at h
    obtain ⟨_, _, _, _, _, _, _, _, h⟩ := h
    exact exec_unify_err h
  | getPermValue y a =>
    simp only [stepData, bind_ok] at h
    obtain ⟨_, _, _, _, _, _, _, _, h⟩ := h
    exact exec_unify_err h
  | builtin b l r =>
    cases b with
    | is =>
      simp only [stepData, isPred, bind_ok] at h
      obtain ⟨cr, _, b, _, v, _, h⟩ := h
      split at h
      · simp only [pure_ok] at h; subst h
        rename_i hv; exact .inr ⟨_, rfl, _, _, _, hv⟩
      · simp only [bind_ok] at h
        obtain ⟨cl, _, a, _, d, _, cell, _, h⟩ := h
        split at h
        · simp only [pure_ok] at h; subst h
          split
          · exact .inl rfl
          · exact .inl rfl
        · split at h
          · cases h
          · simp only [bind_ok, pure_ok] at h
            obtain ⟨hp, hb, rfl⟩ := h
            exact .inl rfl
        · simp only [pure_ok] at h; subst h; exact .inl rfl
    | eq =>
      simp only [stepData, equalsCheck, bind_ok, pure_ok] at h
      obtain ⟨cl, _, a, _, cr, _, b, _, eq, _, rfl⟩ := h
      split
      · exact .inl rfl
      · exact .inl rfl
    | neq =>
      simp only [stepData, notEqualsCheck, equalsCheck, bind_ok, pure_ok] at h
      obtain ⟨e1, ⟨cl, _, a, _, cr, _, b, _, eq, _, rfl⟩, rfl⟩ := h
      cases eq
      · simp only [Bool.false_eq_true, if_false]
        split
        · exact .inl rfl
        · exact .inl rfl
      · simp only [if_true]
        split
        · exact .inl rfl
        · exact .inl rfl
  | allocate n =>
    simp only [stepData, pure_ok] at h
    subst h
    exact .inl rfl
  | call f => cases h
  | proceed => cases h
  | deallocate => cases h

theorem runData_errFrom {pre fuel st} {is : List Instr} {e e' : Exec}
    (h : runData pre fuel st is e = .ok e') : ErrFrom pre st e e' := by
  induction is generalizing e with
  | nil => simp only [runData, pure_ok] at h; subst h; exact .inl rfl
  | cons i is ih =>
    simp only [runData, bind_ok] at h
    obtain ⟨e1, h1, h⟩ := h
    split at h
    · simp only [pure_ok] at h; subst h; exact stepData_errFrom h1
    · rename_i hf
      exact (stepData_errFrom h1).trans (ih h)

theorem natStr_plain (n : Nat) : Plain (natStr n) := by
  intro c hc
  have := Nat.isDigit_of_mem_toDigits (b := 10) (by decide) (by decide) hc
  left
  simp only [Char.isDigit, ge_iff_le, Bool.and_eq_true, decide_eq_true_eq] at this
  have hd : isDigit c = true := by
    simp only [isDigit, Bool.and_eq_true, decide_eq_true_eq]
    exact this
  simp [isWord, hd]

theorem intStr_plain (v : Int) : Plain (intStr v) := by
  unfold intStr
  split
  · exact natStr_plain _
  · rw [show '-' :: natStr v.natAbs = n!"-" ++ natStr v.natAbs from rfl, plain_append]
    exact ⟨by decide, natStr_plain _⟩

theorem FV.str_plain {f : FV} (h : Plain f.name) : Plain f.str := by
  unfold FV.str
  rw [plain_append, plain_append]
  exact ⟨⟨h, by decide⟩, natStr_plain _⟩

theorem Storage.Plain.functorAt {st : Storage} (h : st.Plain) {i f} (hf : st.functorAt i = some f) : PBfs.Plain f.name := by
  unfold Storage.functorAt at hf
  split at hf
  · exact h.fn f (List.mem_of_getElem? hf)
  · cases hf

theorem Storage.Plain.varAt {st : Storage} (h : st.Plain) {i n} (hf : st.varAt i = some n) : PBfs.Plain n := by
  unfold Storage.varAt at hf
  split at hf
  · exact h.var n (List.mem_of_getElem? hf)
  · cases hf

theorem checkEvaluable_plain {pre} {st : Storage} {h : Hp} {c x} (hs : st.Plain) (he : checkEvaluable pre st h c = .ok (some x)) : Plain x.mention := by
  have key : ∀ {i f}, functorOfAddr pre st h i = .ok f → Plain f.name := by
    intro i f hf
    simp only [functorOfAddr, bind_ok, orFault_ok] at hf
    obtain ⟨cell, _, hf⟩ := hf
    exact hs.functorAt hf
  unfold checkEvaluable at he
  split at he
  · simp only [bind_ok, pure_ok, Option.some.injEq] at he
    obtain ⟨f, hf, rfl⟩ := he
    exact FV.str_plain (key hf)
  · simp only [bind_ok, pure_ok, Option.some.injEq] at he
    obtain ⟨f, hf, rfl⟩ := he
    exact FV.str_plain (key hf)
  · simp only [bind_ok, pure_ok, Option.some.injEq, orFault_ok] at he
    obtain ⟨f, hf, rfl⟩ := he
    exact hs.varAt hf
  · cases he

theorem evalArith_plain {pre} {st : Storage} {h : Hp} (hs : st.Plain) : ∀ {n a x}, evalArith pre st h n a = .ok (.inl x) → Plain x.mention := by
  intro n
  induction n with
  | zero => intro a x h; cases h
  | succ n ih =>
    intro a x he
    simp only [evalArith, bind_ok, orFault_ok] at he
    obtain ⟨d, _, c, _, err, hc, he⟩ := he
    split at he
    · simp only [pure_ok, Sum.inl.injEq] at he
      subst he
      exact checkEvaluable_plain hs hc
    · split at he
      · cases he
      · simp only [bind_ok] at he
        obtain ⟨l, hl, he⟩ := he
        split at he
        · simp only [pure_ok, Sum.inl.injEq] at he
          subst he
          exact ih hl
        · simp only [bind_ok] at he
          obtain ⟨r, hr, he⟩ := he
          split at he
          · simp only [pure_ok, Sum.inl.injEq] at he
            subst he
            exact ih hr
          · split at he
            · simp only [pure_ok, Sum.inl.injEq] at he
              subst he
              exact Plain.nil
            · simp only [bind_ok, pure_ok] at he
              obtain ⟨_, _, he⟩ := he
              cases he
      · cases he

/-! ## The invariant -/

structure PlainOrg (o : Org) : Prop where
  st : o.st.Plain
  code : AllCode CAtom.Plain o
  err : ∀ e ∈ o.execs, ∀ x, e.err = some x → Plain x.mention

theorem PlainOrg.setErr {o : Org} (h : PlainOrg o) {id : Nat} {x : Exec} {news : List Exec} {l : List Exec} (h1 : l = o.execs.set id x ++ news)
    (hx : ∀ y, x.err = some y → Plain y.mention) (hn : ∀ n ∈ news, n.err = none) : ∀ e ∈ l, ∀ y, e.err = some y → Plain y.mention := by
  intro e he y hy
  rw [h1, List.mem_append] at he
  rcases he with he | he
  · rcases List.mem_or_eq_of_mem_set he with he | rfl
    · exact h.err e he y hy
    · exact hx y hy
  · rw [hn e he] at hy; cases hy

theorem PlainOrg.setErr1 {o : Org} (h : PlainOrg o) {id : Nat} {x : Exec} (hx : ∀ y, x.err = some y → Plain y.mention) :
    ∀ e ∈ o.execs.set id x, ∀ y, e.err = some y → Plain y.mention :=
  h.setErr (news := []) (by simp; rfl) hx (by simp)

theorem PlainOrg.data {o : Org} (h : PlainOrg o) {e e1 : Exec} {id : Nat} {t ds pre fuel} (he : o.execs[id]? = some e)
    (hr : runData pre fuel o.st ds (e.start t) = .ok e1) : ∀ y, e1.err = some y → Plain y.mention := by
  intro y hy
  rcases runData_errFrom hr with h1 | ⟨x, h1, _, _, _, h2⟩
  · rw [h1] at hy
    exact h.err e (List.mem_of_getElem? he) y hy
  · rw [h1] at hy; cases hy
    exact evalArith_plain h.st h2

/-! ## Printing -/

theorem renderArgs_plain {rep : Nat → R Name} (hr : ∀ a s, rep a = .ok s → Plain s) {d} : ∀ {k i s}, renderArgs rep d i k = .ok s → Plain s := by
  intro k
  induction k with
  | zero => intro i s h; exact hr _ _ h
  | succ k ih =>
    intro i s h
    simp only [renderArgs, bind_ok, pure_ok] at h
    obtain ⟨a, h1, b, h2, rfl⟩ := h
    rw [plain_append, plain_append]
    exact ⟨⟨hr _ _ h1, by decide⟩, ih h2⟩

theorem Plain.dropLast {s : Name} (h : Plain s) : Plain s.dropLast := fun c hc => h c (List.mem_of_mem_dropLast hc)

theorem arithNames_plain (f : Nat) : Plain (arithNames.getD f []) := by
  rw [List.getD_eq_getElem?_getD]
  cases h : arithNames[f]? with
  | none => exact Plain.nil
  | some x =>
    have : ∀ x ∈ arithNames, Plain x := by decide
    exact this x (List.mem_of_getElem? h)

theorem stringRep_plain {pre} {h : Hp} {st : Storage} {subs} (hs : st.Plain) : ∀ {n contig a s}, stringRep pre h st subs n contig a = .ok s → Plain s := by
  intro n
  induction n with
  | zero => intro _ _ _ h; cases h
  | succ n ih =>
    intro contig a s hr
    simp only [stringRep, bind_ok, orFault_ok] at hr
    obtain ⟨d, _, c, _, hr⟩ := hr
    split at hr
    · simp only [bind_ok, orFault_ok, pure_ok] at hr
      obtain ⟨name, hn, rfl⟩ := hr
      split
      · rw [plain_append]; exact ⟨hs.varAt hn, natStr_plain _⟩
      · exact hs.varAt hn
    · simp only [pure_ok] at hr; subst hr; exact intStr_plain _
    · simp only [bind_ok, orFault_ok, pure_ok] at hr
      obtain ⟨f, hf, rfl⟩ := hr
      exact hs.functorAt hf
    · simp only [bind_ok, orFault_ok] at hr
      obtain ⟨f, hf, hr⟩ := hr
      split at hr
      · simp only [pure_ok] at hr; subst hr
        split <;> decide
      · split at hr
        · cases hr
        · split at hr
          · simp only [bind_ok, orFault_ok, pure_ok] at hr
            obtain ⟨hd, h1, r, _, rest, _, tl, h2, rfl⟩ := hr
            have hb : Plain (hd ++ (if rest.isRef then n!"|" else n!",") ++ tl) := by
              rw [plain_append, plain_append]
              exact ⟨⟨ih h1, by split <;> decide⟩, ih h2⟩
            split
            · exact hb
            · rw [plain_append]
              refine ⟨Plain.dropLast ?_, by decide⟩
              rw [plain_append]
              exact ⟨by decide, hb⟩
          · simp only [bind_ok, pure_ok] at hr
            obtain ⟨args, h1, rfl⟩ := hr
            rw [plain_append, plain_append, plain_append]
            refine ⟨⟨⟨hs.functorAt hf, by decide⟩, ?_⟩, by decide⟩
            split at h1
            · exact ih h1
            · exact renderArgs_plain (fun _ _ h => ih h) h1
    · simp only [bind_ok, pure_ok] at hr
      obtain ⟨l, h1, r, h2, rfl⟩ := hr
      simp only [plain_append]
      exact ⟨⟨⟨⟨⟨⟨by decide, ih h1⟩, by decide⟩, arithNames_plain _⟩, by decide⟩, ih h2⟩, by decide⟩
    · cases hr

/-- Both sides of the binding are plain. -/
def Binding.Plain (b : Binding) : Prop := PBfs.Plain b.name ∧ PBfs.Plain b.value

theorem Binding.Plain.str {b : Binding} (h : b.Plain) : PBfs.Plain b.str := by
  unfold Binding.str
  simp only [plain_append]
  exact ⟨⟨⟨⟨by decide, h.1⟩, by decide⟩, h.2⟩, by decide⟩

theorem bindingsStr_plain : ∀ {bs : List Binding}, (∀ b ∈ bs, b.Plain) → Plain (bindingsStr bs)
  | [], _ => Plain.nil
  | [b], h => (h b (by simp)).str
  | b :: c :: bs, h => by
    unfold bindingsStr
    simp only [plain_append]
    exact ⟨⟨(h b (by simp)).str, by decide⟩, bindingsStr_plain fun x hx => h x (by simp only [List.mem_cons] at hx ⊢; exact .inr hx)⟩

theorem answerStr_plain {r : Option (List Binding)} (h : ∀ bs, r = some bs → ∀ b ∈ bs, b.Plain) : Plain (answerStr r) := by
  unfold answerStr
  split
  · decide
  · decide
  · exact bindingsStr_plain (h _ rfl)

theorem pointSubs_plain {e : Exec} : ∀ {vs : List VarReg} {l}, (∀ v ∈ vs, Plain v.name) → pointSubs e vs = .ok l → ∀ x ∈ l, Plain x.1
  | [], l, _, h => by simp only [pointSubs, pure_ok] at h; subst h; simp
  | v :: vs, l, hv, h => by
    simp only [pointSubs, bind_ok, pure_ok] at h
    obtain ⟨c, _, a, _, rest, hr, rfl⟩ := h
    simp only [List.mem_cons, forall_eq_or_imp]
    exact ⟨hv v (by simp), pointSubs_plain (fun v h => hv v (by simp [h])) hr⟩

theorem code_atom {o : Org} {t : TCode} {a} (h : o.code t = .ok a) : a = t.atom := by
  unfold Org.code at h
  split at h
  · cases h
  · cases h; rfl

theorem PlainOrg.collectSubs {o : Org} (h : PlainOrg o) : ∀ {n p l}, o.collectSubs n p = .ok l → ∀ x ∈ l, Plain x.1 := by
  intro n
  induction n with
  | zero => intro p l h; cases h
  | succ n ih =>
    intro p l hl
    simp only [Org.collectSubs, bind_ok] at hl
    obtain ⟨e, he, hl⟩ := hl
    split at hl
    · rename_i t hc
      simp only [bind_ok] at hl
      obtain ⟨a, ha, subs, hsub, hl⟩ := hl
      have hm : e ∈ o.execs := by
        simp only [Org.exec, orFault_ok] at he
        exact List.mem_of_getElem? he
      have hsp : ∀ x ∈ subs, Plain x.1 := by
        rw [code_atom ha] at hsub
        split at hsub
        · exact pointSubs_plain (h.code.exec e hm t (by simp [hc])).subst hsub
        · simp only [pure_ok] at hsub; subst hsub; simp
      split at hl
      · simp only [pure_ok] at hl; subst hl; exact hsp
      · simp only [bind_ok] at hl
        obtain ⟨f, _, hl⟩ := hl
        split at hl
        · cases hl
        · simp only [bind_ok, pure_ok] at hl
          obtain ⟨rest, hr, rfl⟩ := hl
          intro x hx
          rcases List.mem_append.1 hx with hx | hx
          · exact hsp x hx
          · exact ih hr x hx
    · cases hl

theorem renderSubs_plain {rep : Nat → R Name} (hr : ∀ a s, rep a = .ok s → Plain s) : ∀ {subs : List (Name × Nat)} {acc bs}, (∀ x ∈ subs, Plain x.1) →
    (∀ b ∈ acc, b.Plain) → renderSubs rep subs acc = .ok bs → ∀ b ∈ bs, b.Plain
  | [], acc, bs, _, ha, h => by simp only [renderSubs, pure_ok] at h; subst h; exact ha
  | (v, a) :: rest, acc, bs, hs, ha, h => by
    unfold renderSubs at h
    split at h
    · exact renderSubs_plain hr (fun x hx => hs x (by simp [hx])) ha h
    · simp only [bind_ok] at h
      obtain ⟨s, h1, h⟩ := h
      refine renderSubs_plain hr (fun x hx => hs x (by simp [hx])) (fun b hb => ?_) h
      simp only [List.mem_append, List.mem_singleton] at hb
      rcases hb with hb | rfl
      · exact ha b hb
      · exact ⟨hs (v, a) (by simp), hr _ _ h1⟩

theorem PlainOrg.answer {o : Org} (h : PlainOrg o) {fuel id bs} (ha : o.answer fuel id = .ok bs) : ∀ b ∈ bs, b.Plain := by
  simp only [Org.answer, bind_ok] at ha
  obtain ⟨e, _, ha⟩ := ha
  split at ha
  · cases ha
  · simp only [bind_ok] at ha
    obtain ⟨subs, h1, ha⟩ := ha
    exact renderSubs_plain (fun _ _ h2 => stringRep_plain h.st h2) (h.collectSubs h1) (by simp) ha

/-- What is reported is plain. -/
def Org.Turn.Plain : Org.Turn → Prop
  | .continue => True
  | .answer bs => ∀ b ∈ bs, b.Plain
  | .error x => PBfs.Plain x.mention

theorem PlainOrg.turn {o o' : Org} {fuel r} (h : PlainOrg o) (hf : FInv o) (ht : o.turn fuel = .ok (o', r)) : PlainOrg o' ∧ r.Plain := by
  have hcode := h.code.turn hf ht
  cases hq : o.queue with
  | nil =>
    simp only [Org.turn, hq, pure_ok, Prod.mk.injEq] at ht
    rw [← ht.1, ← ht.2]; exact ⟨h, trivial⟩
  | cons id q =>
    have inv := hf.rinv.inv
    obtain ⟨e, he, hrun, _⟩ := inv.qrun id (by simp [hq])
    cases hc : e.codes with
    | nil => simp [Org.turn, hq, turnOf, Org.exec, he, hc] at ht
    | cons t ts =>
      rcases hf.front hq he hc with ⟨ds, h1, h2, _, h4⟩ | hg | ⟨h1, env, es', h2, h3⟩
      · obtain ⟨e1, hr, hst, hx⟩ := turn_proceed inv hq he hc h1 h2 ht
        have hd := h.data he hr
        rcases hx with ⟨k1, k2, rfl⟩ | ⟨err, k1, k2, k3, rfl⟩ | ⟨k1, k2, ⟨bs, k3, k4⟩, rfl⟩ | ⟨k1, k2, k3, rfl⟩
        · subst k2
          exact ⟨⟨h.st, hcode, h.setErr1 (by exact hd)⟩, trivial⟩
        · subst k3
          exact ⟨⟨h.st, hcode, h.setErr1 (by exact hd)⟩, hd _ k2⟩
        · subst k3
          have hp : PlainOrg { o with queue := q, execs := o.execs.set id { e1.clear with state := .success } } :=
            ⟨h.st, hcode, h.setErr1 (by exact hd)⟩
          exact ⟨hp, hp.answer k4⟩
        · subst k3
          exact ⟨⟨h.st, hcode, h.setErr rfl (by exact hd) (by simp [proceedChild])⟩, trivial⟩
      · obtain ⟨ds, h1, h2, _, h3⟩ := hg
        obtain ⟨e1, hr, k2, hst, hx⟩ := turn_call inv hq he hc h1 h2 (fun e1 hr => (h3 _ _ _ (e.start t.atom) _ rfl hrun hr).1) ht
        have hd := h.data he hr
        subst k2
        rcases hx with ⟨_, rfl⟩ | ⟨rules, hrl, rfl⟩
        · exact ⟨⟨h.st, hcode, h.setErr1 (by exact hd)⟩, trivial⟩
        · refine ⟨⟨h.st, hcode, h.setErr rfl (by exact hd) ?_⟩, trivial⟩
          intro n hn
          obtain ⟨r, hm, rfl⟩ := List.mem_map.1 hn
          rfl
      · obtain ⟨env', es2, k1, k2, _, rfl⟩ := turn_dealloc inv hq he hc (by rw [h1]; rfl) ht
        subst k2
        exact ⟨⟨h.st, hcode, h.setErr1 (by exact h.err e (List.mem_of_getElem? he))⟩, trivial⟩

/-- What is reported is plain. -/
def Org.Res.Plain : Org.Res → Prop
  | .answer bs => ∀ b ∈ bs, b.Plain
  | .error x => PBfs.Plain x.mention
  | _ => True

theorem PlainOrg.getAnswer {o o' : Org} {fuel clock r} (h : PlainOrg o) (hf : FInv o) (ha : o.getAnswer fuel clock = .ok (o', r)) : PlainOrg o' ∧ r.Plain := by
  induction clock generalizing o with
  | nil =>
    unfold Org.getAnswer at ha
    split at ha <;> (simp only [pure_ok, Prod.mk.injEq] at ha; rw [← ha.1, ← ha.2]; exact ⟨h, trivial⟩)
  | cons c clock ih =>
    unfold Org.getAnswer at ha
    split at ha
    · simp only [pure_ok, Prod.mk.injEq] at ha; rw [← ha.1, ← ha.2]; exact ⟨h, trivial⟩
    · cases c with
      | true => simp only [pure_ok, Prod.mk.injEq] at ha; rw [← ha.1, ← ha.2]; exact ⟨h, Plain.nil⟩
      | false =>
        simp only [bind_ok] at ha
        obtain ⟨⟨o1, t⟩, h1, ha⟩ := ha
        have h' := h.turn hf h1
        cases t with
        | «continue» => exact ih h'.1 (hf.turn h1) ha
        | answer => simp only [pure_ok, Prod.mk.injEq] at ha; rw [← ha.1, ← ha.2]; exact h'
        | error => simp only [pure_ok, Prod.mk.injEq] at ha; rw [← ha.1, ← ha.2]; exact h'

theorem PlainOrg.program {o : Org} (h : PlainOrg o) (ord text) : PlainOrg (o.loadProgramText ord text).1 := by
  unfold Org.loadProgramText
  split
  · rename_i p hp
    have hc := parseProgram_plain hp
    unfold Org.loadProgram
    simp only
    have hl := compileProgram_plain (ord := ord) (p := []) hc h.st
    cases hr : compileProgram ord p [] o.st with
    | error x => rw [hr] at hl; exact ⟨hl, ⟨h.code.exec, h.code.prog, h.code.bi⟩, h.err⟩
    | ok x =>
      rw [hr] at hl
      exact ⟨hl, ⟨h.code.exec, mergeBuiltins_all h.code.bi (compileProgram_atoms hc (by intro f rs h; simp [Program.rules?] at h) hr), h.code.bi⟩, h.err⟩
  · exact h

theorem PlainOrg.query {o : Org} (h : PlainOrg o) (ord text) : PlainOrg (o.loadQueryText ord text).1 := by
  have hno : PlainOrg (o.loadQuery ord none).1 := ⟨h.st, ⟨h.code.exec, h.code.prog, h.code.bi⟩, h.err⟩
  unfold Org.loadQueryText
  split
  · rename_i q hp
    have hc := parseQuery_plain hp
    unfold Org.loadQuery
    simp only
    have hl := compileQuery_plain (ord := ord) hc h.st
    cases hr : compileQuery ord q o.st with
    | error x => rw [hr] at hl; exact ⟨hl, ⟨h.code.exec, h.code.prog, h.code.bi⟩, h.err⟩
    | ok x =>
      rw [hr] at hl
      refine ⟨hl, ⟨?_, h.code.prog, h.code.bi⟩, by simp [initExec]⟩
      intro e he t ht
      simp only [List.mem_singleton] at he
      subst he
      simp only [initExec, List.mem_map] at ht
      obtain ⟨c, hcq, rfl⟩ := ht
      exact compileQuery_atoms hc hr c hcq
  · exact hno
  · exact hno

theorem PlainOrg.memory {o : Org} (h : PlainOrg o) : PlainOrg o.clearMemory := by
  have key : ∀ x ∈ o.clearMemory.execs, ∃ e ∈ o.execs, x = { e with codes := e.codes.map fun t => ⟨o.gen, t.atom⟩, children := [] } := by
    intro x hx
    cases hl : o.execs with
    | nil => simp [Org.clearMemory, hl] at hx
    | cons e es => exact ⟨e, by simp, by simpa [Org.clearMemory, hl] using hx⟩
  refine ⟨?_, ⟨fun x hx t ht => ?_, by simp [Org.clearMemory, Program.rules?], by simp [Org.clearMemory]⟩, fun x hx y hy => ?_⟩
  · exact ⟨by simp [Org.clearMemory], by simp [Org.clearMemory]⟩
  · obtain ⟨e, he, rfl⟩ := key x hx
    obtain ⟨t', h3, rfl⟩ := List.mem_map.1 ht
    exact h.code.exec e he t' h3
  · obtain ⟨e, he, rfl⟩ := key x hx
    exact h.err e he y hy

mutual
def Node.plainB : Node → Bool
  | .var n => decide (PBfs.Plain n)
  | .cons n => decide (PBfs.Plain n)
  | .int _ => true
  | .fn n cs => decide (PBfs.Plain n) && Node.plainsB cs
  | .efn n cs => decide (PBfs.Plain n) && Node.plainsB cs
def Node.plainsB : List Node → Bool
  | [] => true
  | c :: cs => c.plainB && Node.plainsB cs
end

mutual
theorem Node.plain_of_b : ∀ {n : Node}, n.plainB = true → n.Plain
  | .var n, h => by simpa only [Node.plainB, Node.Plain, decide_eq_true_eq] using h
  | .cons n, h => by simpa only [Node.plainB, Node.Plain, decide_eq_true_eq] using h
  | .int _, _ => trivial
  | .fn n cs, h => by
    simp only [Node.plainB, Bool.and_eq_true, decide_eq_true_eq] at h
    exact ⟨h.1, Node.plains_of_b h.2⟩
  | .efn n cs, h => by
    simp only [Node.plainB, Bool.and_eq_true, decide_eq_true_eq] at h
    exact ⟨h.1, Node.plains_of_b h.2⟩
theorem Node.plains_of_b : ∀ {cs : List Node}, Node.plainsB cs = true → Node.Plains cs
  | [], _ => trivial
  | c :: cs, h => by
    simp only [Node.plainsB, Bool.and_eq_true] at h
    exact ⟨Node.plain_of_b h.1, Node.plains_of_b h.2⟩
end

theorem init0_atoms : ∀ x ∈ Org.init0.builtins, ∀ r ∈ x.2, ∀ c ∈ r, c.Plain := by
  have : Org.init0.builtins.all (fun e => e.2.all fun r => r.all fun c => c.parsed.plainB && c.subst.all fun v => decide (Plain v.name)) = true := by
    decide +kernel
  intro e he r hr c hc
  simp only [List.all_eq_true] at this
  have := this e he r hr c hc
  simp only [Bool.and_eq_true, List.all_eq_true, decide_eq_true_eq] at this
  exact ⟨Node.plain_of_b this.1, this.2⟩

theorem init0_st : Org.init0.st.Plain := by
  have h1 : ∀ f ∈ Org.init0.st.functors, Plain f.name := by decide +kernel
  have h2 : ∀ v ∈ Org.init0.st.vars, Plain v := by decide +kernel
  exact ⟨h1, h2⟩

theorem init0_plain : PlainOrg Org.init0 := by
  have h2 := Org.init_eq
  unfold Org.init at h2
  simp only [bind_ok, pure_ok] at h2
  obtain ⟨⟨b, st⟩, _, h2⟩ := h2
  have hx : Org.init0.execs = [initExec []] := by rw [← h2]
  refine ⟨init0_st, ⟨by rw [hx]; simp [initExec], ?_, init0_atoms⟩, by rw [hx]; simp [initExec]⟩
  rw [Org.init0_program]
  intro f rs hf
  refine init0_atoms (f, rs) ?_
  unfold Program.rules? at hf
  revert hf
  induction Org.init0.builtins with
  | nil => simp
  | cons e p ih =>
    intro hf
    obtain ⟨g, qs⟩ := e
    rw [List.lookup_cons] at hf
    split at hf
    · rename_i hb
      have : f = g := by simpa using hb
      cases hf; simp [this]
    · exact List.mem_cons_of_mem _ (ih hf)

theorem TextFed.reach {o : Org} (h : TextFed o) : Reach o := by
  induction h with
  | init h => exact .init h
  | program ord text _ ih =>
    unfold Org.loadProgramText
    split <;> exact .program _ _ ih
  | query ord text _ ih =>
    unfold Org.loadQueryText
    split <;> exact .query _ _ ih
  | answer _ ha ih => exact .answer ih ha
  | memory _ ih => exact .memory ih

theorem TextFed.plain {o : Org} (h : TextFed o) : PlainOrg o := by
  induction h with
  | init h => rw [Org.init_eq] at h; cases h; exact init0_plain
  | program ord text _ ih => exact ih.program ord text
  | query ord text _ ih => exact ih.query ord text
  | answer hr ha ih => exact (ih.getAnswer hr.reach.finv ha).1
  | memory _ ih => exact ih.memory

end PBfs
