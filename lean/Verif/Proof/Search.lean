import Verif.Proof.Reach
/-! # Lemmas about sequences of turns -/
namespace PBfs

/-! ## Errors of a turn are errors of evaluation -/

theorem checkEvaluable_kind {pre st h c e} (hc : checkEvaluable pre st h c = .ok (some e)) :
    e.kind ≠ .outOfTime := by
  unfold checkEvaluable at hc
  split at hc
  · simp only [bind_ok, pure_ok, Option.some.injEq] at hc
    obtain ⟨_, _, rfl⟩ := hc; simp
  · simp only [bind_ok, pure_ok, Option.some.injEq] at hc
    obtain ⟨_, _, rfl⟩ := hc; simp
  · simp only [bind_ok, pure_ok, Option.some.injEq] at hc
    obtain ⟨_, _, rfl⟩ := hc; simp
  · simp [pure, Except.pure] at hc

theorem evalArith_kind {pre st h} : ∀ {n a e}, evalArith pre st h n a = .ok (.inl e) → e.kind ≠ .outOfTime := by
  intro n
  induction n with
  | zero => intro a e h; cases h
  | succ n ih =>
    intro a e h
    simp only [evalArith, bind_ok] at h
    obtain ⟨d, _, c, _, er, her, h⟩ := h
    cases er with
    | some e' =>
      simp only [pure_ok, Sum.inl.injEq] at h
      subst h
      exact checkEvaluable_kind her
    | none =>
      simp only at h
      split at h
      · simp [pure, Except.pure] at h
      · simp only [bind_ok] at h
        obtain ⟨l, hl, h⟩ := h
        cases l with
        | inl e' => simp only [pure_ok, Sum.inl.injEq] at h; subst h; exact ih hl
        | inr l =>
          simp only [bind_ok] at h
          obtain ⟨r, hr, h⟩ := h
          cases r with
          | inl e' => simp only [pure_ok, Sum.inl.injEq] at h; subst h; exact ih hr
          | inr r =>
            simp only at h
            split at h
            · simp only [pure_ok, Sum.inl.injEq] at h; subst h; simp
            · simp only [bind_ok, pure_ok] at h
              obtain ⟨v, _, h⟩ := h
              cases h
      · cases h

/-- The error noted in an executor, if any, is not a time-out. -/
def Exec.ErrOK (e : Exec) : Prop := e.state = .running ∨ (e.state = .rtErr → ∃ r, e.err = some r ∧ r.kind ≠ .outOfTime)

theorem stepData_err {pre fuel st} {i : Instr} {e e' : Exec} (h : stepData pre fuel st i e = .ok e')
    (hr : e.state = .running) (he : e'.state = .rtErr) : ∃ r, e'.err = some r ∧ r.kind ≠ .outOfTime := by
  cases i with
  | builtin b l r =>
    cases b with
    | is =>
      simp only [stepData, isPred, bind_ok] at h
      obtain ⟨cr, _, b, _, v, hv, h⟩ := h
      split at h
      · simp only [pure_ok] at h; subst h
        exact ⟨_, rfl, evalArith_kind hv⟩
      · exfalso
        simp only [bind_ok] at h
        obtain ⟨cl, _, a, _, d, _, cell, _, h⟩ := h
        split at h
        · simp only [pure_ok] at h; subst h
          split at he
          · rw [hr] at he; cases he
          · cases he
        · split at h
          · cases h
          · simp only [bind_ok, pure_ok] at h
            obtain ⟨hp, hb, rfl⟩ := h
            have : e.state = .rtErr := he
            rw [hr] at this; cases this
        · simp only [pure_ok] at h; subst h; cases he
    | eq =>
      exfalso
      simp only [stepData, equalsCheck, bind_ok, pure_ok] at h
      obtain ⟨cl, _, a, _, cr, _, b, _, eq, _, rfl⟩ := h
      split at he
      · rw [hr] at he; cases he
      · cases he
    | neq =>
      exfalso
      simp only [stepData, notEqualsCheck, equalsCheck, bind_ok, pure_ok] at h
      obtain ⟨e1, ⟨cl, _, a, _, cr, _, b, _, eq, _, rfl⟩, rfl⟩ := h
      cases eq <;> simp only [Bool.false_eq_true, if_false, if_true] at he <;> split at he <;> cases he
  | getStructure c x =>
    exfalso
    simp only [stepData, getStructure, bind_ok] at h
    obtain ⟨r, _, a, _, d, _, cell, _, h⟩ := h
    split at h
    · simp only [bind_ok, pure_ok] at h
      obtain ⟨hp, hb, rfl⟩ := h
      have : e.state = .rtErr := he
      rw [hr] at this; cases this
    · split at h
      · simp only [pure_ok] at h; subst h
        have : e.state = .rtErr := he
        rw [hr] at this; cases this
      · simp only [pure_ok] at h; subst h; cases he
  | unifyStructure c x =>
    exfalso
    simp only [stepData, unifyStructure] at h
    split at h
    · simp only [bind_ok, pure_ok] at h
      obtain ⟨d, _, cell, _, e1, h1, rfl⟩ := h
      have he1 : e1.state = .rtErr := he
      split at h1
      · simp only [bind_ok, pure_ok] at h1
        obtain ⟨hp, hb, rfl⟩ := h1
        have : e.state = .rtErr := he
        rw [hr] at this; cases this
      · split at h1
        · simp only [pure_ok] at h1; subst h1; rw [hr] at he1; cases he1
        · simp only [pure_ok] at h1; subst h1; cases he1
    · simp only [bind_ok, pure_ok] at h
      obtain ⟨e1, h1, rfl⟩ := h
      obtain ⟨_, rfl⟩ := setReg_ok h1
      have : e.state = .rtErr := he
      rw [hr] at this; cases this
  | unifyValue x | unifyPermValue x =>
    exfalso
    simp only [stepData, unifyVal, bind_ok, pure_ok] at h
    obtain ⟨r, _, e1, h1, rfl⟩ := h
    have he1 : e1.state = .rtErr := he
    split at h1
    · simp only [bind_ok, Exec.unify, pure_ok] at h1
      obtain ⟨a, _, u, _, rfl⟩ := h1
      cases hu : u.ok <;> simp [hu, hr] at he1
    · simp only [pushValue, bind_ok] at h1
      obtain ⟨a, _, d, _, cell, _, h1⟩ := h1
      split at h1 <;> first
        | (simp only [pure_ok] at h1; subst h1
           have : e.state = .rtErr := he1
           rw [hr] at this; cases this)
        | cases h1
  | getValue x a | getPermValue x a =>
    exfalso
    simp only [stepData, bind_ok, Exec.unify, pure_ok] at h
    obtain ⟨_, _, _, _, _, _, _, _, u, _, rfl⟩ := h
    cases hu : u.ok <;> simp [hu, hr] at he
  | putStructure c x | setVariable x v | setValue x | setPermVariable y v | setPermValue y
  | unifyVariable x v | unifyPermVariable y v | putVariable x a v | putPermVariable y a v
  | putValue x a | putPermValue y a | getVariable x a | getPermVariable y a | allocate n =>
    exfalso
    have := (stepData_frame h).state hr
    simp only [stepData, bind_ok, pure_ok] at h
    first
      | (obtain ⟨_, rfl⟩ := setReg_ok h
         have : e.state = .rtErr := he
         rw [hr] at this; cases this)
      | (obtain ⟨env, rest, _, _, rfl⟩ := setPerm_ok h
         have : e.state = .rtErr := he
         rw [hr] at this; cases this)
      | (obtain ⟨c, _, rfl⟩ := h
         have : e.state = .rtErr := he
         rw [hr] at this; cases this)
      | (subst h
         have : e.state = .rtErr := he
         rw [hr] at this; cases this)
      | (obtain ⟨e1, h1, rfl⟩ := h
         split at h1
         all_goals first
           | (obtain ⟨_, rfl⟩ := setReg_ok h1
              have : e.state = .rtErr := he
              rw [hr] at this; cases this)
           | (obtain ⟨env, rest, _, _, rfl⟩ := setPerm_ok h1
              have : e.state = .rtErr := he
              rw [hr] at this; cases this))
      | (obtain ⟨e1, h1, h⟩ := h
         obtain ⟨_, rfl⟩ := setReg_ok h1
         obtain ⟨_, rfl⟩ := setReg_ok h
         have : e.state = .rtErr := he
         rw [hr] at this; cases this)
      | (obtain ⟨e1, h1, h⟩ := h
         obtain ⟨env, rest, _, _, rfl⟩ := setPerm_ok h1
         obtain ⟨_, rfl⟩ := setReg_ok h
         have : e.state = .rtErr := he
         rw [hr] at this; cases this)
      | (obtain ⟨c, _, h⟩ := h
         obtain ⟨_, rfl⟩ := setReg_ok h
         have : e.state = .rtErr := he
         rw [hr] at this; cases this)
      | (obtain ⟨c, _, h⟩ := h
         obtain ⟨env, rest, _, _, rfl⟩ := setPerm_ok h
         have : e.state = .rtErr := he
         rw [hr] at this; cases this)
  | call f => cases h
  | proceed => cases h
  | deallocate => cases h

theorem runData_err {pre fuel st} {is : List Instr} {e e' : Exec}
    (h : runData pre fuel st is e = .ok e') (hr : e.state = .running) (he : e'.state = .rtErr) :
    ∃ r, e'.err = some r ∧ r.kind ≠ .outOfTime := by
  induction is generalizing e with
  | nil =>
    simp only [runData, pure_ok] at h; subst h
    rw [hr] at he; cases he
  | cons i is ih =>
    simp only [runData, bind_ok] at h
    obtain ⟨e1, h1, h⟩ := h
    split at h
    · simp only [pure_ok] at h; subst h; exact stepData_err h1 hr he
    · rename_i hf
      refine ih h ?_
      rcases (stepData_frame h1).state hr with h2 | h2 | h2
      · exact h2
      · simp [Exec.failed, h2] at hf
      · simp [Exec.failed, h2.1] at hf

namespace Org

theorem turn_err_kind {o o' : Org} {fuel err} (inv : Inv o) (h : o.turn fuel = .ok (o', .error err)) :
    err.kind ≠ .outOfTime := by
  cases hq : o.queue with
  | nil => simp [turn, hq, pure, Except.pure] at h
  | cons id q =>
    have hdesc := turn_desc inv hq h
    obtain ⟨e, he, hrun, hsh⟩ := inv.qrun id (by simp [hq])
    have hlt : id < o.execs.length := (List.getElem?_eq_some_iff.1 he).1
    cases hcodes : e.codes with
    | nil => simp [turn, hq, turnOf, exec, he, hcodes] at h
    | cons t0 ts =>
      obtain ⟨ds, c, hins, hds, hc⟩ := hsh t0 (by simp [hcodes])
      rw [turn_eq hq he hrun inv.parLt hcodes hins hds hc] at h
      simp only [bind_ok] at h
      obtain ⟨a, _, e1, hr, o1, ho1, hfin⟩ := h
      have key : ∃ x, o1.execs[id]? = some x ∧ (x.state = .rtErr → x.err = e1.err ∧ e1.state = .rtErr) := by
        split at ho1
        · simp only [pure_ok] at ho1
          subst ho1
          exact ⟨_, setExec_get _ hlt, fun h => ⟨rfl, h⟩⟩
        · rename_i hf
          have hrun1 : e1.state ≠ .rtErr := by
            intro h1; simp [Exec.failed, h1] at hf
          cases c <;> simp only [Instr.isData, Bool.true_eq_false] at hc
          · simp only [ctl] at ho1
            split at ho1
            · simp only [pure_ok] at ho1
              subst ho1
              refine ⟨_, setExec_get _ hlt, fun h => ?_⟩
              cases h
            · rename_i rules hrules
              simp only [pure_ok] at ho1
              subst ho1
              simp only [call, hrules]
              refine ⟨_, by
                rw [List.getElem?_append_left (by simpa [setExec] using hlt)]
                exact setExec_get _ hlt, fun h => ?_⟩
              cases h
          · simp only [ctl, proceed, bind_ok] at ho1
            obtain ⟨done, _, ho1⟩ := ho1
            split at ho1
            · simp only [pure_ok] at ho1
              subst ho1
              refine ⟨_, setExec_get _ hlt, fun h => ?_⟩
              cases h
            · simp only [pure_ok] at ho1
              subst ho1
              refine ⟨_, by
                rw [List.getElem?_append_left (by simpa [setExec] using hlt)]
                exact setExec_get _ hlt, fun h => ?_⟩
              cases h
          · simp only [ctl, deallocate] at ho1
            split at ho1
            · cases ho1
            · simp only [pure_ok] at ho1
              subst ho1
              refine ⟨_, List.getElem?_set_self hlt, fun h => ?_⟩
              exact absurd h hrun1
      obtain ⟨x, hx, hx2⟩ := key
      simp only [finish, exec, hx, orFault_some, ok_bind] at hfin
      split at hfin
      · rename_i hxs
        obtain ⟨h1, h2⟩ := hx2 hxs
        simp only [bind_ok, pure_ok, Prod.mk.injEq, orFault_ok] at hfin
        obtain ⟨er, her, _, h3⟩ := hfin
        cases h3
        obtain ⟨r, hr1, hr2⟩ := runData_err hr hrun h2
        rw [h1, hr1] at her
        cases her
        exact hr2
      · simp only [bind_ok, pure_ok, Prod.mk.injEq] at hfin
        obtain ⟨_, _, _, h3⟩ := hfin
        cases h3
      · simp only [pure_ok, Prod.mk.injEq] at hfin
        cases hfin.2

end Org
end PBfs
