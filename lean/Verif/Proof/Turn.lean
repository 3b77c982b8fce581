import Verif.Model.Organizer
import Verif.Proof.Util
/-! # What one turn of the main loop does -/
namespace PBfs

/-- Instructions that only work on their own executor. -/
def Instr.isData : Instr → Bool
  | .call _ | .proceed | .deallocate => false
  | _ => true

/-- Data instructions followed by one control instruction: the shape of all compiled atoms. -/
def CAtom.Shaped (a : CAtom) : Prop :=
  ∃ ds c, a.instrs = ds ++ [c] ∧ (∀ d ∈ ds, d.isData = true) ∧ c.isData = false

/-- The data instructions of an atom, on the executor alone. -/
def runData (pre : Nat → Option Cell) (fuel : Nat) (st : Storage) : List Instr → Exec → R Exec
  | [], e => pure e
  | i :: is, e => do
    let e' ← stepData pre fuel st i e
    if e'.failed then pure e' else runData pre fuel st is e'

/-- What data instructions leave alone. -/
structure DataFrame (e e' : Exec) : Prop where
  parent : e'.parent = e.parent
  children : e'.children = e.children
  codes : e'.codes = e.codes
  start : e'.hp.start = e.hp.start
  state : e.state = .running → e'.state = .running ∨ e'.state = .fail ∨
    (e'.state = .rtErr ∧ e'.err.isSome)

theorem setReg_ok {e : Exec} {x c e'} (h : e.setReg x c = .ok e') :
    x < e.regs.length ∧ e' = { e with regs := e.regs.set x c } := by
  unfold Exec.setReg at h
  split at h
  · cases h; exact ⟨by assumption, rfl⟩
  · cases h

theorem setPerm_ok {e : Exec} {y c e'} (h : e.setPerm y c = .ok e') :
    ∃ env rest, e.envs = env :: rest ∧ y < env.length ∧ e' = { e with envs := env.set y c :: rest } := by
  unfold Exec.setPerm at h
  split at h
  · cases h
  · split at h
    · cases h; exact ⟨_, _, by assumption, by assumption, rfl⟩
    · cases h

theorem unifyLoop_start {pre : Nat → Option Cell} : ∀ {n : Nat} {h : Hp} {pdl r},
    unifyLoop pre n h pdl = .ok r → r.hp.start = h.start := by
  intro n
  have hb : ∀ {h h' : Hp} {i t}, h.bind pre i t = .ok h' → h'.start = h.start := by
    intro h h' i t hb
    unfold Hp.bind at hb
    split at hb
    · cases hb; unfold Hp.write; split <;> rfl
    · cases hb
  induction n with
  | zero =>
    intro h pdl r hr
    match pdl with
    | [] => simp [unifyLoop] at hr; subst hr; rfl
    | [x] => simp [unifyLoop] at hr
    | a :: b :: pdl => simp [unifyLoop] at hr
  | succ n ih =>
    intro h pdl r hr
    match pdl with
    | [] => simp [unifyLoop] at hr; subst hr; rfl
    | [x] => simp [unifyLoop] at hr
    | a :: b :: pdl =>
      rw [unifyLoop] at hr
      simp only [bind_ok] at hr
      obtain ⟨d1, _, d2, _, hr⟩ := hr
      split at hr
      · exact ih hr
      · simp only [bind_ok] at hr
        obtain ⟨r1, _, r2, _, hr⟩ := hr
        split at hr
        · simp only [bind_ok] at hr
          obtain ⟨h', hh, hr⟩ := hr
          exact (ih hr).trans (hb hh)
        · split at hr
          · simp only [bind_ok] at hr
            obtain ⟨h', hh, hr⟩ := hr
            exact (ih hr).trans (hb hh)
          · split at hr <;> try split at hr
            all_goals first
              | exact ih hr
              | (cases hr; rfl)
              | cases hr

theorem bind_start {pre : Nat → Option Cell} {h h' : Hp} {i t} (hb : h.bind pre i t = .ok h') :
    h'.start = h.start := by
  unfold Hp.bind at hb
  split at hb
  · cases hb; unfold Hp.write; split <;> rfl
  · cases hb

theorem DataFrame.refl (e : Exec) : DataFrame e e := ⟨rfl, rfl, rfl, rfl, .inl⟩

theorem DataFrame.trans {a b c : Exec} (h : DataFrame a b) (h' : DataFrame b c) (hb : b.failed = false) :
    DataFrame a c := by
  refine ⟨h'.1.trans h.1, h'.2.trans h.2, h'.3.trans h.3, h'.4.trans h.4, fun hs => ?_⟩
  rcases h.5 hs with h1 | h1 | h1
  · exact h'.5 h1
  · simp [Exec.failed, h1] at hb
  · simp [Exec.failed, h1.1] at hb

theorem exec_unify_frame {pre fuel} {e e' : Exec} {a b} (h : e.unify pre fuel a b = .ok e') :
    DataFrame e e' := by
  simp only [Exec.unify, bind_ok, pure_ok, unify] at h
  obtain ⟨r, hr, rfl⟩ := h
  refine ⟨rfl, rfl, rfl, unifyLoop_start hr, fun hs => ?_⟩
  cases r.ok <;> simp [hs]

theorem DataFrame.setS {e e' : Exec} {k} (h : DataFrame e e') : DataFrame e { e' with s := k } :=
  ⟨h.1, h.2, h.3, h.4, h.5⟩

theorem DataFrame.push {e : Exec} {c} : DataFrame e (e.push c) := ⟨rfl, rfl, rfl, rfl, .inl⟩

theorem DataFrame.setHp {e : Exec} {hp : Hp} (h : hp.start = e.hp.start) : DataFrame e { e with hp := hp } :=
  ⟨rfl, rfl, rfl, h, .inl⟩

theorem DataFrame.setRegs {e : Exec} {r} : DataFrame e { e with regs := r } :=
  ⟨rfl, rfl, rfl, rfl, .inl⟩

theorem DataFrame.setFailed {e : Exec} : DataFrame e e.setFailed :=
  ⟨rfl, rfl, rfl, rfl, fun _ => .inr (.inl rfl)⟩

theorem stepData_frame {pre fuel st} {i : Instr} {e e' : Exec} (h : stepData pre fuel st i e = .ok e') :
    DataFrame e e' := by
  cases i with
  | putStructure c x =>
    obtain ⟨_, rfl⟩ := setReg_ok h
    exact ⟨rfl, rfl, rfl, rfl, .inl⟩
  | setVariable x v =>
    obtain ⟨_, rfl⟩ := setReg_ok h
    exact ⟨rfl, rfl, rfl, rfl, .inl⟩
  | setPermVariable y v =>
    obtain ⟨env, rest, he, _, rfl⟩ := setPerm_ok h
    exact ⟨rfl, rfl, rfl, rfl, .inl⟩
  | setValue x =>
    simp only [stepData, bind_ok, pure_ok] at h
    obtain ⟨c, _, rfl⟩ := h
    exact .push
  | setPermValue x =>
    simp only [stepData, bind_ok, pure_ok] at h
    obtain ⟨c, _, rfl⟩ := h
    exact .push
  | getStructure c x =>
    simp only [stepData, getStructure, bind_ok] at h
    obtain ⟨r, _, a, _, d, _, cell, _, h⟩ := h
    split at h
    · simp only [bind_ok, pure_ok] at h
      obtain ⟨hp, hb, rfl⟩ := h
      have := bind_start hb
      exact ⟨rfl, rfl, rfl, this, .inl⟩
    · split at h
      · simp only [pure_ok] at h; subst h; exact ⟨rfl, rfl, rfl, rfl, .inl⟩
      · simp only [pure_ok] at h; subst h; exact .setFailed
  | unifyStructure c x =>
    simp only [stepData, unifyStructure] at h
    split at h
    · simp only [bind_ok, pure_ok] at h
      obtain ⟨d, _, cell, _, e1, h1, rfl⟩ := h
      refine DataFrame.setS ?_
      split at h1
      · simp only [bind_ok, pure_ok] at h1
        obtain ⟨hp, hb, rfl⟩ := h1
        have := bind_start hb
        exact ⟨rfl, rfl, rfl, this, .inl⟩
      · split at h1
        · simp only [pure_ok] at h1; subst h1; exact .refl _
        · simp only [pure_ok] at h1; subst h1; exact .setFailed
    · simp only [bind_ok, pure_ok] at h
      obtain ⟨e1, h1, rfl⟩ := h
      obtain ⟨_, rfl⟩ := setReg_ok h1
      exact ⟨rfl, rfl, rfl, rfl, .inl⟩
  | unifyVariable x v =>
    simp only [stepData, bind_ok, pure_ok] at h
    obtain ⟨e1, h1, rfl⟩ := h
    refine DataFrame.setS ?_
    split at h1
    · obtain ⟨_, rfl⟩ := setReg_ok h1
      exact ⟨rfl, rfl, rfl, rfl, .inl⟩
    · obtain ⟨_, rfl⟩ := setReg_ok h1
      exact ⟨rfl, rfl, rfl, rfl, .inl⟩
  | unifyPermVariable y v =>
    simp only [stepData, bind_ok, pure_ok] at h
    obtain ⟨e1, h1, rfl⟩ := h
    refine DataFrame.setS ?_
    split at h1
    · obtain ⟨env, rest, he, _, rfl⟩ := setPerm_ok h1
      exact ⟨rfl, rfl, rfl, rfl, .inl⟩
    · obtain ⟨env, rest, he, _, rfl⟩ := setPerm_ok h1
      exact ⟨rfl, rfl, rfl, rfl, .inl⟩
  | unifyValue x =>
    simp only [stepData, unifyVal, bind_ok, pure_ok] at h
    obtain ⟨r, _, e1, h1, rfl⟩ := h
    refine DataFrame.setS ?_
    split at h1
    · simp only [bind_ok] at h1
      obtain ⟨a, _, h1⟩ := h1
      exact exec_unify_frame h1
    · simp only [pushValue, bind_ok] at h1
      obtain ⟨a, _, d, _, cell, _, h1⟩ := h1
      split at h1 <;> first | (simp only [pure_ok] at h1; subst h1; exact .push) | cases h1
  | unifyPermValue y =>
    simp only [stepData, unifyVal, bind_ok, pure_ok] at h
    obtain ⟨r, _, e1, h1, rfl⟩ := h
    refine DataFrame.setS ?_
    split at h1
    · simp only [bind_ok] at h1
      obtain ⟨a, _, h1⟩ := h1
      exact exec_unify_frame h1
    · simp only [pushValue, bind_ok] at h1
      obtain ⟨a, _, d, _, cell, _, h1⟩ := h1
      split at h1 <;> first | (simp only [pure_ok] at h1; subst h1; exact .push) | cases h1
  | putVariable x a v =>
    simp only [stepData, bind_ok] at h
    obtain ⟨e1, h1, h⟩ := h
    obtain ⟨_, rfl⟩ := setReg_ok h1
    obtain ⟨_, rfl⟩ := setReg_ok h
    exact ⟨rfl, rfl, rfl, rfl, .inl⟩
  | putPermVariable y a v =>
    simp only [stepData, bind_ok] at h
    obtain ⟨e1, h1, h⟩ := h
    obtain ⟨env, rest, he, _, rfl⟩ := setPerm_ok h1
    obtain ⟨_, rfl⟩ := setReg_ok h
    exact ⟨rfl, rfl, rfl, rfl, .inl⟩
  | putValue x a =>
    simp only [stepData, bind_ok] at h
    obtain ⟨c, _, h⟩ := h
    obtain ⟨_, rfl⟩ := setReg_ok h
    exact .setRegs
  | putPermValue y a =>
    simp only [stepData, bind_ok] at h
    obtain ⟨c, _, h⟩ := h
    obtain ⟨_, rfl⟩ := setReg_ok h
    exact .setRegs
  | getVariable x a =>
    simp only [stepData, bind_ok] at h
    obtain ⟨c, _, h⟩ := h
    obtain ⟨_, rfl⟩ := setReg_ok h
    exact .setRegs
  | getPermVariable y a =>
    simp only [stepData, bind_ok] at h
    obtain ⟨c, _, h⟩ := h
    obtain ⟨env, rest, he, _, rfl⟩ := setPerm_ok h
    exact ⟨rfl, rfl, rfl, rfl, .inl⟩
  | getValue x a =>
    simp only [stepData, bind_ok] at h
    obtain ⟨_, _, _, _, _, _, _, _, h⟩ := h
    exact exec_unify_frame h
  | getPermValue y a =>
    simp only [stepData, bind_ok] at h
    obtain ⟨_, _, _, _, _, _, _, _, h⟩ := h
    exact exec_unify_frame h
  | builtin b l r =>
    cases b with
    | is =>
      simp only [stepData, isPred, bind_ok] at h
      obtain ⟨cr, _, b, _, v, _, h⟩ := h
      split at h
      · simp only [pure_ok] at h; subst h
        exact ⟨rfl, rfl, rfl, rfl, fun _ => .inr (.inr ⟨rfl, rfl⟩)⟩
      · simp only [bind_ok] at h
        obtain ⟨cl, _, a, _, d, _, cell, _, h⟩ := h
        split at h
        · simp only [pure_ok] at h; subst h
          split
          · exact .refl _
          · exact .setFailed
        · split at h
          · cases h
          · simp only [bind_ok, pure_ok] at h
            obtain ⟨hp, hb, rfl⟩ := h
            have := bind_start hb
            exact ⟨rfl, rfl, rfl, this, .inl⟩
        · simp only [pure_ok] at h; subst h; exact .setFailed
    | eq =>
      simp only [stepData, equalsCheck, bind_ok, pure_ok] at h
      obtain ⟨cl, _, a, _, cr, _, b, _, eq, _, rfl⟩ := h
      split
      · exact .refl _
      · exact .setFailed
    | neq =>
      simp only [stepData, notEqualsCheck, equalsCheck, bind_ok, pure_ok] at h
      obtain ⟨e1, ⟨cl, _, a, _, cr, _, b, _, eq, _, rfl⟩, rfl⟩ := h
      cases eq
      · simp only [Bool.false_eq_true, if_false]
        split
        · exact ⟨rfl, rfl, rfl, rfl, fun _ => .inl rfl⟩
        · exact ⟨rfl, rfl, rfl, rfl, fun _ => .inr (.inl rfl)⟩
      · simp only [if_true]
        split
        · exact ⟨rfl, rfl, rfl, rfl, fun _ => .inl rfl⟩
        · exact ⟨rfl, rfl, rfl, rfl, fun _ => .inr (.inl rfl)⟩
  | allocate n =>
    simp only [stepData, pure_ok] at h
    subst h
    exact ⟨rfl, rfl, rfl, rfl, .inl⟩
  | call f => cases h
  | proceed => cases h
  | deallocate => cases h

theorem runData_frame {pre fuel st} {is : List Instr} {e e' : Exec}
    (h : runData pre fuel st is e = .ok e') : DataFrame e e' := by
  induction is generalizing e with
  | nil => simp only [runData, pure_ok] at h; subst h; exact .refl _
  | cons i is ih =>
    simp only [runData, bind_ok] at h
    obtain ⟨e1, h1, h⟩ := h
    split at h
    · simp only [pure_ok] at h; subst h; exact stepData_frame h1
    · rename_i hf
      exact (stepData_frame h1).trans (ih h) (by simpa using hf)

theorem runData_append {pre fuel st} {is js : List Instr} {e : Exec} :
    runData pre fuel st (is ++ js) e =
      (do let e' ← runData pre fuel st is e
          if e'.failed && !is.isEmpty then pure e' else runData pre fuel st js e') := by
  induction is generalizing e with
  | nil => simp [runData, pure, Except.pure]
  | cons i is ih =>
    simp only [List.cons_append, runData]
    cases h : stepData pre fuel st i e with
    | error => rfl
    | ok e1 =>
      simp only [ok_bind]
      by_cases hf : e1.failed = true
      · simp [hf, pure, Except.pure]
      · simp only [hf, Bool.false_eq_true, if_false]
        rw [ih]
        cases is with
        | nil => simp [runData, pure, Except.pure, hf]
        | cons => simp

/-! ## The store -/

theorem getElem?_set_ne {α} {l : List α} {i j : Nat} {a : α} (h : i ≠ j) : (l.set i a)[j]? = l[j]? :=
  List.getElem?_set_ne h

/-- Older executors have younger children only. -/
def ParLt (l : List Exec) : Prop := ∀ (id : Nat) (e : Exec) (p : Nat), l[id]? = some e → e.parent = some p → p < id

/-- What an executor sees does not depend on younger executors. -/
theorem heapAtF_congr {l l' : List Exec} : ∀ (n id a : Nat),
    ParLt l →
    (∀ j, j ≤ id → l'[j]? = l[j]?) → heapAtF l' n id a = heapAtF l n id a := by
  intro n
  induction n with
  | zero => intros; rfl
  | succ n ih =>
    intro id a hp hj
    rw [heapAtF, heapAtF, hj id (Nat.le_refl _)]
    cases he : l[id]? with
    | none => rfl
    | some e =>
      simp only []
      cases hpar : e.parent with
      | none => rfl
      | some p =>
        have hlt := hp _ _ _ he hpar
        have : heapAtF l' n p = heapAtF l n p := by
          funext b
          exact ih p b hp (fun j hj' => hj j (by omega))
        simp [this]

theorem preOf_congr {l l' : List Exec} {e e' : Exec} {id : Nat} (hp : ParLt l)
    (hpar : e'.parent = e.parent) (hlt : ∀ p, e.parent = some p → p < id)
    (hj : ∀ j, j < id → l'[j]? = l[j]?) : preOf l' e' = preOf l e := by
  unfold preOf
  rw [hpar]
  cases h : e.parent with
  | none => rfl
  | some p =>
    funext a
    exact heapAtF_congr _ _ _ hp (fun j hj' => hj j (by have := hlt p h; omega))

namespace Org

@[simp] theorem setExec_setExec (o : Org) (id e e') : (o.setExec id e).setExec id e' = o.setExec id e' := by
  simp [setExec]

@[simp] theorem setExec_queue (o : Org) (id e) : (o.setExec id e).queue = o.queue := rfl
@[simp] theorem setExec_st (o : Org) (id e) : (o.setExec id e).st = o.st := rfl
@[simp] theorem setExec_gen (o : Org) (id e) : (o.setExec id e).gen = o.gen := rfl
@[simp] theorem setExec_calls (o : Org) (id e) : (o.setExec id e).calls = o.calls := rfl
@[simp] theorem setExec_program (o : Org) (id e) : (o.setExec id e).program = o.program := rfl
@[simp] theorem setExec_length (o : Org) (id e) : (o.setExec id e).execs.length = o.execs.length := by
  simp [setExec]

theorem setExec_get (o : Org) {id e} (h : id < o.execs.length) : (o.setExec id e).execs[id]? = some e := by
  simp [setExec, h]

theorem setExec_get_ne (o : Org) {id j e} (h : id ≠ j) : (o.setExec id e).execs[j]? = o.execs[j]? := by
  simp [setExec, h]

theorem setExec_self (o : Org) {id e} (h : o.execs[id]? = some e) : o.setExec id e = o := by
  cases o
  simp only [setExec, Org.mk.injEq, and_true]
  obtain ⟨hlt, rfl⟩ := List.getElem?_eq_some_iff.1 h
  exact List.set_getElem_self hlt

/-- Control instructions, with the failure handling of the main loop for `call`. -/
def ctl (o : Org) (id : Nat) (e : Exec) (c : Instr) : R Org :=
  match c with
  | .call f =>
    match o.program.rules? f with
    | none => pure ({ o with calls := o.calls + 1 }.setExec id e.setFailed.clear)
    | some _ => pure (o.call id e f)
  | .proceed => o.proceed id e
  | .deallocate => o.deallocate id e
  | _ => .error .memory

theorem allDealloc_setExec (o : Org) (id e l) : (o.setExec id e).allDealloc l = o.allDealloc l := by
  induction l with
  | nil => rfl
  | cons t ts ih =>
    rw [allDealloc, allDealloc]
    have : (o.setExec id e).code t = o.code t := rfl
    rw [this]
    simp only [ih]

theorem ctl_setExec (o : Org) (id e e1 c) : (o.setExec id e).ctl id e1 c = o.ctl id e1 c := by
  cases c <;> try rfl
  · rename_i f
    simp only [ctl, setExec_program]
    cases o.program.rules? f with
    | none => simp [setExec]
    | some rules =>
      have : (o.setExec id e).call id e1 f = o.call id e1 f := by
        simp only [call, setExec_program]
        cases o.program.rules? f with
        | none => simp [setExec]
        | some rules =>
          simp only [setExec, List.length_set, List.set_set]
          rfl
      simp [this]
  · simp only [ctl, proceed, allDealloc_setExec, setExec_setExec, setExec_length, setExec_queue]
  · simp only [ctl, deallocate]
    cases e1.envs <;> simp

/-- How a turn ends (bfs_organizer.cpp:86-101). -/
def finish (fuel : Nat) (o : Org) (id : Nat) : R (Org × Turn) := do
  let e ← o.exec id
  match e.state with
  | .rtErr => do
    let err ← orFault e.err
    pure (o, .error err)
  | .success => do
    let bs ← o.answer fuel id
    pure (o, .answer bs)
  | _ => pure (o, .continue)

theorem instr_data {o : Org} {fuel id i e} (he : o.execs[id]? = some e) (hi : i.isData = true) :
    o.instr fuel id i = (do
      let e' ← stepData (preOf o.execs e) fuel o.st i e
      pure (o.setExec id e')) := by
  unfold instr
  simp only [exec, he, orFault_some, ok_bind]
  cases i <;> simp_all [Instr.isData]

/-- Running an atom: first its data instructions on the executor alone, then its control
instruction. -/
theorem instrs_eq {fuel id c} (hc : c.isData = false) : ∀ (ds : List Instr) (o : Org) (e : Exec),
    (∀ d ∈ ds, d.isData = true) → o.execs[id]? = some e → e.state = .running → ParLt o.execs →
    o.instrs fuel id (ds ++ [c]) = (do
      let e1 ← runData (preOf o.execs e) fuel o.st ds e
      if e1.failed then pure (o.setExec id e1.clear) else o.ctl id e1 c) := by
  intro ds
  induction ds with
  | nil =>
    intro o e _ he hrun hpl
    have hlt : id < o.execs.length := (List.getElem?_eq_some_iff.1 he).1
    have hnf : e.failed = false := by simp [Exec.failed, hrun]
    simp only [List.nil_append, instrs, runData, instr, exec, he, orFault_some, ok_bind, pure,
      Except.pure, hnf, Bool.false_eq_true, if_false]
    cases c <;> simp only [Instr.isData, Bool.true_eq_false] at hc
    · rename_i f
      simp only [ok_bind, ctl, call]
      cases hr : o.program.rules? f with
      | none =>
        simp only [setExec, List.getElem?_set_self hlt, orFault_some, ok_bind,
          Exec.setFailed, Exec.failed]
        simp [pure, Except.pure]
      | some rules =>
        simp only [setExec, List.length_set, hlt, List.getElem?_append_left, List.getElem?_set_self,
          orFault_some, ok_bind, Exec.failed]
        simp [pure, Except.pure]
    · simp only [ctl]
      cases hp : o.proceed id e with
      | error => rfl
      | ok o' =>
        simp only [ok_bind]
        unfold proceed at hp
        simp only [hnf, Bool.false_eq_true, if_false, bind_ok] at hp
        obtain ⟨done, _, hp⟩ := hp
        split at hp
        · simp only [pure_ok] at hp
          subst hp
          simp [setExec, hlt, Exec.failed]
        · simp only [pure_ok] at hp
          subst hp
          simp only [setExec, List.getElem?_append_left (show id < (o.execs.set id _).length by simpa using hlt),
            List.getElem?_set_self hlt, orFault_some, ok_bind, Exec.failed]
          simp
    · simp only [ctl]
      cases hp : o.deallocate id e with
      | error => rfl
      | ok o' =>
        simp only [ok_bind]
        unfold deallocate at hp
        split at hp
        · cases hp
        · simp only [pure_ok] at hp
          subst hp
          simp [setExec, hlt, Exec.failed, hrun]
  | cons d ds ih =>
    intro o e hds he hrun hpl
    have hlt : id < o.execs.length := (List.getElem?_eq_some_iff.1 he).1
    simp only [List.cons_append, instrs, runData]
    rw [instr_data he (hds d (by simp))]
    cases hs : stepData (preOf o.execs e) fuel o.st d e with
    | error => rfl
    | ok e' =>
      simp only [ok_bind, pure, Except.pure]
      have hg := setExec_get o (e := e') hlt
      simp only [exec, hg, orFault_some, ok_bind, setExec_setExec]
      by_cases hf : e'.failed = true
      · simp [hf]
      · simp only [hf, Bool.false_eq_true, if_false]
        have fr := stepData_frame hs
        have hrun' : e'.state = .running := by
          rcases fr.state hrun with h | h | h
          · exact h
          · simp [Exec.failed, h] at hf
          · simp [Exec.failed, h.1] at hf
        have hpl' : ParLt (o.setExec id e').execs := by
          intro j x p hj hp
          by_cases hij : id = j
          · subst hij
            rw [hg] at hj; cases hj
            exact hpl _ _ _ he (fr.parent ▸ hp)
          · rw [setExec_get_ne _ hij] at hj
            exact hpl _ _ _ hj hp
        have hpre : preOf (o.setExec id e').execs e' = preOf o.execs e :=
          preOf_congr hpl fr.parent (fun p hp => hpl _ _ _ he hp)
            (fun j hj => setExec_get_ne _ (by omega))
        rw [ih (o.setExec id e') e' (fun d hd => hds d (by simp [hd])) hg hrun' hpl', hpre, setExec_st]
        cases hr : runData (preOf o.execs e) fuel o.st ds e' with
        | error => rfl
        | ok e1 =>
          simp only [ok_bind, setExec_setExec]
          split
          · rfl
          · rw [ctl_setExec]

/-- One turn. -/
theorem turn_eq {o : Org} {fuel id q e t ts ds c} (hq : o.queue = id :: q)
    (he : o.execs[id]? = some e) (hrun : e.state = .running) (hpl : ParLt o.execs)
    (hcodes : e.codes = t :: ts) (hins : t.atom.instrs = ds ++ [c])
    (hds : ∀ d ∈ ds, d.isData = true) (hc : c.isData = false) :
    o.turn fuel = (do
      let a ← o.code t
      let e1 ← runData (preOf o.execs e) fuel o.st ds { e with regs := resize a.regCount e.regs }
      let o' ← (if e1.failed then pure ({ o with queue := q }.setExec id e1.clear)
        else { o with queue := q }.ctl id e1 c)
      finish fuel o' id) := by
  have hlt : id < o.execs.length := (List.getElem?_eq_some_iff.1 he).1
  rw [turn, hq]
  simp only [turnOf, exec, he, orFault_some, ok_bind, hcodes, code]
  have hst : ({ o with queue := q } : Org).stale t = o.stale t := rfl
  rw [hst]
  by_cases hstale : o.stale t = true
  · simp [hstale]
  · simp only [hstale, Bool.false_eq_true, if_false, ok_bind, hins]
    let e0 : Exec := { e with regs := resize t.atom.regCount e.regs, codes := t :: ts }
    let o0 : Org := { o with queue := q }
    have hg : (o0.setExec id e0).execs[id]? = some e0 := setExec_get _ hlt
    have hpl' : ParLt (o0.setExec id e0).execs := by
      intro j x p hj hp
      by_cases hij : id = j
      · subst hij
        rw [hg] at hj; cases hj
        exact hpl _ _ _ he hp
      · rw [setExec_get_ne _ hij] at hj
        exact hpl _ _ _ hj hp
    have hpre : preOf (o0.setExec id e0).execs e0 = preOf o.execs e :=
      preOf_congr hpl rfl (fun p hp => hpl _ _ _ he hp) (fun j hj => setExec_get_ne o0 (by omega))
    have key := instrs_eq (fuel := fuel) (id := id) hc ds (o0.setExec id e0) e0 hds hg hrun hpl'
    rw [hpre, setExec_st] at key
    show ((o0.setExec id e0).instrs fuel id (ds ++ [c]) >>= fun o' => finish fuel o' id) =
      (runData (preOf o.execs e) fuel o.st ds e0 >>= fun e1 =>
        (if e1.failed then pure (o0.setExec id e1.clear) else o0.ctl id e1 c) >>= fun o' => finish fuel o' id)
    rw [key]
    show (runData (preOf o.execs e) fuel o.st ds e0 >>= _) >>= _ = _
    cases hr : runData (preOf o.execs e) fuel o.st ds e0 with
    | error => rfl
    | ok e1 => simp only [ok_bind, setExec_setExec, ctl_setExec]

end Org
end PBfs
