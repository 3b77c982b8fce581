import Verif.Proof.Search2
/-! # A finished executor's state is never looked at again -/
namespace PBfs

/-- Two executors that differ at most in their state and error. -/
structure EqUpTo (e e' : Exec) : Prop where
  parent : e'.parent = e.parent
  hp : e'.hp = e.hp
  regs : e'.regs = e.regs
  codes : e'.codes = e.codes
  envs : e'.envs = e.envs

/-- Two stores whose executors differ at most in state and error. -/
structure EqStore (l l' : List Exec) : Prop where
  len : l'.length = l.length
  each : ∀ (j : Nat) (e : Exec), l[j]? = some e → ∃ e', l'[j]? = some e' ∧ EqUpTo e e'

theorem EqStore.none {l l' : List Exec} (h : EqStore l l') {j : Nat} (hj : l[j]? = none) : l'[j]? = none := by
  rw [List.getElem?_eq_none_iff] at hj ⊢
  rw [h.len]; exact hj

theorem EqStore.heapAtF {l l' : List Exec} (h : EqStore l l') : ∀ n j, heapAtF l' n j = heapAtF l n j := by
  intro n
  induction n with
  | zero => intro j; rfl
  | succ n ih =>
    intro j
    funext a
    rw [PBfs.heapAtF, PBfs.heapAtF]
    cases he : l[j]? with
    | none => rw [h.none he]
    | some e =>
      obtain ⟨e', he', hu⟩ := h.each j e he
      rw [he']
      simp only [hu.parent, hu.hp]
      cases e.parent with
      | none => rfl
      | some p => simp only [ih p]

theorem EqStore.preOf {l l' : List Exec} (h : EqStore l l') (e : Exec) : preOf l' e = preOf l e := by
  unfold PBfs.preOf
  cases e.parent with
  | none => rfl
  | some p => exact h.heapAtF _ _

theorem pointSubs_congr {e e' : Exec} (h : EqUpTo e e') (vs) : Org.pointSubs e' vs = Org.pointSubs e vs := by
  induction vs with
  | nil => rfl
  | cons v vs ih => simp only [Org.pointSubs, Exec.perm, Exec.reg, h.regs, h.envs, ih]

theorem collectSubs_congr {o o' : Org} (h : EqStore o.execs o'.execs) (hg : o'.gen = o.gen) :
    ∀ n p, o'.collectSubs n p = o.collectSubs n p := by
  intro n
  induction n with
  | zero => intro p; rfl
  | succ n ih =>
    intro p
    rw [Org.collectSubs, Org.collectSubs]
    simp only [Org.exec]
    cases he : o.execs[p]? with
    | none => rw [h.none he]; rfl
    | some e =>
      obtain ⟨e', he', hu⟩ := h.each p e he
      rw [he']
      simp only [orFault_some, ok_bind, hu.codes, hu.parent]
      split
      · rename_i t _
        have hc : o'.code t = o.code t := by simp [Org.code, Org.stale, hg]
        rw [hc]
        cases o.code t with
        | error => rfl
        | ok a =>
          simp only [ok_bind, pointSubs_congr hu]
          congr 1
          funext subs
          split
          · rfl
          · rename_i q _
            cases hq : o.execs[q]? with
            | none => rw [h.none hq]; rfl
            | some f =>
              obtain ⟨f', hf', hu'⟩ := h.each q f hq
              rw [hf']
              simp only [orFault_some, ok_bind, hu'.parent]
              split
              · rfl
              · rw [ih]
      · rfl

theorem answer_congr {o o' : Org} (h : EqStore o.execs o'.execs) (hg : o'.gen = o.gen) (hst : o'.st = o.st)
    {fuel id} : o'.answer fuel id = o.answer fuel id := by
  unfold Org.answer
  simp only [Org.exec]
  cases he : o.execs[id]? with
  | none => rw [h.none he]; rfl
  | some e =>
    obtain ⟨e', he', hu⟩ := h.each id e he
    rw [he']
    simp only [orFault_some, ok_bind, hu.parent]
    split
    · rfl
    · rename_i p _
      rw [collectSubs_congr h hg, hst, hu.hp]
      have : PBfs.preOf o'.execs e' = PBfs.preOf o.execs e := by
        rw [h.preOf]; unfold PBfs.preOf; rw [hu.parent]
      rw [this]

theorem eqStore_set {l : List Exec} {id : Nat} {e e' : Exec} (he : l[id]? = some e) (hu : EqUpTo e e') :
    EqStore l (l.set id e') := by
  refine ⟨by simp, ?_⟩
  intro j x hx
  by_cases hj : id = j
  · subst hj
    rw [he] at hx; cases hx
    exact ⟨e', List.getElem?_set_self (List.getElem?_eq_some_iff.1 he).1, hu⟩
  · exact ⟨x, by rw [List.getElem?_set_ne hj]; exact hx, ⟨rfl, rfl, rfl, rfl, rfl⟩⟩

namespace Org

theorem set_append_lt {l m : List Exec} {id : Nat} {e : Exec} (h : id < l.length) :
    (l ++ m).set id e = l.set id e ++ m := by
  rw [List.set_append_left _ _ h]

theorem setExec_comm (o : Org) {id j : Nat} (e y : Exec) (hne : j ≠ id) :
    (o.setExec id e).setExec j y = (o.setExec j y).setExec id e := by
  simp only [setExec]
  rw [List.set_comm _ _ hne.symm]

theorem ctl_comm (o : Org) {id j : Nat} (e' e1 : Exec) (c : Instr) (hne : j ≠ id) (hidlt : id < o.execs.length) :
    (o.setExec id e').ctl j e1 c = (do
      let o1 ← o.ctl j e1 c
      pure (o1.setExec id e')) := by
  cases c <;> try rfl
  · rename_i f
    simp only [ctl, setExec_program]
    cases hrl : o.program.rules? f with
    | none =>
      simp only [pure, Except.pure, ok_bind, Except.ok.injEq]
      exact setExec_comm { o with calls := o.calls + 1 } e' _ hne
    | some rules =>
      simp only [pure, Except.pure, ok_bind, Except.ok.injEq]
      simp only [call, hrl, setExec, List.length_set]
      rw [set_append_lt (by simpa using hidlt), List.set_comm _ _ hne.symm]
      rfl
  · simp only [ctl, proceed, allDealloc_setExec]
    cases hd : (if e1.failed = true then pure false else allDealloc o (e1.codes.drop 1)) with
    | error => rfl
    | ok done =>
      simp only [ok_bind]
      cases done with
      | true =>
        simp only [if_true, pure, Except.pure, ok_bind, Except.ok.injEq]
        exact setExec_comm o e' _ hne
      | false =>
        simp only [Bool.false_eq_true, if_false, pure, Except.pure, ok_bind, Except.ok.injEq]
        simp only [setExec, List.length_set]
        rw [set_append_lt (by simpa using hidlt), List.set_comm _ _ hne.symm]
  · simp only [ctl, deallocate]
    cases e1.envs with
    | nil => rfl
    | cons env envs =>
      simp only [pure, Except.pure, ok_bind, Except.ok.injEq, setExec]
      rw [List.set_comm _ _ hne.symm]

theorem ctl_get {o o1 : Org} {id j : Nat} {e1 : Exec} {c : Instr} (h : o.ctl j e1 c = .ok o1) (hne : j ≠ id)
    (hidlt : id < o.execs.length) : o1.execs[id]? = o.execs[id]? := by
  cases c <;> try (cases h; done)
  · rename_i f
    simp only [ctl] at h
    cases hrl : o.program.rules? f with
    | none =>
      simp only [hrl, pure_ok] at h
      subst h
      exact List.getElem?_set_ne hne
    | some rules =>
      simp only [hrl, pure_ok] at h
      subst h
      simp only [call, hrl]
      rw [List.getElem?_append_left (by simpa [setExec] using hidlt)]
      exact List.getElem?_set_ne hne
  · simp only [ctl, proceed, bind_ok] at h
    obtain ⟨done, _, h⟩ := h
    split at h
    · simp only [pure_ok] at h
      subst h
      exact List.getElem?_set_ne hne
    · simp only [pure_ok] at h
      subst h
      simp only
      rw [List.getElem?_append_left (by simpa [setExec] using hidlt)]
      exact List.getElem?_set_ne hne
  · simp only [ctl, deallocate] at h
    split at h
    · cases h
    · simp only [pure_ok] at h
      subst h
      exact List.getElem?_set_ne hne

theorem finish_comm {fuel id j} {o1 : Org} {e e' : Exec} (hu : EqUpTo e e') (h1 : o1.execs[id]? = some e) (hne : j ≠ id) :
    finish fuel (o1.setExec id e') j = (finish fuel o1 j >>= fun r => pure (r.1.setExec id e', r.2)) := by
  have hj : (o1.setExec id e').exec j = o1.exec j := by
    simp only [exec]; rw [setExec_get_ne _ hne.symm]
  have hans : (o1.setExec id e').answer fuel j = o1.answer fuel j :=
    answer_congr (o := o1) (o' := o1.setExec id e') (eqStore_set h1 hu) rfl rfl
  simp only [finish, hj, hans]
  cases o1.exec j with
  | error => rfl
  | ok y =>
    simp only [ok_bind]
    split
    · cases y.err <;> rfl
    · cases o1.answer fuel j <;> rfl
    · rfl

/-- A turn does not look at the state of an executor that is not pending. -/
theorem turn_setState {o : Org} {fuel id} {e e' : Exec} (inv : Inv o) (hid : id ∉ o.queue)
    (he : o.execs[id]? = some e) (hu : EqUpTo e e') :
    (o.setExec id e').turn fuel = (do
      let r ← o.turn fuel
      pure (r.1.setExec id e', r.2)) ∧
    ∀ r, o.turn fuel = .ok r → r.1.execs[id]? = some e := by
  cases hq : o.queue with
  | nil =>
    simp only [turn, hq, setExec_queue, pure, Except.pure, ok_bind]
    refine ⟨trivial, ?_⟩
    intro r hr; cases hr; exact he
  | cons j q =>
    have hne : j ≠ id := by rintro rfl; exact hid (by simp [hq])
    refine ⟨?_, fun r hr => by
      have := (turn_frame inv hq (show o.turn fuel = .ok (r.1, r.2) from hr)).same id hne.symm
        (List.getElem?_eq_some_iff.1 he).1
      rw [this]; exact he⟩
    obtain ⟨x, hx, hrun, hsh⟩ := inv.qrun j (by simp [hq])
    have hjlt : j < o.execs.length := (List.getElem?_eq_some_iff.1 hx).1
    have hidlt : id < o.execs.length := (List.getElem?_eq_some_iff.1 he).1
    have hx' : (o.setExec id e').execs[j]? = some x := by rw [setExec_get_ne _ hne.symm]; exact hx
    have hq' : (o.setExec id e').queue = j :: q := hq
    cases hcodes : x.codes with
    | nil =>
      simp only [turn, hq, hq', turnOf, exec, hx, hcodes, orFault_some, ok_bind]
      rw [hx']
      simp only [orFault_some, ok_bind, hcodes]
      rfl
    | cons t0 ts =>
      obtain ⟨ds, c, hins, hds, hc⟩ := hsh t0 (by simp [hcodes])
      have hpl' : ParLt (o.setExec id e').execs := by
        intro k y p hk hp
        by_cases hik : id = k
        · subst hik
          rw [setExec_get _ hidlt] at hk; cases hk
          exact inv.parLt _ _ _ he (hu.parent ▸ hp)
        · rw [setExec_get_ne _ hik] at hk
          exact inv.parLt _ _ _ hk hp
      rw [turn_eq hq hx hrun inv.parLt hcodes hins hds hc,
        turn_eq hq' hx' hrun hpl' hcodes hins hds hc]
      have hcode : (o.setExec id e').code t0 = o.code t0 := rfl
      have hpre : PBfs.preOf (o.setExec id e').execs x = PBfs.preOf o.execs x := (eqStore_set he hu).preOf x
      rw [hcode, hpre, setExec_st]
      cases hco : o.code t0 with
      | error => rfl
      | ok a =>
        simp only [ok_bind]
        cases hr : runData (PBfs.preOf o.execs x) fuel o.st ds { x with regs := resize a.regCount x.regs } with
        | error => rfl
        | ok e1 =>
          simp only [ok_bind]
          by_cases hf : e1.failed = true
          · simp only [hf, if_true, pure, Except.pure, ok_bind]
            show finish fuel (({ o with queue := q }.setExec id e').setExec j e1.clear) j = _
            rw [setExec_comm _ _ _ hne, finish_comm hu ?_ hne]
            · rfl
            · rw [setExec_get_ne _ hne]; exact he
          · simp only [hf, Bool.false_eq_true, if_false]
            show (({ o with queue := q }.setExec id e').ctl j e1 c >>= _) = _
            rw [ctl_comm { o with queue := q } _ _ _ hne hidlt]
            cases hctl : ctl { o with queue := q } j e1 c with
            | error => rfl
            | ok o1 =>
              simp only [ok_bind, pure, Except.pure]
              rw [finish_comm hu ?_ hne]
              · rfl
              · rw [ctl_get (o := { o with queue := q }) hctl hne hidlt]; exact he

/-- An executor that is not pending and exists never becomes pending again. -/
theorem turn_not_pending {o o' : Org} {fuel id t} (inv : Inv o) (h : o.turn fuel = .ok (o', t))
    (hid : id ∉ o.queue) (hlt : id < o.execs.length) : id ∉ o'.queue ∧ id < o'.execs.length := by
  cases hq : o.queue with
  | nil =>
    simp only [turn, hq, pure_ok, Prod.mk.injEq] at h
    rw [← h.1]; exact ⟨hid, hlt⟩
  | cons j q =>
    have fr := turn_frame inv hq h
    refine ⟨?_, Nat.lt_of_lt_of_le hlt fr.len⟩
    rw [hq] at hid
    simp only [List.mem_cons, not_or] at hid
    rcases turn_queue inv hq h with ⟨h1, _⟩ | h1
    · rw [h1]; simp [hid]
    · rw [h1]
      simp only [List.mem_append, List.mem_range'_1, not_or]
      exact ⟨hid.2, by omega⟩

theorem getAnswer_setState {fuel id clock} {o : Org} {e e' : Exec} (inv : Inv o) (hid : id ∉ o.queue)
    (he : o.execs[id]? = some e) (hu : EqUpTo e e') :
    (o.setExec id e').getAnswer fuel clock = (do
      let r ← o.getAnswer fuel clock
      pure (r.1.setExec id e', r.2)) ∧
    ∀ r, o.getAnswer fuel clock = .ok r → r.1.execs[id]? = some e ∧ id ∉ r.1.queue ∧ Inv r.1 := by
  induction clock generalizing o with
  | nil =>
    unfold getAnswer
    simp only [setExec_queue]
    split <;> (refine ⟨rfl, ?_⟩; intro r hr; simp only [pure, Except.pure, Except.ok.injEq] at hr; subst hr;
               exact ⟨he, hid, inv⟩)
  | cons b clock ih =>
    unfold getAnswer
    simp only [setExec_queue]
    split
    · refine ⟨rfl, ?_⟩
      intro r hr
      simp only [pure, Except.pure, Except.ok.injEq] at hr
      subst hr; exact ⟨he, hid, inv⟩
    · cases b with
      | true =>
        refine ⟨rfl, ?_⟩
        intro r hr
        simp only [pure, Except.pure, Except.ok.injEq] at hr
        subst hr; exact ⟨he, hid, inv⟩
      | false =>
        simp only
        obtain ⟨h1, h2⟩ := turn_setState (fuel := fuel) inv hid he hu
        rw [h1]
        cases ht : o.turn fuel with
        | error => exact ⟨rfl, fun r hr => by cases hr⟩
        | ok r =>
          obtain ⟨o1, t⟩ := r
          have hnp := turn_not_pending inv ht hid (List.getElem?_eq_some_iff.1 he).1
          have hget := h2 _ ht
          simp only [pure, Except.pure, ok_bind]
          cases t with
          | «continue» => exact ih (inv.turn ht) hnp.1 hget
          | answer bs =>
            refine ⟨rfl, ?_⟩
            intro r hr
            simp only [Except.ok.injEq] at hr
            subst hr; exact ⟨hget, hnp.1, inv.turn ht⟩
          | error er =>
            refine ⟨rfl, ?_⟩
            intro r hr
            simp only [Except.ok.injEq] at hr
            subst hr; exact ⟨hget, hnp.1, inv.turn ht⟩

theorem session_setState {fuel id cs} {o : Org} {e e' : Exec} (inv : Inv o) (hid : id ∉ o.queue)
    (he : o.execs[id]? = some e) (hu : EqUpTo e e') :
    (o.setExec id e').session fuel cs = (do
      let r ← o.session fuel cs
      pure (r.1.setExec id e', r.2)) := by
  induction cs generalizing o with
  | nil => rfl
  | cons c cs ih =>
    obtain ⟨h1, h2⟩ := getAnswer_setState (fuel := fuel) (clock := c) inv hid he hu
    simp only [session, h1]
    cases hg : o.getAnswer fuel c with
    | error => rfl
    | ok r =>
      obtain ⟨h3, h4, h5⟩ := h2 _ hg
      simp only [pure, Except.pure, ok_bind, ih h5 h4 h3]
      cases r.1.session fuel cs <;> rfl

end Org
end PBfs
