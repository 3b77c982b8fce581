import Verif.Proof.Stack
/-! # The exact effect of a turn -/
namespace PBfs
open Org

section
variable {o o' : Org} {fuel id : Nat} {q : List Nat} {e : Exec} {t : TCode} {ts : List TCode} {ds : List Instr} {r : Turn}

/-- The executor when its code starts. -/
def Exec.start (e : Exec) (a : CAtom) : Exec := { e with regs := resize a.regCount e.regs }

theorem turn_call {f : FV} (inv : o.Inv) (hq : o.queue = id :: q) (he : o.execs[id]? = some e) (hcodes : e.codes = t :: ts)
    (hins : t.atom.instrs = ds ++ [.call f]) (hds : ∀ d ∈ ds, d.isData = true)
    (hok : ∀ e1, runData (preOf o.execs e) fuel o.st ds (e.start t.atom) = .ok e1 → e1.state = .running)
    (h : o.turn fuel = .ok (o', r)) :
    ∃ e1, runData (preOf o.execs e) fuel o.st ds (e.start t.atom) = .ok e1 ∧ r = .continue ∧ o.stale t = false ∧
      ((o.program.rules? f = none ∧ o' = { o with queue := q, execs := o.execs.set id e1.setFailed.clear, calls := o.calls + 1 }) ∨
      ∃ rules, o.program.rules? f = some rules ∧
        o' = { o with
          queue := q ++ List.range' o.execs.length rules.length
          execs := o.execs.set id { e1.clear with children := e1.children ++ List.range' o.execs.length rules.length, state := .archived } ++
            rules.map (o.callChild id e1)
          calls := o.calls + 1 }) := by
  obtain ⟨e2, he2, hrun, hsh⟩ := inv.qrun id (by simp [hq])
  rw [he] at he2; cases he2
  have hlt : id < o.execs.length := (List.getElem?_eq_some_iff.1 he).1
  rw [turn_eq hq he hrun inv.parLt hcodes hins hds rfl] at h
  simp only [bind_ok] at h
  obtain ⟨a, ha, e1, hr, o1, ho1, hfin⟩ := h
  have hst : o.stale t = false ∧ a = t.atom := by
    unfold code at ha
    split at ha
    · cases ha
    · rename_i hs; cases ha; exact ⟨by simpa using hs, rfl⟩
  obtain ⟨hst, rfl⟩ := hst
  have hrun1 := hok e1 hr
  have hf : e1.failed = false := by simp [Exec.failed, hrun1]
  simp only [hf, Bool.false_eq_true, if_false] at ho1
  simp only [ctl] at ho1
  refine ⟨e1, hr, ?_⟩
  cases hrules : o.program.rules? f with
  | none =>
    simp only [hrules, pure_ok] at ho1
    subst ho1
    simp only [finish, exec, setExec, List.getElem?_set_self hlt, orFault_some, ok_bind,
      Exec.setFailed, Exec.clear, pure_ok, Prod.mk.injEq] at hfin
    obtain ⟨rfl, rfl⟩ := hfin
    exact ⟨rfl, hst, .inl ⟨rfl, rfl⟩⟩
  | some rules =>
    simp only [hrules, pure_ok] at ho1
    subst ho1
    simp only [call, hrules, finish, exec, setExec,
      List.getElem?_append_left (show id < (o.execs.set id _).length by simpa using hlt),
      List.getElem?_set_self hlt, orFault_some, ok_bind, pure_ok, Prod.mk.injEq] at hfin
    obtain ⟨rfl, rfl⟩ := hfin
    exact ⟨rfl, hst, .inr ⟨rules, rfl, rfl⟩⟩

theorem turn_proceed (inv : o.Inv) (hq : o.queue = id :: q) (he : o.execs[id]? = some e) (hcodes : e.codes = t :: ts)
    (hins : t.atom.instrs = ds ++ [.proceed]) (hds : ∀ d ∈ ds, d.isData = true)
    (h : o.turn fuel = .ok (o', r)) :
    ∃ e1, runData (preOf o.execs e) fuel o.st ds (e.start t.atom) = .ok e1 ∧ o.stale t = false ∧
      ((e1.state = .fail ∧ r = .continue ∧ o' = { o with queue := q, execs := o.execs.set id e1.clear }) ∨
      (∃ err, e1.state = .rtErr ∧ e1.err = some err ∧ r = .error err ∧ o' = { o with queue := q, execs := o.execs.set id e1.clear }) ∨
      (e1.state = .running ∧ o.allDealloc ts = .ok true ∧
        (∃ bs, r = .answer bs ∧ o'.answer fuel id = .ok bs) ∧ o' = { o with queue := q, execs := o.execs.set id { e1.clear with state := .success } }) ∨
      (e1.state = .running ∧ o.allDealloc ts = .ok false ∧ r = .continue ∧
        o' = { o with
          queue := q ++ [o.execs.length]
          execs := o.execs.set id { e1 with
            codes := e1.codes.take 1, envs := e1.envs.take 1, children := e1.children ++ [o.execs.length], state := .archived } ++
            [proceedChild id e1] })) := by
  obtain ⟨e2, he2, hrun, hsh⟩ := inv.qrun id (by simp [hq])
  rw [he] at he2; cases he2
  have hlt : id < o.execs.length := (List.getElem?_eq_some_iff.1 he).1
  rw [turn_eq hq he hrun inv.parLt hcodes hins hds rfl] at h
  simp only [bind_ok] at h
  obtain ⟨a, ha, e1, hr, o1, ho1, hfin⟩ := h
  have hst : o.stale t = false ∧ a = t.atom := by
    unfold code at ha
    split at ha
    · cases ha
    · rename_i hs; cases ha; exact ⟨by simpa using hs, rfl⟩
  obtain ⟨hst, rfl⟩ := hst
  have fr := runData_frame hr
  have hcod : e1.codes = t :: ts := fr.codes.trans hcodes
  refine ⟨e1, hr, hst, ?_⟩
  split at ho1
  · rename_i hf
    simp only [pure_ok] at ho1
    subst ho1
    simp only [finish, exec, setExec, List.getElem?_set_self hlt, orFault_some, ok_bind] at hfin
    rcases fr.state hrun with h1 | h1 | ⟨h1, h2⟩
    · simp [Exec.failed, h1] at hf
    · have hcs : e1.clear.state = .fail := h1
      simp only [hcs, pure_ok, Prod.mk.injEq] at hfin
      obtain ⟨rfl, rfl⟩ := hfin
      exact .inl ⟨h1, rfl, rfl⟩
    · have hcs : e1.clear.state = .rtErr := h1
      have hce : e1.clear.err = e1.err := rfl
      obtain ⟨err, herr⟩ := Option.isSome_iff_exists.1 h2
      simp only [hcs, hce, herr, orFault_some, ok_bind, pure_ok, Prod.mk.injEq] at hfin
      obtain ⟨rfl, rfl⟩ := hfin
      exact .inr (.inl ⟨err, h1, herr, rfl, rfl⟩)
  · rename_i hf
    have hrun1 : e1.state = .running := by
      rcases fr.state hrun with h1 | h1 | h1
      · exact h1
      · simp [Exec.failed, h1] at hf
      · simp [Exec.failed, h1.1] at hf
    simp only [ctl, Org.proceed] at ho1
    have hnf : e1.failed = false := by simpa using hf
    simp only [hnf, Bool.false_eq_true, if_false, bind_ok, hcod, List.drop_succ_cons, List.drop_zero] at ho1
    obtain ⟨done, hd, ho1⟩ := ho1
    have hd' : o.allDealloc ts = .ok done := by
      rw [← hd]
      clear hd ho1 hfin hcodes hcod
      induction ts with
      | nil => rfl
      | cons t' ts ih =>
        rw [allDealloc, allDealloc]
        have : ({ o with queue := q } : Org).code t' = o.code t' := rfl
        rw [this]
        simp only [ih]
    split at ho1
    · rename_i hdone
      simp only [pure_ok] at ho1
      subst ho1
      simp only [finish, exec, setExec, List.getElem?_set_self hlt, orFault_some, ok_bind, bind_ok,
        pure_ok, Prod.mk.injEq] at hfin
      obtain ⟨bs, hbs, rfl, rfl⟩ := hfin
      exact .inr (.inr (.inl ⟨hrun1, by rw [hd', hdone], ⟨bs, rfl, hbs⟩, rfl⟩))
    · rename_i hdone
      simp only [pure_ok] at ho1
      subst ho1
      simp only [finish, exec, setExec,
        List.getElem?_append_left (show id < (o.execs.set id _).length by simpa using hlt),
        List.getElem?_set_self hlt, orFault_some, ok_bind, pure_ok, Prod.mk.injEq] at hfin
      obtain ⟨rfl, rfl⟩ := hfin
      refine .inr (.inr (.inr ⟨hrun1, by rw [hd']; simp at hdone; rw [hdone], rfl, ?_⟩))
      rw [hcod]

theorem turn_dealloc (inv : o.Inv) (hq : o.queue = id :: q) (he : o.execs[id]? = some e) (hcodes : e.codes = t :: ts)
    (hins : t.atom.instrs = [.deallocate]) (h : o.turn fuel = .ok (o', r)) :
    ∃ env es, e.envs = env :: es ∧ r = .continue ∧ o.stale t = false ∧
      o' = { o with queue := q ++ [id], execs := o.execs.set id { (e.start t.atom) with envs := es, codes := ts } } := by
  obtain ⟨e2, he2, hrun, hsh⟩ := inv.qrun id (by simp [hq])
  rw [he] at he2; cases he2
  have hlt : id < o.execs.length := (List.getElem?_eq_some_iff.1 he).1
  rw [turn_eq (ds := []) (c := .deallocate) hq he hrun inv.parLt hcodes (by simpa using hins) (by simp) rfl] at h
  simp only [bind_ok, runData, pure, Except.pure, Except.ok.injEq] at h
  obtain ⟨a, ha, e1, rfl, o1, ho1, hfin⟩ := h
  have hst : o.stale t = false ∧ a = t.atom := by
    unfold code at ha
    split at ha
    · cases ha
    · rename_i hs; cases ha; exact ⟨by simpa using hs, rfl⟩
  obtain ⟨hst, rfl⟩ := hst
  have hf : (e.start t.atom).failed = false := by simp [Exec.failed, Exec.start, hrun]
  simp only [Exec.start] at hf
  simp only [hf, Bool.false_eq_true, if_false, ctl, deallocate] at ho1
  split at ho1
  · cases ho1
  · rename_i env envs henvs
    simp only [pure_ok] at ho1
    subst ho1
    simp only [finish, exec, setExec, List.getElem?_set_self hlt, orFault_some, ok_bind, hrun,
      pure_ok, Prod.mk.injEq] at hfin
    obtain ⟨rfl, rfl⟩ := hfin
    exact ⟨env, envs, henvs, rfl, hst, by simp [hcodes, Exec.start, hrun]⟩

end
end PBfs
