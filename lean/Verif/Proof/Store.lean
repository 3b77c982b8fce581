import Verif.Proof.Shape
/-! # The store of executors: invariant and description of a turn -/
namespace PBfs
namespace Org

/-- Pending executors are running, distinct, and no ancestors of anything; ancestors are archived. -/
structure Inv (o : Org) : Prop where
  qrun : ∀ id ∈ o.queue, ∃ e, o.execs[id]? = some e ∧ e.state = .running ∧ (∀ t ∈ e.codes, t.atom.Shaped)
  qnd : o.queue.Nodup
  par : ∀ (id : Nat) (e : Exec) (p : Nat), o.execs[id]? = some e → e.parent = some p →
    p < id ∧ ∃ e', o.execs[p]? = some e' ∧ e'.state = .archived
  prog : o.program.Shaped

theorem Inv.parLt {o : Org} (h : Inv o) : ParLt o.execs := fun id e p he hp => (h.par id e p he hp).1

/-- The possible effects of a turn of `id`, with `q` the rest of the queue. -/
inductive TurnDesc (o : Org) (id : Nat) (q : List Nat) : Org → Turn → Prop
  | died {e e' : Exec} {k : Nat} : o.execs[id]? = some e → e'.parent = e.parent → e'.state = .fail → k ≤ 1 →
      TurnDesc o id q { o with queue := q, execs := o.execs.set id e', calls := o.calls + k } .continue
  | error {e e' : Exec} {err} : o.execs[id]? = some e → e'.parent = e.parent → e'.state = .rtErr →
      e'.err = some err →
      TurnDesc o id q { o with queue := q, execs := o.execs.set id e' } (.error err)
  | success {e e' : Exec} {bs} : o.execs[id]? = some e → e'.parent = e.parent → e'.state = .success →
      TurnDesc o id q { o with queue := q, execs := o.execs.set id e' } (.answer bs)
  | spawn {e e' : Exec} {news : List Exec} {k : Nat} : o.execs[id]? = some e → e'.parent = e.parent →
      e'.state = .archived → k ≤ 1 →
      (∀ n ∈ news, n.parent = some id ∧ n.state = .running ∧ (∀ t ∈ n.codes, t.atom.Shaped)) →
      TurnDesc o id q { o with
        queue := q ++ List.range' o.execs.length news.length,
        execs := o.execs.set id e' ++ news, calls := o.calls + k } .continue
  | requeue {e e' : Exec} : o.execs[id]? = some e → e'.parent = e.parent → e'.state = .running →
      (∀ t ∈ e'.codes, t.atom.Shaped) →
      TurnDesc o id q { o with queue := q ++ [id], execs := o.execs.set id e' } .continue

theorem turn_desc {o o' : Org} {fuel id q t} (inv : Inv o) (hq : o.queue = id :: q)
    (h : o.turn fuel = .ok (o', t)) : TurnDesc o id q o' t := by
  obtain ⟨e, he, hrun, hsh⟩ := inv.qrun id (by simp [hq])
  have hlt : id < o.execs.length := (List.getElem?_eq_some_iff.1 he).1
  cases hcodes : e.codes with
  | nil => simp [turn, hq, turnOf, exec, he, hcodes] at h
  | cons t0 ts =>
    obtain ⟨ds, c, hins, hds, hc⟩ := hsh t0 (by simp [hcodes])
    rw [turn_eq hq he hrun inv.parLt hcodes hins hds hc] at h
    simp only [bind_ok] at h
    obtain ⟨a, _, e1, hr, o1, ho1, hfin⟩ := h
    have fr := runData_frame hr
    have hpar : e1.parent = e.parent := fr.parent
    have hcod : e1.codes = e.codes := fr.codes
    have hst := fr.state hrun
    have hsh1 : ∀ t ∈ e1.codes, t.atom.Shaped := by rw [hcod]; exact hsh
    have hshd : ∀ t ∈ e1.codes.drop 1, t.atom.Shaped := fun t ht => hsh1 t (List.mem_of_mem_drop ht)
    split at ho1
    · rename_i hf
      simp only [pure_ok] at ho1
      subst ho1
      simp only [finish, exec, setExec, List.getElem?_set_self hlt, orFault_some, ok_bind] at hfin
      rcases hst with h1 | h1 | ⟨h1, h2⟩
      · simp [Exec.failed, h1] at hf
      · have hcs : e1.clear.state = .fail := h1
        simp only [hcs, pure_ok, Prod.mk.injEq] at hfin
        obtain ⟨rfl, rfl⟩ := hfin
        exact .died (k := 0) he hpar hcs (by omega)
      · have hcs : e1.clear.state = .rtErr := h1
        have hce : e1.clear.err = e1.err := rfl
        obtain ⟨err, herr⟩ := Option.isSome_iff_exists.1 h2
        simp only [hcs, hce, herr, orFault_some, ok_bind, pure_ok, Prod.mk.injEq] at hfin
        obtain ⟨rfl, rfl⟩ := hfin
        exact .error he hpar hcs herr
    · rename_i hf
      cases c <;> simp only [Instr.isData, Bool.true_eq_false] at hc
      · rename_i f
        simp only [ctl] at ho1
        split at ho1
        · simp only [pure_ok] at ho1
          subst ho1
          simp only [finish, exec, setExec, List.getElem?_set_self hlt, orFault_some, ok_bind,
            Exec.setFailed, Exec.clear, pure_ok, Prod.mk.injEq] at hfin
          obtain ⟨rfl, rfl⟩ := hfin
          exact .died (k := 1) he hpar rfl (by omega)
        · rename_i rules hrules
          simp only [pure_ok] at ho1
          subst ho1
          simp only [call, hrules, finish, exec, setExec,
            List.getElem?_append_left (show id < (o.execs.set id _).length by simpa using hlt),
            List.getElem?_set_self hlt, orFault_some, ok_bind, pure_ok, Prod.mk.injEq] at hfin
          obtain ⟨rfl, rfl⟩ := hfin
          have := TurnDesc.spawn (o := o) (id := id) (q := q)
            (e' := { e1.clear with children := e1.children ++ List.range' o.execs.length rules.length,
                                   state := .archived })
            (news := rules.map (callChild { o with queue := q, calls := o.calls + 1 } id e1)) (k := 1) he hpar rfl
            (by omega) (by
              intro n hn
              simp only [List.mem_map] at hn
              obtain ⟨r, hr', rfl⟩ := hn
              refine ⟨rfl, rfl, ?_⟩
              intro t ht
              simp only [callChild, List.mem_append, List.mem_map] at ht
              rcases ht with ⟨a, ha, rfl⟩ | ht
              · exact ((inv.prog f rules hrules) r hr').2 a ha
              · exact hshd t ht)
          simpa using this
      · simp only [ctl, proceed] at ho1
        have hnf : e1.failed = false := by simpa using hf
        simp only [hnf, Bool.false_eq_true, if_false, bind_ok] at ho1
        obtain ⟨done, _, ho1⟩ := ho1
        split at ho1
        · simp only [pure_ok] at ho1
          subst ho1
          simp only [finish, exec, setExec, List.getElem?_set_self hlt, orFault_some, ok_bind, bind_ok,
            pure_ok, Prod.mk.injEq] at hfin
          obtain ⟨bs, _, rfl, rfl⟩ := hfin
          exact .success he hpar rfl
        · simp only [pure_ok] at ho1
          subst ho1
          simp only [finish, exec, setExec,
            List.getElem?_append_left (show id < (o.execs.set id _).length by simpa using hlt),
            List.getElem?_set_self hlt, orFault_some, ok_bind, pure_ok, Prod.mk.injEq] at hfin
          obtain ⟨rfl, rfl⟩ := hfin
          exact TurnDesc.spawn (o := o) (id := id) (q := q) (news := [proceedChild id e1]) (k := 0) he hpar rfl
            (by omega) (by
              intro n hn
              simp only [List.mem_singleton] at hn
              subst hn
              exact ⟨rfl, rfl, hshd⟩)
      · simp only [ctl, deallocate] at ho1
        split at ho1
        · cases ho1
        · rename_i env envs henvs
          simp only [pure_ok] at ho1
          subst ho1
          have hrun1 : e1.state = .running := by
            rcases hst with h1 | h1 | h1
            · exact h1
            · simp [Exec.failed, h1] at hf
            · simp [Exec.failed, h1.1] at hf
          simp only [finish, exec, setExec, List.getElem?_set_self hlt, orFault_some, ok_bind, hrun1,
            pure_ok, Prod.mk.injEq] at hfin
          obtain ⟨rfl, rfl⟩ := hfin
          exact .requeue he hpar rfl hshd

theorem getElem?_set_some {α} {l : List α} {i j : Nat} {a x : α} (h : (l.set i a)[j]? = some x) :
    (i = j ∧ x = a) ∨ (i ≠ j ∧ l[j]? = some x) := by
  by_cases hij : i = j
  · subst hij
    have hlt : i < l.length := by
      have := (List.getElem?_eq_some_iff.1 h).1
      simpa using this
    rw [List.getElem?_set_self hlt] at h
    exact .inl ⟨rfl, (Option.some.inj h).symm⟩
  · rw [List.getElem?_set_ne hij] at h
    exact .inr ⟨hij, h⟩

/-- A pending executor is nobody's parent. -/
theorem Inv.no_child {o : Org} (inv : Inv o) {id j : Nat} {e : Exec} (hid : id ∈ o.queue)
    (hj : o.execs[j]? = some e) : e.parent ≠ some id := by
  intro hp
  obtain ⟨_, e', he', ha⟩ := inv.par j e id hj hp
  obtain ⟨e2, he2, hr, _⟩ := inv.qrun id hid
  rw [he'] at he2
  cases he2
  rw [ha] at hr
  cases hr

theorem Inv.turn {o o' : Org} {fuel t} (inv : Inv o) (h : o.turn fuel = .ok (o', t)) : Inv o' := by
  cases hq : o.queue with
  | nil =>
    simp only [Org.turn, hq, pure_ok, Prod.mk.injEq] at h
    rw [← h.1]; exact inv
  | cons id q =>
    have hid : id ∈ o.queue := by simp [hq]
    have hnd := inv.qnd
    rw [hq, List.nodup_cons] at hnd
    have qsub : ∀ {j}, j ∈ q → j ∈ o.queue := fun hj => by simp [hq, hj]
    have qne : ∀ {j}, j ∈ q → id ≠ j := by rintro j hj rfl; exact hnd.1 hj
    -- a set of the executor `id`
    have parset : ∀ {e e' : Exec}, o.execs[id]? = some e → e'.parent = e.parent →
        ∀ (j : Nat) (x : Exec) (p : Nat), (o.execs.set id e')[j]? = some x → x.parent = some p →
        p < j ∧ ∃ y, (o.execs.set id e')[p]? = some y ∧ y.state = .archived := by
      intro e e' he hpar j x p hx hp
      have key : ∃ x', o.execs[j]? = some x' ∧ x'.parent = some p := by
        rcases getElem?_set_some hx with ⟨rfl, rfl⟩ | ⟨_, hx⟩
        · exact ⟨e, he, hpar ▸ hp⟩
        · exact ⟨x, hx, hp⟩
      obtain ⟨x', hx', hp'⟩ := key
      obtain ⟨h1, y, hy, hy'⟩ := inv.par j x' p hx' hp'
      have hpid : id ≠ p := by
        rintro rfl
        exact inv.no_child hid hx' hp'
      exact ⟨h1, y, by rw [List.getElem?_set_ne hpid]; exact hy, hy'⟩
    have qrunset : ∀ (e' : Exec), ∀ j ∈ q, ∃ x, (o.execs.set id e')[j]? = some x ∧ x.state = .running ∧
        (∀ t ∈ x.codes, t.atom.Shaped) := by
      intro e' j hj
      obtain ⟨x, hx, hr⟩ := inv.qrun j (qsub hj)
      exact ⟨x, by rw [List.getElem?_set_ne (qne hj)]; exact hx, hr⟩
    cases turn_desc inv hq h with
    | died he hp hs => exact ⟨qrunset _, hnd.2, parset he hp, inv.prog⟩
    | error he hp hs => exact ⟨qrunset _, hnd.2, parset he hp, inv.prog⟩
    | success he hp hs => exact ⟨qrunset _, hnd.2, parset he hp, inv.prog⟩
    | @requeue e e' he hp hs hsh =>
      refine ⟨?_, ?_, parset he hp, inv.prog⟩
      · intro j hj
        simp only [List.mem_append, List.mem_singleton] at hj
        rcases hj with hj | rfl
        · exact qrunset _ j hj
        · exact ⟨e', List.getElem?_set_self (List.getElem?_eq_some_iff.1 he).1, hs, hsh⟩
      · simp only [List.nodup_append, List.mem_singleton]
        refine ⟨hnd.2, by simp, ?_⟩
        rintro a ha b rfl
        exact (qne ha).symm
    | @spawn e e' news k he hp hs hk hnews =>
      have hlt : id < o.execs.length := (List.getElem?_eq_some_iff.1 he).1
      refine ⟨?_, ?_, ?_, inv.prog⟩
      · intro j hj
        simp only [List.mem_append, List.mem_range'_1] at hj
        rcases hj with hj | hj
        · obtain ⟨x, hx, hr⟩ := qrunset e' j hj
          refine ⟨x, ?_, hr⟩
          rw [List.getElem?_append_left (List.getElem?_eq_some_iff.1 hx).1]; exact hx
        · have hx : (o.execs.set id e' ++ news)[j]? = some (news[j - o.execs.length]'(by omega)) := by
            rw [List.getElem?_append_right (by simp; omega), List.length_set]
            exact List.getElem?_eq_getElem (by omega)
          exact ⟨_, hx, (hnews _ (List.getElem_mem _)).2⟩
      · simp only [List.nodup_append]
        refine ⟨hnd.2, List.nodup_range', ?_⟩
        intro a ha b hb
        simp only [List.mem_range'_1] at hb
        obtain ⟨x, hx, _⟩ := inv.qrun a (qsub ha)
        have := (List.getElem?_eq_some_iff.1 hx).1
        omega
      · intro j x p hx hp'
        by_cases hj : j < o.execs.length
        · rw [List.getElem?_append_left (by simpa using hj)] at hx
          obtain ⟨h1, y, hy, hy'⟩ := parset he hp j x p hx hp'
          exact ⟨h1, y, by rw [List.getElem?_append_left (by simp; omega)]; exact hy, hy'⟩
        · rw [List.getElem?_append_right (by simp; omega)] at hx
          have hm := hnews x (List.mem_of_getElem? hx)
          rw [hm.1] at hp'
          cases hp'
          refine ⟨by omega, e', ?_, hs⟩
          rw [List.getElem?_append_left (by simpa using hlt)]
          exact List.getElem?_set_self hlt

end Org
end PBfs
