import Verif.Model.Place
import Verif.Proof.Located
import Verif.Proof.Tree2
import Verif.Props.Source
/-! # The positions of the code in the executors -/
namespace PBfs
open Org

namespace Placed

/-! ## Without the positions -/

theorem instr_org {fuel : Nat} {a a' : Placed} {id i} (h : a.instr fuel id i = .ok a') :
    a.org.instr fuel id i = .ok a'.org ∧ a'.program = a.program ∧ a'.builtins = a.builtins ∧ a.move id i = .ok a'.places := by
  simp only [instr, bind_ok, pure_ok] at h
  obtain ⟨o, h1, pl, h2, rfl⟩ := h
  exact ⟨h1, rfl, rfl, h2⟩

theorem instrs_org {fuel id : Nat} : ∀ {is : List Instr} {a a' : Placed}, Placed.instrs fuel id is a = .ok a' →
    a.org.instrs fuel id is = .ok a'.org ∧ a'.program = a.program ∧ a'.builtins = a.builtins
  | [], a, a', h => by
    simp only [Placed.instrs, pure_ok] at h
    subst h
    exact ⟨rfl, rfl, rfl⟩
  | i :: is, a, a', h => by
    simp only [Placed.instrs, bind_ok] at h
    obtain ⟨a1, h1, e, h2, h⟩ := h
    obtain ⟨k1, k2, k3, _⟩ := instr_org h1
    simp only [Org.instrs, k1, ok_bind, h2]
    split at h
    · rename_i hf
      simp only [pure_ok] at h
      subst h
      rw [if_pos hf]
      exact ⟨rfl, k2, k3⟩
    · rename_i hf
      rw [if_neg hf]
      obtain ⟨j1, j2, j3⟩ := instrs_org h
      exact ⟨j1, j2.trans k2, j3.trans k3⟩

theorem turn_org {fuel : Nat} {a a' : Placed} {r} (h : a.turn fuel = .ok (a', r)) :
    a.org.turn fuel = .ok (a'.org, r) ∧ a'.program = a.program ∧ a'.builtins = a.builtins := by
  unfold Placed.turn at h
  unfold Org.turn
  cases hq : a.org.queue with
  | nil =>
    rw [hq] at h
    simp only [pure_ok, Prod.mk.injEq] at h
    obtain ⟨rfl, rfl⟩ := h
    exact ⟨rfl, rfl, rfl⟩
  | cons id q =>
    rw [hq] at h
    simp only [Placed.turnOf, bind_ok] at h
    simp only [Org.turnOf]
    obtain ⟨e, h1, h⟩ := h
    rw [h1]
    simp only [ok_bind]
    cases hc : e.codes with
    | nil => rw [hc] at h; cases h
    | cons t ts =>
      rw [hc] at h
      simp only [bind_ok] at h
      obtain ⟨c, h2, a1, h3, e1, h4, h⟩ := h
      obtain ⟨k1, k2, k3⟩ := instrs_org h3
      simp only [h2, ok_bind]
      simp only at k1
      rw [k1]
      simp only [ok_bind, h4]
      cases hs : e1.state <;> rw [hs] at h <;> simp only [bind_ok, pure_ok, Prod.mk.injEq] at h ⊢
      · obtain ⟨rfl, rfl⟩ := h; exact ⟨⟨rfl, rfl⟩, k2, k3⟩
      · obtain ⟨err, h5, rfl, rfl⟩ := h; exact ⟨⟨_, h5, rfl, rfl⟩, k2, k3⟩
      · obtain ⟨bs, h5, rfl, rfl⟩ := h; exact ⟨⟨_, h5, rfl, rfl⟩, k2, k3⟩
      · obtain ⟨rfl, rfl⟩ := h; exact ⟨⟨rfl, rfl⟩, k2, k3⟩
      · obtain ⟨rfl, rfl⟩ := h; exact ⟨⟨rfl, rfl⟩, k2, k3⟩

/-! ## One turn -/

/-- The state before the last instruction. -/
theorem instrs_last {fuel id : Nat} {c : Instr} : ∀ {ds : List Instr} {a a' : Placed} {e : Exec}, (∀ d ∈ ds, d.isData = true) →
    a.org.execs[id]? = some e → e.failed = false → Placed.instrs fuel id (ds ++ [c]) a = .ok a' →
    (a'.places = a.places.set id ((a.own id).take 1) ∧ a'.org.execs.length = a.org.execs.length ∧ ∃ e', a'.org.execs[id]? = some e' ∧ e'.failed = true) ∨
    ∃ (a1 a2 : Placed) (e1 e2 : Exec), a1.places = a.places ∧ a1.program = a.program ∧ a1.org.program = a.org.program ∧ a1.org.gen = a.org.gen ∧
      a1.org.execs.length = a.org.execs.length ∧ a1.org.execs[id]? = some e1 ∧ e1.codes = e.codes ∧ e1.failed = false ∧
      a1.instr fuel id c = .ok a2 ∧ a2.org.execs[id]? = some e2 ∧
      (if e2.failed then a'.places = a2.places.set id ((a2.own id).take 1) ∧ ∃ e', a'.org.execs[id]? = some e' ∧ e'.failed = true
        else a'.places = a2.places) ∧
      a'.org.execs.length = a2.org.execs.length
  | [], a, a', e, _, he, hf, h => by
    simp only [List.nil_append, Placed.instrs, bind_ok] at h
    obtain ⟨a2, h1, e2, h2, h⟩ := h
    refine .inr ⟨a, a2, e, e2, rfl, rfl, rfl, rfl, rfl, he, rfl, hf, h1, exec_ok h2, ?_⟩
    split at h <;> rename_i hx
    · simp only [pure_ok] at h
      subst h
      have : (a2.org.setExec id e2.clear).execs[id]? = some e2.clear := setExec_get _ (List.getElem?_eq_some_iff.1 (exec_ok h2)).1
      simp only [hx, if_true]
      exact ⟨⟨trivial, e2.clear, this, hx⟩, by simp⟩
    · simp only [pure_ok] at h
      subst h
      simp [hx]
  | d :: ds, a, a', e, hd, he, hf, h => by
    have hlt : id < a.org.execs.length := (List.getElem?_eq_some_iff.1 he).1
    simp only [List.cons_append, Placed.instrs, bind_ok] at h
    obtain ⟨a1, h1, e1, h2, h⟩ := h
    obtain ⟨k1, k2, k3, k4⟩ := instr_org h1
    have hdd := hd d (by simp)
    rw [instr_data he hdd] at k1
    simp only [bind_ok, pure_ok] at k1
    obtain ⟨e1', k5, k6⟩ := k1
    have hfr := stepData_frame k5
    have he1 : a1.org.execs[id]? = some e1' := by rw [← k6]; exact setExec_get _ hlt
    have : e1 = e1' := by
      have := exec_ok h2
      rw [he1] at this
      exact (Option.some.inj this).symm
    subst this
    have hpl : a1.places = a.places := by
      cases d <;> simp only [Instr.isData, Bool.false_eq_true] at hdd <;> simp only [move, pure_ok] at k4 <;> exact k4.symm
    have hlen : a1.org.execs.length = a.org.execs.length := by rw [← k6]; simp
    split at h <;> rename_i hx
    · simp only [pure_ok] at h
      subst h
      refine .inl ⟨by simp [own, hpl], by simp [hlen], e1.clear, setExec_get _ (by rw [hlen]; exact hlt), hx⟩
    · rcases instrs_last (fun d' hd' => hd d' (by simp [hd'])) he1 (by simpa using hx) h with ⟨j1, j2, j3⟩ | ⟨a2, a3, e2, e3, j1, j2, j3, j4, j5, j6, j7, j⟩
      · exact .inl ⟨by rw [j1, own, own, hpl], j2.trans hlen, j3⟩
      · exact .inr ⟨a2, a3, e2, e3, j1.trans hpl, j2.trans k2, j3.trans (by rw [← k6]; rfl), j4.trans (by rw [← k6]; rfl), j5.trans hlen, j6,
          j7.trans hfr.codes, j⟩

/-- What one turn does to the positions. -/
theorem turn_places {fuel : Nat} {a a' : Placed} {r id q e t ts i is ds} {c : Instr} (hq : a.org.queue = id :: q) (he : a.org.execs[id]? = some e)
    (hrun : e.state = .running) (hc : e.codes = t :: ts) (hi : a.places[id]? = some (i :: is)) (hins : t.atom.instrs = ds ++ [c])
    (hds : ∀ d ∈ ds, d.isData = true) (h : a.turn fuel = .ok (a', r)) :
    (a'.org.execs.length = a.org.execs.length ∧ a'.places = a.places.set id [i] ∧ ∃ e', a'.org.execs[id]? = some e' ∧ e'.failed = true) ∨
    match c with
    | .call f => ∃ rs, a.org.program.rules? f = some rs ∧ a'.org.execs.length = a.org.execs.length + rs.length ∧
        a'.places = a.places.set id [i] ++ ((List.lookup f a.program).getD []).map (· ++ is)
    | .proceed => (a'.org.execs.length = a.org.execs.length ∧ a'.places = a.places.set id [i]) ∨
        (a'.org.execs.length = a.org.execs.length + 1 ∧ a'.places = a.places.set id [i] ++ [is])
    | .deallocate => a'.places = a.places.set id is
    | _ => True := by
  have hlt : id < a.org.execs.length := (List.getElem?_eq_some_iff.1 he).1
  have hltp : id < a.places.length := (List.getElem?_eq_some_iff.1 hi).1
  unfold Placed.turn at h
  rw [hq] at h
  simp only [Placed.turnOf, bind_ok, Org.exec, he, orFault_some, Except.ok.injEq, exists_eq_left', hc] at h
  obtain ⟨cc, h2, a1, h3, e1, h4, h⟩ := h
  have hcc : cc = t.atom := by
    unfold Org.code at h2
    split at h2
    · cases h2
    · cases h2; rfl
  subst hcc
  have ha : a' = a1 := by
    cases hs : e1.state <;> rw [hs] at h <;> simp only [bind_ok, pure_ok, Prod.mk.injEq] at h
    · exact h.1.symm
    · obtain ⟨_, _, h, _⟩ := h; exact h.symm
    · obtain ⟨_, _, h, _⟩ := h; exact h.symm
    · exact h.1.symm
    · exact h.1.symm
  subst ha
  rw [hins] at h3
  have hown : ∀ (x : Placed), x.places = a.places → x.own id = i :: is := by
    intro x hx
    rw [own, hx, hi]; rfl
  have hset : ∀ (pl : List (List Info)) (x : List Info), pl[id]? = some x → x.take 1 = x → pl.set id x = pl := by
    intro pl x h1 _
    obtain ⟨h2, h3⟩ := List.getElem?_eq_some_iff.1 h1
    rw [← h3]; exact List.set_getElem_self h2
  rcases instrs_last hds (setExec_get _ (by simpa using hlt)) (by simp [Exec.failed, hrun]) h3 with
    ⟨j1, j2, j3⟩ | ⟨b1, b2, f1, f2, j1, j2, j3, j4, j5, j6, j7, j8, j9, j10, j11, j12⟩
  · left
    refine ⟨by simpa using j2, ?_, j3⟩
    rw [j1, hown _ (by rfl)]; rfl
  · obtain ⟨k1, k2, k3, k4⟩ := instr_org j9
    simp only at j1 j2 j3 j5
    have hb1 := hown b1 j1
    have hlt1 : id < b1.org.execs.length := (List.getElem?_eq_some_iff.1 j6).1
    cases c with
    | call f =>
      simp only [Org.instr, Org.exec, j6, orFault_some, ok_bind, pure_ok, Org.call] at k1
      simp only [move] at k4
      have hp : b1.org.program = a.org.program := j3
      cases hr : b1.org.program.rules? f with
      | none =>
        left
        rw [hr] at k1 k4
        simp only [pure_ok] at k4
        have hx : f2 = f1.setFailed := by
          rw [← k1] at j10
          have := setExec_get { b1.org with calls := b1.org.calls + 1 } (id := id) (e := f1.setFailed) hlt1
          rw [this] at j10
          exact (Option.some.inj j10).symm
        rw [if_pos (by rw [hx]; rfl)] at j11
        have hl : a'.org.execs.length = a.org.execs.length := by
          rw [j12, ← k1]; simp [Org.setExec, j5]
        refine ⟨hl, ?_, j11.2⟩
        rw [j11.1, hown b2 (k4.symm.trans j1), ← k4, j1]; rfl
      | some rs =>
        right
        rw [hr] at k1 k4
        simp only [pure_ok] at k4
        refine ⟨rs, hp ▸ hr, ?_, ?_⟩
        · rw [j12, ← k1]; simp [Org.setExec, j5]
        · have hg : b2.places[id]? = some [i] := by
            rw [← k4, List.getElem?_append_left (by simpa [j1] using hltp), List.getElem?_set_self (by rw [j1]; exact hltp), hb1]; rfl
          have : a'.places = b2.places := by
            split at j11
            · rw [j11.1, own, hg]; exact hset _ _ hg rfl
            · exact j11
          rw [this, ← k4, hb1, j1, j2]; rfl
    | proceed =>
      right
      simp only [Org.instr, Org.exec, j6, orFault_some, ok_bind, Org.proceed] at k1
      simp only [move, Org.exec, j6, orFault_some, ok_bind] at k4
      rw [j8] at k1 k4
      simp only [Bool.false_eq_true, if_false, bind_ok] at k1 k4
      obtain ⟨b, m1, k1⟩ := k1
      obtain ⟨b', m2, k4⟩ := k4
      rw [m1] at m2; cases m2
      cases b with
      | true =>
        simp only [if_true, pure_ok] at k1 k4
        left
        refine ⟨by rw [j12, ← k1]; simp [Org.setExec, j5], ?_⟩
        have hg : b2.places[id]? = some [i] := by
          rw [← k4, List.getElem?_set_self (by rw [j1]; exact hltp), hb1]; rfl
        have : a'.places = b2.places := by
          split at j11
          · rw [j11.1, own, hg]; exact hset _ _ hg rfl
          · exact j11
        rw [this, ← k4, hb1, j1]; rfl
      | false =>
        simp only [Bool.false_eq_true, if_false, pure_ok] at k1 k4
        right
        refine ⟨by rw [j12, ← k1]; simp [Org.setExec, j5], ?_⟩
        have hg : b2.places[id]? = some [i] := by
          rw [← k4, List.getElem?_append_left (by simpa [j1] using hltp), List.getElem?_set_self (by rw [j1]; exact hltp), hb1]; rfl
        have : a'.places = b2.places := by
          split at j11
          · rw [j11.1, own, hg]; exact hset _ _ hg rfl
          · exact j11
        rw [this, ← k4, hb1, j1]; rfl
    | deallocate =>
      right
      simp only [Org.instr, Org.exec, j6, orFault_some, ok_bind, Org.deallocate] at k1
      simp only [move, pure_ok] at k4
      cases hv : f1.envs with
      | nil => rw [hv] at k1; cases k1
      | cons v vs =>
        rw [hv] at k1
        simp only [pure_ok] at k1
        have hx : f2.failed = false := by
          rw [← k1] at j10
          have := setExec_get b1.org (id := id) (e := { f1 with envs := vs, codes := f1.codes.drop 1 }) hlt1
          simp only at j10
          rw [this] at j10
          rw [← Option.some.inj j10]
          simpa [Exec.failed] using j8
        rw [hx] at j11
        simp only [Bool.false_eq_true, if_false] at j11
        simp only
        rw [j11, ← k4, hb1, j1]; rfl
    | _ => exact .inr trivial

end Placed
end PBfs
