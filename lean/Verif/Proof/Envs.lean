import Verif.Proof.Shape
/-! # Code without permanent variables leaves the environments alone -/
namespace PBfs

/-- Instructions that do not change environments. -/
def Instr.envFree : Instr → Bool
  | .setPermVariable .. | .unifyPermVariable .. | .putPermVariable .. | .getPermVariable .. | .allocate _ => false
  | _ => true

theorem queryKid_envFree {yOf : Name → Option Nat} (hy : ∀ n, yOf n = none) {c x g i g'} (h : queryKid yOf c x g = .ok (i, g')) : i.envFree = true := by
  have xc : ∀ {n : Name}, (if g.has (.x x) then pure (.setValue x, g)
      else
        let g := g.mark (.x x)
        let (v, st) := g.st.pushBackVar n
        pure (.setVariable x v, { g with st := st }) : CR (Instr × GenSt)) = .ok (i, g') →
      i.envFree = true := by
    intro n h
    split at h
    · simp only [pure_ok, Prod.mk.injEq] at h; rw [← h.1]; rfl
    · simp only [pure_ok, Prod.mk.injEq] at h; rw [← h.1]; rfl
  unfold queryKid at h
  cases c with
  | int => 
    simp only [bind_ok, pure_ok, Prod.mk.injEq] at h
    obtain ⟨_, _, rfl, _⟩ := h; rfl
  | cons => 
    simp only [bind_ok, pure_ok, Prod.mk.injEq] at h
    obtain ⟨_, _, rfl, _⟩ := h; rfl
  | var n =>
    simp only at h
    split at h
    · next hr => simp [hy] at hr
    · exact xc h
  | fn => exact xc h
  | efn => exact xc h

theorem queryKids_envFree {yOf : Name → Option Nat} (hy : ∀ n, yOf n = none) {ks g is g'} (h : queryKids yOf ks g = .ok (is, g')) :
    ∀ i ∈ is, i.envFree = true := by
  induction ks generalizing g is g' with
  | nil => simp only [queryKids, pure_ok, Prod.mk.injEq] at h; rw [← h.1]; simp
  | cons k ks ih =>
    obtain ⟨c, x⟩ := k
    simp only [queryKids, bind_ok, pure_ok, Prod.mk.injEq] at h
    obtain ⟨⟨i, g1⟩, h1, ⟨is', g2⟩, h2, rfl, _⟩ := h
    intro j hj
    simp only [List.mem_cons] at hj
    rcases hj with rfl | hj
    · exact queryKid_envFree hy h1
    · exact ih h2 j hj

theorem queryItem_envFree {yOf : Name → Option Nat} (hy : ∀ n, yOf n = none) {xOf a g is g'} (h : queryItem yOf xOf a g = .ok (is, g')) :
    (∀ i ∈ is, i.envFree = true) ∧ is ≠ [] := by
  unfold queryItem at h
  split at h
  · split at h
    · next hr => simp [hy] at hr
    · split at h <;> (simp only [pure_ok, Prod.mk.injEq] at h; rw [← h.1]; simp [Instr.envFree])
  · simp only at h
    split at h
    · simp only [bind_ok, pure_ok, Prod.mk.injEq] at h
      obtain ⟨⟨c, g1⟩, _, ⟨is', g2⟩, h2, rfl, _⟩ := h
      refine ⟨?_, by simp⟩
      intro j hj
      simp only [List.mem_cons] at hj
      rcases hj with rfl | hj
      · rfl
      · exact queryKids_envFree hy h2 j hj
    · cases h
  · simp only [bind_ok, pure_ok, Prod.mk.injEq] at h
    obtain ⟨⟨c, g1⟩, _, ⟨is', g2⟩, h2, rfl, _⟩ := h
    refine ⟨?_, by simp⟩
    intro j hj
    simp only [List.mem_cons] at hj
    rcases hj with rfl | hj
    · rfl
    · exact queryKids_envFree hy h2 j hj

theorem queryItems_envFree {yOf : Name → Option Nat} (hy : ∀ n, yOf n = none) {xOf as g is g'} (h : queryItems yOf xOf as g = .ok (is, g')) :
    (∀ i ∈ is, i.envFree = true) ∧ (as ≠ [] → is ≠ []) := by
  induction as generalizing g is g' with
  | nil => simp only [queryItems, pure_ok, Prod.mk.injEq] at h; rw [← h.1]; simp
  | cons a as ih =>
    simp only [queryItems, bind_ok, pure_ok, Prod.mk.injEq] at h
    obtain ⟨⟨is1, g1⟩, h1, ⟨is2, g2⟩, h2, rfl, _⟩ := h
    have q := queryItem_envFree hy h1
    refine ⟨?_, fun _ => by simp [q.2]⟩
    intro j hj
    simp only [List.mem_append] at hj
    rcases hj with hj | hj
    · exact q.1 j hj
    · exact (ih h2).1 j hj

theorem programKid_envFree {yOf : Name → Option Nat} (hy : ∀ n, yOf n = none) {c x g i g'} (h : programKid yOf c x g = .ok (i, g')) : i.envFree = true := by
  unfold programKid at h
  cases c with
  | int => 
    simp only [bind_ok, pure_ok, Prod.mk.injEq] at h
    obtain ⟨_, _, rfl, _⟩ := h; rfl
  | cons => 
    simp only [bind_ok, pure_ok, Prod.mk.injEq] at h
    obtain ⟨_, _, rfl, _⟩ := h; rfl
  | var n =>
    simp only at h
    split at h
    · split at h <;> (simp only [pure_ok, Prod.mk.injEq] at h; rw [← h.1]; rfl)
    · split at h
      · next hr => simp [hy] at hr
      · simp only [pure_ok, Prod.mk.injEq] at h; rw [← h.1]; rfl
  | fn =>
    simp only at h
    split at h <;> (simp only [pure_ok, Prod.mk.injEq] at h; rw [← h.1]; rfl)
  | efn =>
    simp only at h
    split at h <;> (simp only [pure_ok, Prod.mk.injEq] at h; rw [← h.1]; rfl)

theorem programKids_envFree {yOf : Name → Option Nat} (hy : ∀ n, yOf n = none) {ks g is g'} (h : programKids yOf ks g = .ok (is, g')) :
    ∀ i ∈ is, i.envFree = true := by
  induction ks generalizing g is g' with
  | nil => simp only [programKids, pure_ok, Prod.mk.injEq] at h; rw [← h.1]; simp
  | cons k ks ih =>
    obtain ⟨c, x⟩ := k
    simp only [programKids, bind_ok, pure_ok, Prod.mk.injEq] at h
    obtain ⟨⟨i, g1⟩, h1, ⟨is', g2⟩, h2, rfl, _⟩ := h
    intro j hj
    simp only [List.mem_cons] at hj
    rcases hj with rfl | hj
    · exact programKid_envFree hy h1
    · exact ih h2 j hj

theorem programItem_envFree {yOf : Name → Option Nat} (hy : ∀ n, yOf n = none) {a g is g'} (h : programItem yOf a g = .ok (is, g')) :
    (∀ i ∈ is, i.envFree = true) ∧ is ≠ [] := by
  unfold programItem at h
  split at h
  · split at h
    · split at h <;> (simp only [pure_ok, Prod.mk.injEq] at h; rw [← h.1]; simp [Instr.envFree])
    · simp only at h
      split at h
      · next hr => simp [hy] at hr
      · simp only [pure_ok, Prod.mk.injEq] at h; rw [← h.1]; simp [Instr.envFree]
  · simp only [bind_ok, pure_ok, Prod.mk.injEq] at h
    obtain ⟨⟨c, g1⟩, _, ⟨is', g2⟩, h2, rfl, _⟩ := h
    refine ⟨?_, by simp⟩
    intro j hj
    simp only [List.mem_cons] at hj
    rcases hj with rfl | hj
    · rfl
    · exact programKids_envFree hy h2 j hj

theorem programItems_envFree {yOf : Name → Option Nat} (hy : ∀ n, yOf n = none) {as g is g'} (h : programItems yOf as g = .ok (is, g')) :
    (∀ i ∈ is, i.envFree = true) ∧ (as ≠ [] → is ≠ []) := by
  induction as generalizing g is g' with
  | nil => simp only [programItems, pure_ok, Prod.mk.injEq] at h; rw [← h.1]; simp
  | cons a as ih =>
    simp only [programItems, bind_ok, pure_ok, Prod.mk.injEq] at h
    obtain ⟨⟨is1, g1⟩, h1, ⟨is2, g2⟩, h2, rfl, _⟩ := h
    have q := programItem_envFree hy h1
    refine ⟨?_, fun _ => by simp [q.2]⟩
    intro j hj
    simp only [List.mem_append] at hj
    rcases hj with hj | hj
    · exact q.1 j hj
    · exact (ih h2).1 j hj


theorem exec_unify_envs {pre fuel} {e e' : Exec} {a b} (h : e.unify pre fuel a b = .ok e') : e'.envs = e.envs := by
  simp only [Exec.unify, bind_ok, pure_ok, unify] at h
  obtain ⟨r, hr, rfl⟩ := h
  rfl

theorem stepData_envs {pre fuel st} {i : Instr} {e e' : Exec} (h : stepData pre fuel st i e = .ok e') (hi : i.envFree = true) :
    e'.envs = e.envs := by
  cases i with
  | putStructure c x =>
    obtain ⟨_, rfl⟩ := setReg_ok h
    rfl
  | setVariable x v =>
    obtain ⟨_, rfl⟩ := setReg_ok h
    rfl
  | setPermVariable y v => cases hi
  | setValue x =>
    simp only [stepData, bind_ok, pure_ok] at h
    obtain ⟨c, _, rfl⟩ := h
    rfl
  | setPermValue x =>
    simp only [stepData, bind_ok, pure_ok] at h
    obtain ⟨c, _, rfl⟩ := h
    rfl
  | getStructure c x =>
    simp only [stepData, getStructure, bind_ok] at h
    obtain ⟨r, _, a, _, d, _, cell, _, h⟩ := h
    split at h
    · simp only [bind_ok, pure_ok] at h
      obtain ⟨hp, hb, rfl⟩ := h
      rfl
    · split at h
      · simp only [pure_ok] at h; subst h; rfl
      · simp only [pure_ok] at h; subst h; rfl
  | unifyStructure c x =>
    simp only [stepData, unifyStructure] at h
    split at h
    · simp only [bind_ok, pure_ok] at h
      obtain ⟨d, _, cell, _, e1, h1, rfl⟩ := h
      split at h1
      · simp only [bind_ok, pure_ok] at h1
        obtain ⟨hp, hb, rfl⟩ := h1
        rfl
      · split at h1
        · simp only [pure_ok] at h1; subst h1; rfl
        · simp only [pure_ok] at h1; subst h1; rfl
    · simp only [bind_ok, pure_ok] at h
      obtain ⟨e1, h1, rfl⟩ := h
      obtain ⟨_, rfl⟩ := setReg_ok h1
      rfl
  | unifyVariable x v =>
    simp only [stepData, bind_ok, pure_ok] at h
    obtain ⟨e1, h1, rfl⟩ := h
    split at h1
    · obtain ⟨_, rfl⟩ := setReg_ok h1
      rfl
    · obtain ⟨_, rfl⟩ := setReg_ok h1
      rfl
  | unifyPermVariable y v => cases hi
  | unifyValue x =>
    simp only [stepData, unifyVal, bind_ok, pure_ok] at h
    obtain ⟨r, _, e1, h1, rfl⟩ := h
    split at h1
    · simp only [bind_ok] at h1
      obtain ⟨a, _, h1⟩ := h1
      exact (exec_unify_envs h1 : e1.envs = e.envs)
    · simp only [pushValue, bind_ok] at h1
      obtain ⟨a, _, d, _, cell, _, h1⟩ := h1
      split at h1 <;> first | (simp only [pure_ok] at h1; subst h1; rfl) | cases h1
  | unifyPermValue y =>
    simp only [stepData, unifyVal, bind_ok, pure_ok] at h
    obtain ⟨r, _, e1, h1, rfl⟩ := h
    split at h1
    · simp only [bind_ok] at h1
      obtain ⟨a, _, h1⟩ := h1
      exact (exec_unify_envs h1 : e1.envs = e.envs)
    · simp only [pushValue, bind_ok] at h1
      obtain ⟨a, _, d, _, cell, _, h1⟩ := h1
      split at h1 <;> first | (simp only [pure_ok] at h1; subst h1; rfl) | cases h1
  | putVariable x a v =>
    simp only [stepData, bind_ok] at h
    obtain ⟨e1, h1, h⟩ := h
    obtain ⟨_, rfl⟩ := setReg_ok h1
    obtain ⟨_, rfl⟩ := setReg_ok h
    rfl
  | putPermVariable y a v => cases hi
  | putValue x a =>
    simp only [stepData, bind_ok] at h
    obtain ⟨c, _, h⟩ := h
    obtain ⟨_, rfl⟩ := setReg_ok h
    rfl
  | putPermValue y a =>
    simp only [stepData, bind_ok] at h
    obtain ⟨c, _, h⟩ := h
    obtain ⟨_, rfl⟩ := setReg_ok h
    rfl
  | getVariable x a =>
    simp only [stepData, bind_ok] at h
    obtain ⟨c, _, h⟩ := h
    obtain ⟨_, rfl⟩ := setReg_ok h
    rfl
  | getPermVariable y a => cases hi
  | getValue x a =>
    simp only [stepData, bind_ok] at h
    obtain ⟨_, _, _, _, _, _, _, _, h⟩ := h
    exact exec_unify_envs h
  | getPermValue y a =>
    simp only [stepData, bind_ok] at h
    obtain ⟨_, _, _, _, _, _, _, _, h⟩ := h
    exact exec_unify_envs h
  | builtin b l r =>
    cases b with
    | is =>
      simp only [stepData, isPred, bind_ok] at h
      obtain ⟨cr, _, b, _, v, _, h⟩ := h
      split at h
      · simp only [pure_ok] at h; subst h
        rfl
      · simp only [bind_ok] at h
        obtain ⟨cl, _, a, _, d, _, cell, _, h⟩ := h
        split at h
        · simp only [pure_ok] at h; subst h
          split <;> rfl
        · split at h
          · cases h
          · simp only [bind_ok, pure_ok] at h
            obtain ⟨hp, hb, rfl⟩ := h
            rfl
        · simp only [pure_ok] at h; subst h; rfl
    | eq =>
      simp only [stepData, equalsCheck, bind_ok, pure_ok] at h
      obtain ⟨cl, _, a, _, cr, _, b, _, eq, _, rfl⟩ := h
      split <;> rfl
    | neq =>
      simp only [stepData, notEqualsCheck, equalsCheck, bind_ok, pure_ok] at h
      obtain ⟨e1, ⟨cl, _, a, _, cr, _, b, _, eq, _, rfl⟩, rfl⟩ := h
      cases eq <;> repeat' (first | rfl | split)
  | allocate n => cases hi
  | call f => cases h
  | proceed => cases h
  | deallocate => cases h

theorem runData_envs {pre fuel st} {is : List Instr} {e e' : Exec} (h : runData pre fuel st is e = .ok e')
    (hi : ∀ i ∈ is, i.envFree = true) : e'.envs = e.envs := by
  induction is generalizing e with
  | nil => simp only [runData, pure_ok] at h; subst h; rfl
  | cons i is ih =>
    simp only [runData, bind_ok] at h
    obtain ⟨e1, h1, h⟩ := h
    have := stepData_envs h1 (hi i (by simp))
    split at h
    · simp only [pure_ok] at h; subst h; exact this
    · rw [ih h fun j hj => hi j (by simp [hj]), this]

end PBfs
