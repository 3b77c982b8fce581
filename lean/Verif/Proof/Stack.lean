import Verif.Proof.Form
/-! # Environments and the code stack -/
namespace PBfs
open Org

/-- Only the topmost environment has been written, and only if the clause has one. -/
def Below (n : Nat) (es es' : List (List Cell)) : Prop :=
  es' = es ∨ (n ≠ 0 ∧ ∃ env env' r, es = env :: r ∧ es' = env' :: r ∧ env'.length = env.length)

theorem Below.refl {n es} : Below n es es := .inl rfl

theorem Below.trans {n a b c} (h : Below n a b) (h' : Below n b c) : Below n a c := by
  rcases h with rfl | ⟨h0, env, env', r, rfl, rfl, h1⟩
  · exact h'
  · rcases h' with rfl | ⟨_, env2, env3, r', h2, rfl, h3⟩
    · exact .inr ⟨h0, env, env', r, rfl, rfl, h1⟩
    · cases h2
      exact .inr ⟨h0, env, env3, r, rfl, rfl, h3.trans h1⟩

theorem setPerm_below {n} {e e' : Exec} {y c} (hy : y < n) (h : e.setPerm y c = .ok e') :
    Below n e.envs e'.envs ∧ e'.state = e.state := by
  obtain ⟨env, rest, h1, h2, rfl⟩ := setPerm_ok h
  exact ⟨.inr ⟨by omega, env, env.set y c, rest, h1, rfl, by simp⟩, rfl⟩

/-- The instructions of goals cannot fail. -/
theorem put_step {n} {pre fuel st} {i : Instr} {e e' : Exec} (hi : i.put n = true) (h : stepData pre fuel st i e = .ok e') :
    Below n e.envs e'.envs ∧ e'.state = e.state := by
  cases i with
  | putStructure c x => obtain ⟨_, rfl⟩ := setReg_ok h; exact ⟨.refl, rfl⟩
  | setVariable x v => obtain ⟨_, rfl⟩ := setReg_ok h; exact ⟨.refl, rfl⟩
  | setPermVariable y v =>
    have := setPerm_below (n := n) (by simpa [Instr.put] using hi) h
    exact this
  | setValue x =>
    simp only [stepData, bind_ok, pure_ok] at h
    obtain ⟨c, _, rfl⟩ := h; exact ⟨.refl, rfl⟩
  | setPermValue x =>
    simp only [stepData, bind_ok, pure_ok] at h
    obtain ⟨c, _, rfl⟩ := h; exact ⟨.refl, rfl⟩
  | putVariable x a v =>
    simp only [stepData, bind_ok] at h
    obtain ⟨e1, h1, h⟩ := h
    obtain ⟨_, rfl⟩ := setReg_ok h1
    obtain ⟨_, rfl⟩ := setReg_ok h
    exact ⟨.refl, rfl⟩
  | putPermVariable y a v =>
    simp only [stepData, bind_ok] at h
    obtain ⟨e1, h1, h⟩ := h
    have := setPerm_below (n := n) (by simpa [Instr.put] using hi) h1
    obtain ⟨_, rfl⟩ := setReg_ok h
    exact this
  | putValue x a =>
    simp only [stepData, bind_ok] at h
    obtain ⟨c, _, h⟩ := h
    obtain ⟨_, rfl⟩ := setReg_ok h; exact ⟨.refl, rfl⟩
  | putPermValue y a =>
    simp only [stepData, bind_ok] at h
    obtain ⟨c, _, h⟩ := h
    obtain ⟨_, rfl⟩ := setReg_ok h; exact ⟨.refl, rfl⟩
  | _ => cases hi

theorem get_step {n} {pre fuel st} {i : Instr} {e e' : Exec} (hi : i.get n = true) (h : stepData pre fuel st i e = .ok e') :
    Below n e.envs e'.envs := by
  cases i with
  | getStructure c x =>
    simp only [stepData, getStructure, bind_ok] at h
    obtain ⟨r, _, a, _, d, _, cell, _, h⟩ := h
    split at h
    · simp only [bind_ok, pure_ok] at h
      obtain ⟨hp, hb, rfl⟩ := h
      exact .refl
    · split at h
      · simp only [pure_ok] at h; subst h; exact .refl
      · simp only [pure_ok] at h; subst h; exact .refl
  | unifyStructure c x =>
    simp only [stepData, unifyStructure] at h
    split at h
    · simp only [bind_ok, pure_ok] at h
      obtain ⟨d, _, cell, _, e1, h1, rfl⟩ := h
      split at h1
      · simp only [bind_ok, pure_ok] at h1
        obtain ⟨hp, hb, rfl⟩ := h1
        exact .refl
      · split at h1
        · simp only [pure_ok] at h1; subst h1; exact .refl
        · simp only [pure_ok] at h1; subst h1; exact .refl
    · simp only [bind_ok, pure_ok] at h
      obtain ⟨e1, h1, rfl⟩ := h
      obtain ⟨_, rfl⟩ := setReg_ok h1
      exact .refl
  | unifyVariable x v =>
    simp only [stepData, bind_ok, pure_ok] at h
    obtain ⟨e1, h1, rfl⟩ := h
    split at h1
    · obtain ⟨_, rfl⟩ := setReg_ok h1
      exact .refl
    · obtain ⟨_, rfl⟩ := setReg_ok h1
      exact .refl
  | unifyPermVariable y v =>
    simp only [stepData, bind_ok, pure_ok] at h
    obtain ⟨e1, h1, rfl⟩ := h
    split at h1
    · exact (setPerm_below (n := n) (by simpa [Instr.get] using hi) h1).1
    · exact (setPerm_below (n := n) (by simpa [Instr.get] using hi) h1).1
  | unifyValue x =>
    simp only [stepData, unifyVal, bind_ok, pure_ok] at h
    obtain ⟨r, _, e1, h1, rfl⟩ := h
    split at h1
    · simp only [bind_ok] at h1
      obtain ⟨a, _, h1⟩ := h1
      have := exec_unify_envs h1
      exact .inl this
    · simp only [pushValue, bind_ok] at h1
      obtain ⟨a, _, d, _, cell, _, h1⟩ := h1
      split at h1 <;> first | (simp only [pure_ok] at h1; subst h1; exact .refl) | cases h1
  | unifyPermValue y =>
    simp only [stepData, unifyVal, bind_ok, pure_ok] at h
    obtain ⟨r, _, e1, h1, rfl⟩ := h
    split at h1
    · simp only [bind_ok] at h1
      obtain ⟨a, _, h1⟩ := h1
      have := exec_unify_envs h1
      exact .inl this
    · simp only [pushValue, bind_ok] at h1
      obtain ⟨a, _, d, _, cell, _, h1⟩ := h1
      split at h1 <;> first | (simp only [pure_ok] at h1; subst h1; exact .refl) | cases h1
  | getVariable x a =>
    simp only [stepData, bind_ok] at h
    obtain ⟨c, _, h⟩ := h
    obtain ⟨_, rfl⟩ := setReg_ok h
    exact .refl
  | getPermVariable y a =>
    simp only [stepData, bind_ok] at h
    obtain ⟨c, _, h⟩ := h
    exact (setPerm_below (n := n) (by simpa [Instr.get] using hi) h).1
  | getValue x a =>
    simp only [stepData, bind_ok] at h
    obtain ⟨_, _, _, _, _, _, _, _, h⟩ := h
    exact .inl (exec_unify_envs h)
  | getPermValue y a =>
    simp only [stepData, bind_ok] at h
    obtain ⟨_, _, _, _, _, _, _, _, h⟩ := h
    exact .inl (exec_unify_envs h)
  | builtin b l r =>
    cases b with
    | is =>
      simp only [stepData, isPred, bind_ok] at h
      obtain ⟨cr, _, b, _, v, _, h⟩ := h
      split at h
      · simp only [pure_ok] at h; subst h; exact .refl
      · simp only [bind_ok] at h
        obtain ⟨cl, _, a, _, d, _, cell, _, h⟩ := h
        split at h
        · simp only [pure_ok] at h; subst h
          split
          · exact .refl
          · exact .refl
        · split at h
          · cases h
          · simp only [bind_ok, pure_ok] at h
            obtain ⟨hp, hb, rfl⟩ := h
            exact .refl
        · simp only [pure_ok] at h; subst h; exact .refl
    | eq =>
      simp only [stepData, equalsCheck, bind_ok, pure_ok] at h
      obtain ⟨cl, _, a, _, cr, _, b, _, eq, _, rfl⟩ := h
      split
      · exact .refl
      · exact .refl
    | neq =>
      simp only [stepData, notEqualsCheck, equalsCheck, bind_ok, pure_ok] at h
      obtain ⟨e1, ⟨cl, _, a, _, cr, _, b, _, eq, _, rfl⟩, rfl⟩ := h
      cases eq
      · simp only [Bool.false_eq_true, if_false]
        split <;> exact .refl
      · simp only [if_true]
        split <;> exact .refl
  | _ => cases hi

theorem put_run {n} {pre fuel st} {is : List Instr} {e e' : Exec} (hi : ∀ i ∈ is, i.put n = true)
    (h : runData pre fuel st is e = .ok e') : Below n e.envs e'.envs ∧ e'.state = e.state := by
  induction is generalizing e with
  | nil => simp only [runData, pure_ok] at h; subst h; exact ⟨.refl, rfl⟩
  | cons i is ih =>
    simp only [runData, bind_ok] at h
    obtain ⟨e1, h1, h⟩ := h
    obtain ⟨k1, k2⟩ := put_step (hi i (by simp)) h1
    split at h
    · simp only [pure_ok] at h; subst h; exact ⟨k1, k2⟩
    · obtain ⟨k3, k4⟩ := ih (fun i hi' => hi i (by simp [hi'])) h
      exact ⟨k1.trans k3, k4.trans k2⟩

theorem get_run {n} {pre fuel st} {is : List Instr} {e e' : Exec} (hi : ∀ i ∈ is, i.get n = true)
    (h : runData pre fuel st is e = .ok e') : Below n e.envs e'.envs := by
  induction is generalizing e with
  | nil => simp only [runData, pure_ok] at h; subst h; exact .refl
  | cons i is ih =>
    simp only [runData, bind_ok] at h
    obtain ⟨e1, h1, h⟩ := h
    have k1 := get_step (hi i (by simp)) h1
    split at h
    · simp only [pure_ok] at h; subst h; exact k1
    · exact k1.trans (ih (fun i hi' => hi i (by simp [hi'])) h)

/-- The environments of a clause with `n` permanent variables above those of its caller. -/
def EnvOf (n : Nat) (es base : List (List Cell)) : Prop :=
  (n = 0 ∧ es = base) ∨ (n ≠ 0 ∧ ∃ env, es = env :: base ∧ env.length = n)

theorem EnvOf.below {n es es' base} (h : EnvOf n es base) (hb : Below n es es') : EnvOf n es' base := by
  rcases h with ⟨rfl, rfl⟩ | ⟨h0, env, rfl, h1⟩
  · rcases hb with rfl | ⟨h, _⟩
    · exact .inl ⟨rfl, rfl⟩
    · exact absurd rfl h
  · rcases hb with rfl | ⟨_, env1, env2, r, h2, rfl, h3⟩
    · exact .inr ⟨h0, env, rfl, h1⟩
    · cases h2
      exact .inr ⟨h0, env2, rfl, h3.trans h1⟩

theorem env_alloc_run {n} {pre fuel st} {is : List Instr} {e e' : Exec} (hr : e.state = .running)
    (h : runData pre fuel st (allocInstrs n ++ is) e = .ok e') :
    ∃ e1 : Exec, runData pre fuel st is e1 = .ok e' ∧ EnvOf n e1.envs e.envs ∧ e1.state = e.state := by
  unfold allocInstrs at h
  split at h
  · rename_i h0
    exact ⟨e, by simpa using h, .inl ⟨h0, rfl⟩, rfl⟩
  · rename_i h0
    simp only [List.cons_append, List.nil_append, runData, stepData, pure, Except.pure, ok_bind, Exec.failed, hr] at h
    exact ⟨_, h, .inr ⟨h0, _, rfl, by simp⟩, hr.symm ▸ rfl⟩

theorem env_head_run {n} {pre fuel st} {is : List Instr} {e e' : Exec} (hr : e.state = .running) (hi : ∀ i ∈ is, i.get n = true)
    (h : runData pre fuel st (allocInstrs n ++ is) e = .ok e') : EnvOf n e'.envs e.envs := by
  obtain ⟨e1, h1, h2, _⟩ := env_alloc_run hr h
  exact h2.below (get_run hi h1)

theorem env_goal_run {n} {pre fuel st} {is : List Instr} {e e' : Exec} {base} (he : EnvOf n e.envs base) (hi : ∀ i ∈ is, i.put n = true)
    (h : runData pre fuel st is e = .ok e') : EnvOf n e'.envs base ∧ e'.state = e.state :=
  ⟨he.below (put_run hi h).1, (put_run hi h).2⟩

theorem env_first_run {n} {pre fuel st} {is : List Instr} {e e' : Exec} (hr : e.state = .running) (hi : ∀ i ∈ is, i.put n = true)
    (h : runData pre fuel st (allocInstrs n ++ is) e = .ok e') : EnvOf n e'.envs e.envs ∧ e'.state = e.state := by
  obtain ⟨e1, h1, h2, h3⟩ := env_alloc_run hr h
  have := env_goal_run h2 hi h1
  exact ⟨this.1, this.2.trans h3⟩

/-! ## Stacks of clauses at work -/

/-- Goals and bookkeeping of clauses at work, with their environments, above a base. -/
inductive Stacked (P : List TCode → List (List Cell) → Prop) : List TCode → List (List Cell) → Prop
  | base {cs es} : P cs es → Stacked P cs es
  | frame {n gs ds cs es es'} : Stacked P cs es → (∀ g ∈ gs, GoalForm n g.atom) → ds.map (·.atom) = deallocAtoms n → EnvOf n es' es →
      Stacked P (gs ++ (ds ++ cs)) es'

/-- The environment is that of the topmost goal. -/
theorem Stacked.front {P t ts es} (h : Stacked P (t :: ts) es) :
    P (t :: ts) es ∨
    (∃ n, GoalForm n t.atom ∧ (∃ b, EnvOf n es b) ∧ ∀ es', Below n es es' → Stacked P ts es') ∨
    (t.atom = deallocAtom ∧ ∃ env es', es = env :: es' ∧ Stacked P ts es') := by
  generalize hc : t :: ts = cs at h
  induction h with
  | base h => subst hc; exact .inl h
  | @frame n gs ds cs es es' h hg hd he ih =>
    cases gs with
    | cons g gs =>
      simp only [List.cons_append, List.cons.injEq] at hc
      obtain ⟨rfl, rfl⟩ := hc
      exact .inr (.inl ⟨n, hg t (by simp), ⟨_, he⟩, fun es2 hb => .frame h (fun g hg' => hg g (by simp [hg'])) hd (he.below hb)⟩)
    | nil =>
      unfold deallocAtoms at hd
      rcases he with ⟨rfl, rfl⟩ | ⟨h0, env, rfl, h1⟩
      · simp only [if_true, List.map_eq_nil_iff] at hd
        subst hd
        exact ih hc
      · simp only [h0, if_false] at hd
        cases ds with
        | nil => simp at hd
        | cons d ds =>
          simp only [List.map_cons, List.cons.injEq, List.map_eq_nil_iff] at hd
          obtain ⟨hd, rfl⟩ := hd
          simp only [List.nil_append, List.cons_append, List.cons.injEq] at hc
          obtain ⟨rfl, rfl⟩ := hc
          exact .inr (.inr ⟨hd, env, es, rfl, h⟩)

/-- An alternative at work above a base: it has the code of a clause that is to be entered, or only what is left of
clauses entered before. -/
inductive Task (P : List TCode → List (List Cell) → Prop) (cs : List TCode) (es : List (List Cell)) : Prop
  | enter {r rest head body} : cs = r ++ rest → RuleForm head body (r.map (·.atom)) → Stacked P rest es → Task P cs es
  | resume : Stacked P cs es → Task P cs es

end PBfs
