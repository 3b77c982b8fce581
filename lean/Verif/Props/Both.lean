import Verif.Props.Turns
/-! # C91: how many iterations the goals of two queries take -/
namespace PBfs
open Org

/-! ## Turns and answers -/

def tellsAnswer : Option Rep → Bool
  | some (.answer _) => true
  | _ => false

/-- All turns for what waits in the queue, and for all that comes from it, are `n` turns, `a` of them with answers. -/
inductive CostsA (P : List Clause) : List SItem → Nat → Nat → Prop
  | nil : CostsA P [] 0 0
  | cons {i news r q n m a b} : STurn P i news r → CostsA P news n a → CostsA P q m b → CostsA P (i :: q) (n + m + 1) ((tellsAnswer r).toNat + a + b)

theorem CostsA.split {P} : ∀ {q q' n a}, CostsA P (q ++ q') n a → ∃ n1 n2 a1 a2, CostsA P q n1 a1 ∧ CostsA P q' n2 a2 ∧ n = n1 + n2 ∧ a = a1 + a2
  | [], _, n, a, h => ⟨0, n, 0, a, .nil, h, by omega, by omega⟩
  | _ :: _, _, _, _, .cons t h1 h2 => by
    obtain ⟨n1, n2, a1, a2, h3, h4, rfl, rfl⟩ := h2.split
    exact ⟨_, n2, _, a2, .cons t h1 h3, h4, by omega, by omega⟩

theorem SRun.costsA {P q rs q'} (h : SRun P q rs q') (h0 : q' = []) : CostsA P q rs.length (rs.filter tellsAnswer).length := by
  induction h with
  | nil => rw [h0]; exact .nil
  | @cons i q news r rs q'' t _ ih =>
    obtain ⟨n1, n2, a1, a2, h1, h2, h3, h4⟩ := (ih h0).split
    have := CostsA.cons t h2 h1
    rw [List.length_cons, h3, Nat.add_comm n1 n2]
    have e : ((r :: rs).filter tellsAnswer).length = (tellsAnswer r).toNat + a2 + a1 := by
      rw [List.filter_cons]
      cases hr : tellsAnswer r <;> simp [h4] <;> omega
    rw [e]
    exact this

theorem says_answers {st atoms fuel} {ts : List Turn} {rs : List (Option Rep)} (h : List.Forall₂ (Says st atoms fuel) ts rs) :
    (rs.filter tellsAnswer).length = ((reports ts).filter Res.isAnswer).length := by
  induction h with
  | nil => rfl
  | cons h _ ih => cases h <;> simp [reports, List.filter_cons, tellsAnswer, Res.isAnswer, ih]

/-! ## Goals before other goals -/

/-- Instances of `n` goals, and then of a query. -/
def Longer (q2 : List Node) (n : Nat) (S S1 : Insts) : Prop :=
  (∃ ρ gs, S ρ gs) ∧ ∀ ρ gs, S ρ gs → ∃ g1 σ, gs = g1 ++ q2.map (Node.inst itreeAlg σ) ∧ g1.length = n ∧ ∃ ρ', S1 ρ' g1

theorem Longer.cons {q2 n S S1} (h : Longer q2 (n + 1) S S1) : (∃ ρ g gs, S ρ (g :: gs)) ∧
    ∀ ρ g gs, S ρ (g :: gs) → ∃ g1 σ, gs = g1 ++ q2.map (Node.inst itreeAlg σ) ∧ g1.length = n ∧ ∃ ρ', S1 ρ' (g :: g1) := by
  obtain ⟨⟨ρ, gs, h1⟩, h2⟩ := h
  refine ⟨?_, fun ρ g gs hs => ?_⟩
  · obtain ⟨g1, σ, rfl, h3, _⟩ := h2 _ _ h1
    cases g1 with
    | nil => simp at h3
    | cons g g1 => exact ⟨ρ, g, _, h1⟩
  · obtain ⟨g1, σ, e, h3, ρ', h4⟩ := h2 _ _ hs
    cases g1 with
    | nil => simp at h3
    | cons g' g1 =>
      obtain ⟨rfl, rfl⟩ := List.cons.inj e
      exact ⟨g1, σ, rfl, by simpa using h3, ρ', h4⟩

theorem Longer.first {q2 n S S1} (h : Longer q2 (n + 1) S S1) : FirstIn S S1 :=
  ⟨h.cons.1, fun ρ g gs hs => by
    obtain ⟨g1, _, _, _, ρ', h4⟩ := h.cons.2 _ _ _ hs
    exact ⟨ρ', g1, h4⟩⟩

theorem Longer.enter {q2 n S S1} {c : Clause} (h : Longer q2 (n + 1) S S1) (h0 : ¬ (S.enter c).Empty) : Longer q2 (c.body.length + n) (S.enter c) (S1.enter c) := by
  refine ⟨Classical.byContradiction fun h1 => h0 fun ρ gs h2 => h1 ⟨ρ, gs, h2⟩, ?_⟩
  rintro ρ gs ⟨τ, rest, h1, rfl⟩
  obtain ⟨g1, σ, rfl, h3, ρ', h4⟩ := h.cons.2 _ _ _ h1
  exact ⟨_ ++ g1, σ, (List.append_assoc _ _ _).symm, by simp [h3], ρ', τ, g1, h4, rfl⟩

theorem Longer.drop {q2 n S S1} (h : Longer q2 (n + 1) S S1) : Longer q2 n S.drop S1.drop := by
  obtain ⟨ρ, g, gs, h1⟩ := h.cons.1
  refine ⟨⟨ρ, gs, g, h1⟩, ?_⟩
  rintro ρ gs ⟨g, h1⟩
  obtain ⟨g1, σ, e, h3, ρ', h4⟩ := h.cons.2 _ _ _ h1
  exact ⟨g1, σ, e, h3, ρ', g, h4⟩

theorem Longer.is {q2 n S S1 v} (h : Longer q2 (n + 1) S S1) (h0 : ¬ (S.is v).Empty) : Longer q2 n (S.is v) (S1.is v) := by
  refine ⟨Classical.byContradiction fun h1 => h0 fun ρ gs h2 => h1 ⟨ρ, gs, h2⟩, ?_⟩
  rintro ρ gs ⟨d, h1⟩
  obtain ⟨g1, σ, e, h3, ρ', h4⟩ := h.cons.2 _ _ _ h1
  exact ⟨g1, σ, e, h3, ρ', d, h4⟩

theorem Longer.passes {M p q q2 n f fs S2 S1 S1'} (hM : Directed M p q) (h : Longer q2 (n + 1) S2 S1) (hS : Steady M p q (f :: fs) S1) (ho : Own f S1 (some S1')) :
    Own f S2 none ∨ ∃ S2', Own f S2 (some S2') ∧ Longer q2 n S2' S1' := by
  rcases h.first.passes hM hS ho with h1 | ⟨S2', h1, ⟨rfl, rfl⟩ | ⟨v, rfl, rfl, h2⟩⟩
  · exact .inl h1
  · exact .inr ⟨_, h1, h.drop⟩
  · exact .inr ⟨_, h1, h.is h2⟩

/-- The same with the goals of a query after it; at most `l` scopes are to be left before. -/
inductive Beside (q2 : List Node) (l : Nat) : SItem → SItem → Prop
  | goals {ts S S1} : ¬ NoGoal ts → leaves ts ≤ l → Longer q2 (calls ts).length S S1 → Beside q2 l (.goals (ts ++ q2.map (.goal ·.fv)) S) (.goals ts S1)
  | clause {c ts S S1} : leaves ts ≤ l → Longer q2 ((calls ts).length + 1) S S1 → Beside q2 l (.clause c (ts ++ q2.map (.goal ·.fv)) S) (.clause c ts S1)
  | own {f ts S S1} : leaves ts ≤ l → Longer q2 ((calls ts).length + 1) S S1 → Beside q2 l (.own f (ts ++ q2.map (.goal ·.fv)) S) (.own f ts S1)

theorem among_beside {q2 l} {cs : List Clause} {ts S S1} (hl : leaves ts ≤ l) (h : Longer q2 ((calls ts).length + 1) S S1) :
    Among (Beside q2 l) (cs.map (.clause · (ts ++ q2.map (.goal ·.fv)) S)) (cs.map (.clause · ts S1)) := by
  induction cs with
  | nil => exact .nil
  | cons c cs ih => exact .take (.clause hl h) ih

theorem more_noGoal {q2 : List Node} (h0 : q2 ≠ []) (ts : List Todo) : ¬ NoGoal (ts ++ q2.map (.goal ·.fv)) :=
  fun hg => goals_noGoal h0 fun f hf => hg f (List.mem_append_right _ hf)

/-- A turn leads to the same with the goals after it, or to these goals where it leads to an answer. -/
theorem Beside.turn {M p q q2 l j i news r} (hM : Directed M p q) (h0 : q2 ≠ []) (hi : i.Moded M p q) (h : Beside q2 l j i) (t : STurn (inForce p) i news r) :
    ∃ news2 r2, STurn (inForce p) j news2 r2 ∧ (Among (Beside q2 (l + 1)) news2 news ∨
      tellsAnswer r = true ∧ ∃ ts T T1, news2 = [.goals (ts ++ q2.map (.goal ·.fv)) T] ∧ NoGoal ts ∧ leaves ts ≤ l + 1 ∧ Longer q2 0 T T1) := by
  cases h with
  | @goals ts S S1 hg hl hn =>
    cases t with
    | leave => exact ⟨_, _, .leave, .inl (.take (.goals (fun h => hg fun f hf => (List.mem_cons.1 hf).elim (by simp) (h f)) (by simp [leaves, Todo.fv?] at hl ⊢; omega) hn) .nil)⟩
    | call hf => exact ⟨_, _, .call hf, .inl (among_beside (by simp [leaves, Todo.fv?] at hl ⊢; omega) hn)⟩
    | callOwn hf => exact ⟨_, _, .callOwn hf, .inl (.take (.own (by simp [leaves, Todo.fv?] at hl ⊢; omega) hn) .nil)⟩
  | @clause c ts S S1 hl hn =>
    by_cases h1 : (S.enter c).Empty
    · exact ⟨_, _, .reject h1, .inl (.none _)⟩
    · have hn' := hn.enter h1
      refine ⟨_, _, .enter h1 (by rw [← List.append_assoc]; exact more_noGoal h0 _), ?_⟩
      have hl' : leaves (c.todo ++ ts) ≤ l + 1 := by
        have := leaves_todo (c := c)
        rw [leaves_append]
        omega
      have hn'' : Longer q2 (calls (c.todo ++ ts)).length (S.enter c) (S1.enter c) := by
        rw [calls_append, calls_todo, List.length_append, List.length_map]
        exact hn'
      rw [← List.append_assoc]
      cases t with
      | reject h2 =>
        obtain ⟨⟨ρ, gs, h3⟩, h4⟩ := hn'
        obtain ⟨g1, σ, _, _, ρ', h5⟩ := h4 _ _ h3
        exact absurd h5 (h2 _ _)
      | enter h2 h3 => exact .inl (.take (.goals h3 hl' hn'') .nil)
      | answer h2 h3 =>
        rw [noGoal_calls h3] at hn''
        exact .inr ⟨rfl, _, _, _, rfl, h3, hl', hn''⟩
  | @own f ts S S1 hl hn =>
    cases t with
    | ownFail ho => exact ⟨_, _, .ownFail (hn.first.fails hM hi ho), .inl .nil⟩
    | error ho => exact ⟨_, _, .error (hn.first.errs hM hi ho), .inl .nil⟩
    | ownPass ho hg =>
      rcases hn.passes hM hi ho with h2 | ⟨S2', h2, h3⟩
      · exact ⟨_, _, .ownFail h2, .inl (.none _)⟩
      · exact ⟨_, _, .ownPass h2 (more_noGoal h0 _), .inl (.take (.goals hg (by omega) h3) .nil)⟩
    | ownAnswer ho hg =>
      rcases hn.passes hM hi ho with h2 | ⟨S2', h2, h3⟩
      · exact ⟨_, _, .ownFail h2, .inl .nil⟩
      · rw [noGoal_calls hg] at h3
        exact ⟨_, _, .ownPass h2 (more_noGoal h0 _), .inr ⟨rfl, _, _, _, rfl, hg, by omega, h3⟩⟩

/-- After an answer, scopes are left, and then the query takes no more turns than it does by itself. -/
theorem costs_after {M p q2 n2 T T1} (hM : Directed M p q2) (h0 : q2 ≠ []) (hc : Costs (inForce p) [.goals (q2.map (.goal ·.fv)) (Insts.query q2)] n2) (hT : Longer q2 0 T T1) :
    ∀ ts, NoGoal ts → ∃ m, m ≤ leaves ts + n2 ∧ Costs (inForce p) [.goals (ts ++ q2.map (.goal ·.fv)) T] m := by
  intro ts
  induction ts with
  | nil =>
    intro _
    have hw : Narrower (.goals (q2.map (.goal ·.fv)) T) (.goals (q2.map (.goal ·.fv)) (Insts.query q2)) := by
      refine .goals (goals_noGoal h0) ⟨[], [], (fun f hf => nomatch hf), rfl⟩ ⟨hT.1, fun ρ gs hg => ?_⟩
      obtain ⟨g1, σ, rfl, h1, _⟩ := hT.2 _ _ hg
      obtain rfl := List.length_eq_zero_iff.1 h1
      exact ⟨by rw [calls_goals]; simp, σ, [], List.append_nil _⟩
    obtain ⟨m, h1, h2⟩ := hc.fewer hM (fun i hi => by
      rw [List.mem_singleton.1 hi]
      show Steady _ _ _ _ _
      rw [calls_goals]
      exact Steady.query hM) (.take hw .nil)
    exact ⟨m, by omega, h2⟩
  | cons t ts ih =>
    intro hg
    obtain ⟨m, h1, h2⟩ := ih fun f hf => hg f (.tail _ hf)
    cases t with
    | goal f => exact absurd (.head _) (hg f)
    | leave => exact ⟨m + 0 + 1, by simp [leaves, Todo.fv?] at h1 ⊢; omega, .cons .leave h2 .nil⟩

theorem CostsA.both {M M2 p q q2 n2 u n a} (hM : Directed M p q) (hM2 : Directed M2 p q2) (h0 : q2 ≠ []) (hc : Costs (inForce p) [.goals (q2.map (.goal ·.fv)) (Insts.query q2)] n2)
    (h : CostsA (inForce p) u n a) : ∀ {v l}, (∀ i ∈ u, i.Moded M p q) → Among (Beside q2 l) v u → ∃ m, m ≤ n + a * (l + n + n2) ∧ Costs (inForce p) v m := by
  induction h with
  | nil => intro v l _ ha; cases ha; exact ⟨0, Nat.zero_le _, .nil⟩
  | @cons i news r u n m a b t _ _ ih1 ih2 =>
    intro v l hu ha
    have e : ((tellsAnswer r).toNat + a + b) * (l + (n + m + 1) + n2) =
        (tellsAnswer r).toNat * (l + (n + m + 1) + n2) + a * (l + (n + m + 1) + n2) + b * (l + (n + m + 1) + n2) := by rw [Nat.add_mul, Nat.add_mul]
    have hb : b * (l + m + n2) ≤ b * (l + (n + m + 1) + n2) := Nat.mul_le_mul_left _ (by omega)
    rw [e]
    cases ha with
    | skip ha =>
      obtain ⟨m2, h1, h2⟩ := ih2 (fun i hi => hu i (.tail _ hi)) ha
      exact ⟨m2, by omega, h2⟩
    | take hw ha =>
      obtain ⟨m2, h1, h2⟩ := ih2 (fun i hi => hu i (.tail _ hi)) ha
      obtain ⟨news2, r2, t2, h3 | ⟨hr, ts, T, T1, rfl, h3, h4, h5⟩⟩ := hw.turn hM h0 (hu _ (.head _)) t
      · obtain ⟨m1, h4, h5⟩ := ih1 (t.moded hM (hu _ (.head _))) h3
        have ha : a * (l + 1 + n + n2) ≤ a * (l + (n + m + 1) + n2) := Nat.mul_le_mul_left _ (by omega)
        exact ⟨m1 + m2 + 1, by omega, .cons t2 h5 h2⟩
      · obtain ⟨m1, h6, h7⟩ := costs_after hM2 h0 hc h5 ts h3
        rw [hr]
        exact ⟨m1 + m2 + 1, by simp only [Bool.toNat_true, Nat.one_mul]; omega, .cons t2 h7 h2⟩

/-! ## The searches -/

/-- **C91, iterations**: when the searches for two queries have ended, the search for the goals of both ends; besides the iterations for the first, it takes at most the iterations for both, once for each answer
to the first. -/
theorem C91_iterations {o1 e1 o2 e2 o o' : Org} {p q1 q2 M1 M2 fuel1 k1 ts1 fuel2 k2 ts2 fuel k ts} (h1 : Asked o1 p q1) (hM1 : Directed M1 p q1) (h2 : Asked o2 p q2) (hM2 : Directed M2 p q2)
    (h : Asked o p (q1 ++ q2)) (hr1 : o1.iterate fuel1 k1 = .ok (e1, ts1)) (hq1 : e1.queue = []) (hr2 : o2.iterate fuel2 k2 = .ok (e2, ts2)) (hq2 : e2.queue = [])
    (hr : o.iterate fuel k = .ok (o', ts)) :
    ts.length ≤ ts1.length + ((reports ts1).filter Res.isAnswer).length * (ts1.length + ts2.length) ∧
    (ts1.length + ((reports ts1).filter Res.isAnswer).length * (ts1.length + ts2.length) ≤ k → o'.queue = []) := by
  obtain ⟨items, rs, a1, a2, a3⟩ := C42_breadth_first_resolution_partial h1 hr1
  rw [hq1] at a3
  have ha := a1.costsA (List.length_eq_zero_iff.1 a3)
  rw [says_answers a2, ← a2.length_eq] at ha
  have hw : Beside q2 0 (.goals ((q1 ++ q2).map (.goal ·.fv)) (Insts.query (q1 ++ q2))) (.goals (q1.map (.goal ·.fv)) (Insts.query q1)) := by
    rw [List.map_append]
    refine .goals (goals_noGoal h1.ne) (by rw [leaves_goals]) ⟨⟨fun _ => itreeAlg.int 0, _, rfl⟩, ?_⟩
    rintro ρ gs rfl
    exact ⟨q1.map (Node.inst itreeAlg ρ), ρ, List.map_append, by simp [calls_goals], ρ, rfl⟩
  obtain ⟨m, b1, b2⟩ := ha.both hM1 hM2 h2.ne (Costs.of_search h2 hr2 hq2) (fun i hi => by
    rw [List.mem_singleton.1 hi]
    show Steady _ _ _ _ _
    rw [calls_goals]
    exact Steady.query hM1) (.take hw .nil)
  obtain ⟨c1, c2, _⟩ := b2.search h hr
  rw [Nat.zero_add] at b1
  exact ⟨Nat.le_trans c1 b1, fun hk => c2 (Nat.le_trans b1 hk)⟩

/-! ## A concrete case -/

namespace BothExamples
open SoundExamples JoinedExamples

/-- The hypotheses are met: `p(X)` takes 3 iterations and has two answers, `q(Y)` takes 3 iterations, and `p(X), q(Y)` takes 9, which is at most 3 + 2 * (3 + 3). -/
example : Asked (demo two px) two px ∧ Directed .free two px ∧ Asked (demo two qy) two qy ∧ Directed .free two qy ∧ Asked (demo two (px ++ qy)) two (px ++ qy) ∧
    ((demo two px).iterate 20 100).toOption.map (fun r => (r.1.queue, r.2.length, ((reports r.2).filter Res.isAnswer).length)) = some ([], 3, 2) ∧
    ((demo two qy).iterate 20 100).toOption.map (fun r => (r.1.queue, r.2.length)) = some ([], 3) ∧
    ((demo two (px ++ qy)).iterate 20 100).toOption.map (fun r => (r.1.queue, r.2.length)) = some ([], 9) :=
  ⟨asked_demo (by decide +kernel) (by decide +kernel) (safe_of_b (by decide +kernel)) (by decide) (by simp [px]) (by decide +kernel), OnlyClauses.directed ⟨by decide, by decide⟩,
   asked_demo (by decide +kernel) (by decide +kernel) (safe_of_b (by decide +kernel)) (by decide) (by simp [qy]) (by decide +kernel), OnlyClauses.directed ⟨by decide, by decide⟩,
   asked_demo (by decide +kernel) (by decide +kernel) (safe_of_b (by decide +kernel)) (by decide) (by simp [px]) (by decide +kernel),
   by decide +kernel, by decide +kernel, by decide +kernel⟩

end BothExamples
end PBfs
