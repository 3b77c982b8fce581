import Verif.Props.Special
import Verif.Props.Resolution
/-! # C90: more special queries, and parts of queries, take no more iterations -/
namespace PBfs
open Org

/-! ## How many turns there are -/

/-- All turns for what waits in the queue, and for all that comes from it, are `n` turns. -/
inductive Costs (P : List Clause) : List SItem → Nat → Prop
  | nil : Costs P [] 0
  | cons {i news r q n m} : STurn P i news r → Costs P news n → Costs P q m → Costs P (i :: q) (n + m + 1)

theorem Costs.append {P} : ∀ {q q' n m}, Costs P q n → Costs P q' m → Costs P (q ++ q') (n + m)
  | _, _, _, m, .nil, h => by rw [Nat.zero_add]; exact h
  | _, _, _, m, .cons (n := a) (m := b) t h1 h2, h => by
    have := Costs.cons t h1 (h2.append h)
    rwa [show a + (b + m) + 1 = a + b + 1 + m by omega] at this

theorem Costs.split {P} : ∀ {q q' n}, Costs P (q ++ q') n → ∃ a b, Costs P q a ∧ Costs P q' b ∧ n = a + b
  | [], _, n, h => ⟨0, n, .nil, h, by omega⟩
  | _ :: _, _, _, .cons t h1 h2 => by
    obtain ⟨a, b, h3, h4, rfl⟩ := h2.split
    exact ⟨_, b, .cons t h1 h3, h4, by omega⟩

theorem SRun.costs {P q rs q'} (h : SRun P q rs q') (h0 : q' = []) : Costs P q rs.length := by
  induction h with
  | nil => rw [h0]; exact .nil
  | cons t _ ih =>
    obtain ⟨a, b, h1, h2, h3⟩ := (ih h0).split
    rw [List.length_cons, h3, Nat.add_comm a b]
    exact .cons t h2 h1

/-- What is left of the turns is the turns for what is left. -/
theorem SRun.rest {P q rs q'} (h : SRun P q rs q') : ∀ {n}, Costs P q n → ∃ m, Costs P q' m ∧ rs.length + m = n := by
  induction h with
  | nil => exact fun h => ⟨_, h, Nat.zero_add _⟩
  | cons t _ ih =>
    intro n hn
    cases hn with
    | cons t' h1 h2 =>
      obtain ⟨rfl, _⟩ := t.det t'
      obtain ⟨m, h3, h4⟩ := ih (h2.append h1)
      exact ⟨m, h3, by rw [List.length_cons]; omega⟩

theorem Costs.unique {P q n} (h : Costs P q n) : ∀ {m}, Costs P q m → n = m := by
  induction h with
  | nil => intro m h; cases h; rfl
  | cons t _ _ ih1 ih2 =>
    intro m h
    cases h with
    | cons t' h1 h2 =>
      obtain ⟨rfl, _⟩ := t.det t'
      rw [ih1 h1, ih2 h2]

theorem Costs.zero {P q n} (h : Costs P q n) (h0 : n = 0) : q = [] := by
  cases h with
  | nil => rfl
  | cons => omega

/-- The turns of a search are those, when it has ended; and it has, when there have been as many iterations. -/
theorem Costs.search {o o' : Org} {p atoms fuel k ts n} (hc : Costs (inForce p) [.goals (atoms.map (.goal ·.fv)) (Insts.query atoms)] n) (h : Asked o p atoms)
    (hr : o.iterate fuel k = .ok (o', ts)) : ts.length ≤ n ∧ (n ≤ k → o'.queue = []) ∧ (o'.queue = [] ↔ ts.length = n) := by
  obtain ⟨items, rs, a1, a2, a3⟩ := C42_breadth_first_resolution_partial h hr
  obtain ⟨m, b1, b2⟩ := a1.rest hc
  have e := a2.length_eq
  obtain ⟨c1, c2⟩ := iterate_length hr
  have hz : m = 0 → o'.queue = [] := fun h0 => by
    rw [b1.zero h0] at a3
    exact List.length_eq_zero_iff.1 a3.symm
  refine ⟨by omega, fun hk => ?_, fun h0 => ?_, fun h0 => hz (by omega)⟩
  · by_cases h1 : ts.length < k
    · exact c2 h1
    · exact hz (by omega)
  · rw [h0] at a3
    obtain rfl := List.length_eq_zero_iff.1 a3
    cases b1
    omega

theorem Costs.of_search {o o' : Org} {p atoms fuel k ts} (h : Asked o p atoms) (hr : o.iterate fuel k = .ok (o', ts)) (hq : o'.queue = []) :
    Costs (inForce p) [.goals (atoms.map (.goal ·.fv)) (Insts.query atoms)] ts.length := by
  obtain ⟨items, rs, a1, a2, a3⟩ := C42_breadth_first_resolution_partial h hr
  rw [hq] at a3
  rw [a2.length_eq]
  exact a1.costs (List.length_eq_zero_iff.1 a3)

/-! ## What is more special -/

/-- Of the instances of more goals, the first `n` goals of some. -/
def Narrow (n : Nat) (S2 S1 : Insts) : Prop :=
  (∃ ρ gs, S2 ρ gs) ∧ ∀ ρ gs, S2 ρ gs → gs.length = n ∧ ∃ ρ' more, S1 ρ' (gs ++ more)

/-- Of the things to do, some are to be done first; after those, only scopes are left. -/
def Upto (ts us : List Todo) : Prop := ∃ l more, NoGoal l ∧ us ++ l = ts ++ more

inductive Narrower : SItem → SItem → Prop
  | goals {ts us S2 S1} : ¬ NoGoal ts → Upto ts us → Narrow (calls ts).length S2 S1 → Narrower (.goals ts S2) (.goals us S1)
  | clause {c ts us S2 S1} : Upto ts us → Narrow ((calls ts).length + 1) S2 S1 → Narrower (.clause c ts S2) (.clause c us S1)
  | own {f ts us S2 S1} : Upto ts us → Narrow ((calls ts).length + 1) S2 S1 → Narrower (.own f ts S2) (.own f us S1)

/-- Each of the items is related to a different one, in the same order. -/
inductive Among (R : SItem → SItem → Prop) : List SItem → List SItem → Prop
  | nil : Among R [] []
  | skip {q2 i q1} : Among R q2 q1 → Among R q2 (i :: q1)
  | take {j i q2 q1} : R j i → Among R q2 q1 → Among R (j :: q2) (i :: q1)

theorem Among.none {R} : ∀ q, Among R [] q
  | [] => .nil
  | _ :: q => .skip (Among.none q)

theorem Narrow.cons {n S2 S1} (h : Narrow (n + 1) S2 S1) : (∃ ρ g gs, S2 ρ (g :: gs)) ∧ ∀ ρ g gs, S2 ρ (g :: gs) → gs.length = n ∧ ∃ ρ' more, S1 ρ' (g :: gs ++ more) := by
  obtain ⟨⟨ρ, gs, h1⟩, h2⟩ := h
  refine ⟨?_, fun ρ g gs hs => ⟨Nat.succ.inj (h2 _ _ hs).1, (h2 _ _ hs).2⟩⟩
  cases gs with
  | nil => exact absurd (h2 _ _ h1).1 (by simp)
  | cons g gs => exact ⟨ρ, g, gs, h1⟩

theorem Narrow.enter {n S2 S1} {c : Clause} (h : Narrow (n + 1) S2 S1) (h0 : ¬ (S2.enter c).Empty) : Narrow (c.body.length + n) (S2.enter c) (S1.enter c) := by
  refine ⟨Classical.byContradiction fun h1 => h0 fun ρ gs h2 => h1 ⟨ρ, gs, h2⟩, ?_⟩
  rintro ρ gs ⟨σ, rest, h1, rfl⟩
  obtain ⟨h2, ρ', more, h3⟩ := h.cons.2 _ _ _ h1
  exact ⟨by simp [h2], ρ', more, σ, rest ++ more, h3, by simp⟩

theorem Narrow.drop {n S2 S1} (h : Narrow (n + 1) S2 S1) : Narrow n S2.drop S1.drop := by
  obtain ⟨ρ, g, gs, h1⟩ := h.cons.1
  refine ⟨⟨ρ, gs, g, h1⟩, ?_⟩
  rintro ρ gs ⟨g, h1⟩
  obtain ⟨h2, ρ', more, h3⟩ := h.cons.2 _ _ _ h1
  exact ⟨h2, ρ', more, g, h3⟩

theorem Narrow.is {n S2 S1 v} (h : Narrow (n + 1) S2 S1) (h0 : ¬ (S2.is v).Empty) : Narrow n (S2.is v) (S1.is v) := by
  refine ⟨Classical.byContradiction fun h1 => h0 fun ρ gs h2 => h1 ⟨ρ, gs, h2⟩, ?_⟩
  rintro ρ gs ⟨d, h1⟩
  obtain ⟨h2, ρ', more, h3⟩ := h.cons.2 _ _ _ h1
  exact ⟨h2, ρ', more, d, h3⟩

/-! ## Decisions are the same -/

/-- The first goals are among the first goals of other instances. -/
def FirstIn (S2 S1 : Insts) : Prop := (∃ ρ g gs, S2 ρ (g :: gs)) ∧ ∀ ρ g gs, S2 ρ (g :: gs) → ∃ ρ' gs', S1 ρ' (g :: gs')

theorem Narrow.front {n S2 S1} (h : Narrow (n + 1) S2 S1) : FirstIn S2 S1 :=
  ⟨h.cons.1, fun ρ g gs hs => by
    obtain ⟨_, ρ', more, h3⟩ := h.cons.2 _ _ _ hs
    exact ⟨ρ', _, h3⟩⟩

theorem FirstIn.args {M p q m fs S2 S1} (h : FirstIn S2 S1) (hS : Steady M p q (⟨m, 2⟩ :: fs) S1) : ∃ ρ m' d e gs, S2 ρ (⟨m', [d, e]⟩ :: gs) := by
  obtain ⟨ρ, g, gs, h1⟩ := h.1
  obtain ⟨ρ', gs', h3⟩ := h.2 _ _ _ h1
  obtain ⟨d, e, rfl⟩ := hS.args h3
  exact ⟨ρ, _, d, e, gs, h1⟩

theorem FirstIn.always {M p q m fs S2 S1 R} (h : FirstIn S2 S1) (hS : Steady M p q (⟨m, 2⟩ :: fs) S1) (hR : S1.Always R) : S2.Always R := by
  have hall : ∀ ρ n d e gs, S2 ρ (⟨n, [d, e]⟩ :: gs) → R d e := fun ρ n d e gs hs => by
    obtain ⟨ρ', gs', h3⟩ := h.2 _ _ _ hs
    exact hR.2 _ _ _ _ _ h3
  obtain ⟨ρ, m', d, e, gs, h1⟩ := h.args hS
  exact ⟨⟨ρ, m', d, e, gs, h1, hall _ _ _ _ _ h1⟩, hall⟩

theorem FirstIn.once {M p q m fs S2 S1 R} (h : FirstIn S2 S1) (hS : Steady M p q (⟨m, 2⟩ :: fs) S1) (i0 : M.ins ⟨m, 2⟩ 0 = true) (i1 : M.ins ⟨m, 2⟩ 1 = true)
    (hR : S1.Once R) : S2.Once R := by
  obtain ⟨ρ, m', d, e, gs, h1⟩ := h.args hS
  obtain ⟨ρ', gs', h3⟩ := h.2 _ _ _ h1
  obtain ⟨_, _, d', e', _, h4, hR⟩ := hR
  obtain rfl := hS.first i0 h3 h4
  obtain rfl := hS.second i1 h3 h4
  exact ⟨_, _, _, _, _, h1, hR⟩

theorem FirstIn.fails {M p q f fs S2 S1} (hM : Directed M p q) (h : FirstIn S2 S1) (hS : Steady M p q (f :: fs) S1) (ho : Own f S1 none) : Own f S2 none := by
  obtain ⟨t1, t2, t3, t4, t5⟩ := hM.tests
  cases ho with
  | eq_fail ho => exact .eq_fail (h.once hS t2 t3 ho)
  | neq_fail ho => exact .neq_fail (h.always hS ho)
  | is_fail ho h0 =>
    refine .is_fail (h.always hS ho) ?_
    rintro ρ gs ⟨d, h1⟩
    obtain ⟨ρ', gs', h3⟩ := h.2 _ _ _ h1
    exact h0 _ _ ⟨d, h3⟩

theorem FirstIn.passes {M p q f fs S2 S1 S1'} (hM : Directed M p q) (h : FirstIn S2 S1) (hS : Steady M p q (f :: fs) S1) (ho : Own f S1 (some S1')) :
    Own f S2 none ∨ ∃ S2', Own f S2 (some S2') ∧ (S2' = S2.drop ∧ S1' = S1.drop ∨ ∃ v, S2' = S2.is v ∧ S1' = S1.is v ∧ ¬ (S2.is v).Empty) := by
  obtain ⟨t1, t2, t3, t4, t5⟩ := hM.tests
  cases ho with
  | eq_pass ho => exact .inr ⟨_, .eq_pass (h.always hS ho), .inl ⟨rfl, rfl⟩⟩
  | neq_pass ho => exact .inr ⟨_, .neq_pass (h.once hS t4 t5 ho), .inl ⟨rfl, rfl⟩⟩
  | @is_pass _ v ho h0 =>
    by_cases h1 : (S2.is v).Empty
    · exact .inl (.is_fail (h.always hS ho) h1)
    · exact .inr ⟨_, .is_pass (h.always hS ho) h1, .inr ⟨v, rfl, rfl, h1⟩⟩

theorem Narrow.passes {M p q n f fs S2 S1 S1'} (hM : Directed M p q) (h : Narrow (n + 1) S2 S1) (hS : Steady M p q (f :: fs) S1) (ho : Own f S1 (some S1')) :
    Own f S2 none ∨ ∃ S2', Own f S2 (some S2') ∧ Narrow n S2' S1' := by
  rcases h.front.passes hM hS ho with h1 | ⟨S2', h1, ⟨rfl, rfl⟩ | ⟨v, rfl, rfl, h2⟩⟩
  · exact .inl h1
  · exact .inr ⟨_, h1, h.drop⟩
  · exact .inr ⟨_, h1, h.is h2⟩

theorem FirstIn.errs {M p q f fs S2 S1 k} (hM : Directed M p q) (h : FirstIn S2 S1) (hS : Steady M p q (f :: fs) S1) (ho : OwnErr f S1 k) : OwnErr f S2 k := by
  obtain ⟨t1, t2, t3, t4, t5⟩ := hM.tests
  cases ho with
  | other ho => exact .other (h.always hS ho)
  | «open» ho =>
    refine .open ?_
    rintro ⟨x, ⟨ρ, m, d, e, gs, h1, hx⟩, _⟩
    obtain ⟨ρ', gs', h3⟩ := h.2 _ _ _ h1
    refine ho ⟨x, ⟨_, _, _, _, _, h3, hx⟩, fun ρ'' m' d' e' gs' h4 => ?_⟩
    rw [← hS.second t1 h3 h4]
    exact hx

theorem Upto.noGoal {ts us : List Todo} (h : Upto ts us) (hu : NoGoal us) : NoGoal ts := by
  obtain ⟨l, more, h1, h2⟩ := h
  intro f hf
  have : Todo.goal f ∈ us ++ l := h2 ▸ List.mem_append_left _ hf
  exact (List.mem_append.1 this).elim (hu f) (h1 f)

theorem Upto.cons {a ts us} (h : Upto (a :: ts) us) (hg : ¬ NoGoal (a :: ts)) : ∃ us', us = a :: us' ∧ Upto ts us' := by
  cases us with
  | nil => exact absurd (h.noGoal fun f hf => by cases hf) hg
  | cons b us =>
    obtain ⟨l, more, h1, h2⟩ := h
    obtain ⟨rfl, h3⟩ := List.cons.inj h2
    exact ⟨us, rfl, l, more, h1, h3⟩

theorem Upto.before {ts us} (h : Upto ts us) (l : List Todo) : Upto (l ++ ts) (l ++ us) := by
  obtain ⟨m, more, h1, h2⟩ := h
  exact ⟨m, more, h1, by rw [List.append_assoc, h2, List.append_assoc]⟩

theorem among_map {cs : List Clause} {ts us S2 S1} (hu : Upto ts us) (h : Narrow ((calls ts).length + 1) S2 S1) : Among Narrower (cs.map (.clause · ts S2)) (cs.map (.clause · us S1)) := by
  induction cs with
  | nil => exact .nil
  | cons c cs ih => exact .take (.clause hu h) ih

/-- A turn for what is more special leads to no more than what the other leads to. -/
theorem Narrower.turn {M p q j i news r} (hM : Directed M p q) (hi : i.Moded M p q) (h : Narrower j i) (t : STurn (inForce p) i news r) :
    ∃ news2 r2, STurn (inForce p) j news2 r2 ∧ Among Narrower news2 news := by
  cases h with
  | @goals ts us S2 S1 hg hu hn =>
    cases ts with
    | nil => exact absurd (fun f hf => by cases hf) hg
    | cons a ts =>
      obtain ⟨us, rfl, hu'⟩ := hu.cons hg
      clear hu
      cases a with
      | leave =>
        cases t with
        | leave => exact ⟨_, _, .leave, .take (.goals (fun h => hg fun f hf => (List.mem_cons.1 hf).elim (by simp) (h f)) hu' hn) .nil⟩
      | goal f =>
        cases t with
        | call hf => exact ⟨_, _, .call hf, among_map hu' hn⟩
        | callOwn hf => exact ⟨_, _, .callOwn hf, .take (.own hu' hn) .nil⟩
  | @clause c ts us S2 S1 hu hn =>
    by_cases h0 : (S2.enter c).Empty
    · exact ⟨_, _, .reject h0, .none _⟩
    · by_cases h1 : NoGoal (c.todo ++ ts)
      · exact ⟨_, _, .answer h0 h1, .none _⟩
      · have hn' := hn.enter h0
        refine ⟨_, _, .enter h0 h1, ?_⟩
        cases t with
        | reject h2 =>
          obtain ⟨⟨ρ, gs, h3⟩, h4⟩ := hn'
          obtain ⟨_, ρ', more, h5⟩ := h4 _ _ h3
          exact absurd h5 (h2 _ _)
        | enter h2 h3 =>
          refine .take (.goals h1 (hu.before _) ?_) .nil
          rw [calls_append, calls_todo, List.length_append, List.length_map]
          exact hn'
        | answer h2 h3 => exact absurd ((hu.before _).noGoal h3) h1
  | @own f ts us S2 S1 hu hn =>
    cases t with
    | ownFail ho => exact ⟨_, _, .ownFail (hn.front.fails hM hi ho), .nil⟩
    | error ho => exact ⟨_, _, .error (hn.front.errs hM hi ho), .nil⟩
    | ownPass ho hg =>
      rcases hn.passes hM hi ho with h2 | ⟨S2', h2, h3⟩
      · exact ⟨_, _, .ownFail h2, .none _⟩
      · by_cases h1 : NoGoal ts
        · exact ⟨_, _, .ownAnswer h2 h1, .none _⟩
        · exact ⟨_, _, .ownPass h2 h1, .take (.goals h1 hu h3) .nil⟩
    | ownAnswer ho hg =>
      rcases hn.passes hM hi ho with h2 | ⟨S2', h2, h3⟩
      · exact ⟨_, _, .ownFail h2, .nil⟩
      · exact ⟨_, _, .ownAnswer h2 (hu.noGoal hg), .nil⟩

theorem Costs.fewer {M p q q1 n} (hM : Directed M p q) (h : Costs (inForce p) q1 n) : ∀ {q2}, (∀ i ∈ q1, i.Moded M p q) → Among Narrower q2 q1 → ∃ m, m ≤ n ∧ Costs (inForce p) q2 m := by
  induction h with
  | nil => intro q2 _ ha; cases ha; exact ⟨0, Nat.le_refl _, .nil⟩
  | cons t _ _ ih1 ih2 =>
    intro q2 hq ha
    cases ha with
    | skip ha =>
      obtain ⟨m, h1, h2⟩ := ih2 (fun i hi => hq i (.tail _ hi)) ha
      exact ⟨m, by omega, h2⟩
    | take hw ha =>
      obtain ⟨m, h1, h2⟩ := ih2 (fun i hi => hq i (.tail _ hi)) ha
      obtain ⟨news2, r2, t2, h3⟩ := hw.turn hM (hq _ (.head _)) t
      obtain ⟨l, h4, h5⟩ := ih1 (t.moded hM (hq _ (.head _))) h3
      exact ⟨l + m + 1, by omega, .cons t2 h5 h2⟩

/-! ## The searches -/

/-- **C90, effort**: when the search for a query has ended after some iterations, the search for a more special query, or for its first goals, ends after no more iterations. -/
theorem C90_fewer {o oe o2 o' : Org} {p atoms more σ M fuel k ts fuel2 k2 ts2} (h : Asked o p (atoms ++ more)) (hM : Directed M p (atoms ++ more)) (h2 : Asked o2 p (atoms.map (Node.special σ)))
    (hr : o.iterate fuel k = .ok (oe, ts)) (hq : oe.queue = []) (hr2 : o2.iterate fuel2 k2 = .ok (o', ts2)) :
    ts2.length ≤ ts.length ∧ (ts.length ≤ k2 → o'.queue = []) := by
  have hfv : (atoms.map (Node.special σ)).map (Todo.goal ·.fv) = atoms.map (Todo.goal ·.fv) := by
    rw [List.map_map]
    refine List.map_congr_left fun a _ => ?_
    have h1 := inst_fvs (A := itreeAlg) (ρ := fun _ => itreeAlg.int 0) (ns := [a.special σ])
    have h2 := inst_fvs (A := itreeAlg) (ρ := through σ fun _ => itreeAlg.int 0) (ns := [a])
    simp only [List.map_cons, List.map_nil, inst_special] at h1 h2
    simpa using h1.symm.trans h2
  have hw : Narrower (.goals ((atoms.map (Node.special σ)).map (Todo.goal ·.fv)) (Insts.query (atoms.map (Node.special σ))))
      (.goals ((atoms ++ more).map (Todo.goal ·.fv)) (Insts.query (atoms ++ more))) := by
    rw [hfv, List.map_append]
    refine .goals ?_ (⟨[], more.map (Todo.goal ·.fv), (fun f hf => nomatch hf), List.append_nil _⟩ : Upto _ _) ⟨⟨fun _ => itreeAlg.int 0, _, rfl⟩, ?_⟩
    · intro hg
      have h0 := h2.ne
      cases atoms with
      | nil => exact h0 rfl
      | cons a as => exact hg a.fv (.head _)
    · rintro ρ gs rfl
      rw [calls_goals]
      refine ⟨by simp, through σ ρ, more.map (Node.inst itreeAlg (through σ ρ)), ?_⟩
      show _ = _
      rw [insts_special, List.map_append]
  obtain ⟨m, c1, c2⟩ := (Costs.of_search h hr hq).fewer hM (q2 := [_]) (fun i hi => by
    rw [List.mem_singleton.1 hi]
    show Steady _ _ _ _ _
    rw [calls_goals]
    exact Steady.query hM) (.take hw .nil)
  obtain ⟨d1, d2, _⟩ := c2.search h2 hr2
  exact ⟨Nat.le_trans d1 c1, fun hk => d2 (Nat.le_trans c1 hk)⟩

mutual
theorem put_var : ∀ t : Node, t.put .var = t
  | .var _ => rfl
  | .cons _ => rfl
  | .int _ => rfl
  | .fn f cs => by simp only [Node.put, puts_var cs]
  | .efn f cs => by simp only [Node.put, puts_var cs]
theorem puts_var : ∀ ts : List Node, Node.puts .var ts = ts
  | [] => rfl
  | t :: ts => by simp only [Node.puts, put_var t, puts_var ts]
end

theorem special_var (atoms : List Node) : atoms.map (Node.special .var) = atoms := by
  conv => rhs; rw [← List.map_id atoms]
  refine List.map_congr_left fun a _ => ?_
  cases a <;> simp [Node.special, puts_var]

/-- **C90, effort for first goals**: when the search for a query has ended after some iterations, the search for the first of its goals ends after no more iterations. -/
theorem C90_fewer_first {o oe o2 o' : Org} {p atoms more M fuel k ts fuel2 k2 ts2} (h : Asked o p (atoms ++ more)) (hM : Directed M p (atoms ++ more)) (h2 : Asked o2 p atoms)
    (hr : o.iterate fuel k = .ok (oe, ts)) (hq : oe.queue = []) (hr2 : o2.iterate fuel2 k2 = .ok (o', ts2)) :
    ts2.length ≤ ts.length ∧ (ts.length ≤ k2 → o'.queue = []) :=
  C90_fewer (σ := .var) h hM (by rwa [special_var]) hr hq hr2

/-! ## Concrete cases -/

namespace FewerExamples
open SoundExamples AppendExamples SpecialExamples

/-- `append(X, Y, [a,b])`, `append(Y, Z, X)` -/
def twice : List Node := splits ++ [.fn n!"append" [.var n!"Y", .var n!"Z", .var n!"X"]]

/-- The hypotheses are met: the search for both goals ends after 18 iterations, that for the first after 9, and that for the first with `[a]` in the place of `X` after 6. -/
example : Asked (demo [] twice) [] twice ∧ Directed .free [] twice ∧ Asked (demo [] splits) [] splits ∧ Asked (demo [] (splits.map (Node.special withA))) [] (splits.map (Node.special withA)) ∧
    ((demo [] twice).iterate 20 100).toOption.map (fun r => (r.2.length, r.1.queue)) = some (18, []) ∧
    ((demo [] splits).iterate 20 100).toOption.map (fun r => (r.2.length, r.1.queue)) = some (9, []) ∧
    ((demo [] (splits.map (Node.special withA))).iterate 20 100).toOption.map (fun r => (r.2.length, r.1.queue)) = some (6, []) :=
  ⟨asked_demo (by decide +kernel) (by decide +kernel) (safe_of_b (by decide +kernel)) (by decide) (by simp [twice, splits]) (by decide +kernel),
   OnlyClauses.directed ⟨by decide, by decide⟩,
   asked_demo (by decide +kernel) (by decide +kernel) (safe_of_b (by decide +kernel)) (by decide) (by simp [splits]) (by decide +kernel),
   asked_demo (by decide +kernel) (by decide +kernel) (safe_of_b (by decide +kernel)) (by decide) (by simp [splits]) (by decide +kernel),
   by decide +kernel, by decide +kernel, by decide +kernel⟩

end FewerExamples
end PBfs
