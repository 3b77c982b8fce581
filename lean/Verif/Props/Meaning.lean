import Verif.Props.Acceptable
import Verif.Spec.Meaning
/-! # C78: the answers together are the solutions -/
namespace PBfs
open Org

section
variable {P : List Clause} {atoms : List Node}

/-- What is left to be proved is enough. -/
def SItem.Enough (P : List Clause) (atoms : List Node) : SItem → Prop
  | .goals ts S => ∀ ρ gs, S ρ gs → gs.map GAtom.fv = calls ts ∧ ((∀ g ∈ gs, Proves itreeAlg P g) → Solves P atoms ρ)
  | .clause c ts S => c ∈ P ∧ ∀ ρ gs, S ρ gs → gs.map GAtom.fv = c.head.fv :: calls ts ∧ ((∀ g ∈ gs, Proves itreeAlg P g) → Solves P atoms ρ)
  | .own f ts S => ∀ ρ gs, S ρ gs → gs.map GAtom.fv = f :: calls ts ∧ ((∀ g ∈ gs, Proves itreeAlg P g) → Solves P atoms ρ)

theorem proves_model : Model P (Proves itreeAlg P) := ⟨fun _ hc _ hb => .clause hc hb, fun _ => .eq, fun _ _ => .neq, fun _ _ h => .is h⟩

theorem noGoal_calls {ts : List Todo} (h : NoGoal ts) : calls ts = [] := by
  refine List.eq_nil_iff_forall_not_mem.2 fun f hf => ?_
  obtain ⟨t, ht, hf⟩ := List.mem_filterMap.1 hf
  cases t with
  | goal g => exact h g ht
  | leave => cases hf

theorem enough_enter {c : Clause} {ts S} (h : (SItem.clause c ts S).Enough P atoms) : (SItem.goals (c.todo ++ ts) (S.enter c)).Enough P atoms := by
  obtain ⟨hc, h⟩ := h
  rintro ρ gs ⟨σ, rest, hs, rfl⟩
  obtain ⟨h1, h2⟩ := h ρ _ hs
  simp only [List.map_cons, List.cons.injEq] at h1
  refine ⟨by rw [List.map_append, inst_fvs, calls_append, calls_todo, h1.2], fun hp => h2 fun g hg => ?_⟩
  rcases List.mem_cons.1 hg with rfl | hg
  · exact .clause hc fun b hb => hp _ (List.mem_append_left _ (List.mem_map_of_mem hb))
  · exact hp g (List.mem_append_right _ hg)

theorem enough_own {f ts S S'} (h : (SItem.own f ts S).Enough P atoms) (ho : Own f S (some S')) : (SItem.goals ts S').Enough P atoms := by
  intro ρ gs hs
  obtain ⟨g, h1, h2⟩ := ho.holds proves_model (ts := ts) (fun ρ gs hs => (h ρ gs hs).1) ρ gs hs
  obtain ⟨h3, h4⟩ := h ρ _ h1
  simp only [List.map_cons, List.cons.injEq] at h3
  refine ⟨h3.2, fun hp => h4 fun x hx => ?_⟩
  rcases List.mem_cons.1 hx with rfl | hx
  · exact h2
  · exact hp x hx

theorem enough_done {ts S} (h : (SItem.goals ts S).Enough P atoms) (hn : NoGoal ts) : ∀ ρ gs, S ρ gs → Solves P atoms ρ := by
  intro ρ gs hs
  obtain ⟨h1, h2⟩ := h ρ gs hs
  rw [noGoal_calls hn] at h1
  obtain rfl := List.map_eq_nil_iff.1 h1
  exact h2 (by simp)

theorem STurn.enough {i news r} (h : STurn P i news r) (hi : i.Enough P atoms) :
    (∀ j ∈ news, j.Enough P atoms) ∧ ∀ S, r = some (.answer S) → ∀ ρ gs, S ρ gs → Solves P atoms ρ := by
  cases h with
  | leave => exact ⟨fun j hj => by rw [List.mem_singleton.1 hj]; exact hi, by simp⟩
  | @call f ts S hf =>
    refine ⟨fun j hj => ?_, by simp⟩
    obtain ⟨c, hc, rfl⟩ := List.mem_map.1 hj
    obtain ⟨hc, hf⟩ := List.mem_filter.1 hc
    have hf : c.head.fv = f := by simpa using hf
    exact ⟨hc, fun ρ gs hs => by rw [hf]; exact hi ρ gs hs⟩
  | callOwn => exact ⟨fun j hj => by rw [List.mem_singleton.1 hj]; exact hi, by simp⟩
  | reject => simp
  | enter => exact ⟨by simpa using enough_enter hi, by simp⟩
  | answer _ hn => exact ⟨by simp, fun S hS => by cases hS; exact enough_done (enough_enter hi) hn⟩
  | ownFail => simp
  | ownPass ho => exact ⟨by simpa using enough_own hi ho, by simp⟩
  | ownAnswer ho hn => exact ⟨by simp, fun S hS => by cases hS; exact enough_done (enough_own hi ho) hn⟩
  | error => simp

theorem SRun.enough {q rs q'} (h : SRun P q rs q') (hq : ∀ i ∈ q, i.Enough P atoms) : ∀ S, some (.answer S) ∈ rs → ∀ ρ gs, S ρ gs → Solves P atoms ρ := by
  induction h with
  | nil => simp
  | cons t _ ih =>
    intro S hS
    obtain ⟨h1, h2⟩ := t.enough (hq _ List.mem_cons_self)
    rcases List.mem_cons.1 hS with hS | hS
    · exact h2 S hS.symm
    · refine ih (fun i hi => ?_) S hS
      rcases List.mem_append.1 hi with hi | hi
      · exact hq i (List.mem_cons_of_mem _ hi)
      · exact h1 i hi

theorem enough_query : (SItem.goals (atoms.map (.goal ·.fv)) (Insts.query atoms)).Enough P atoms := by
  rintro ρ gs rfl
  exact ⟨by rw [inst_fvs, calls_goals], fun h a ha => h _ (List.mem_map_of_mem ha)⟩

end

/-- A solution of a query without `is`, `==` and `\\==` has a derivation. -/
theorem Solves.derives {p atoms} (hb : OnlyClauses p atoms) {ρ} (h : Solves (inForce p) atoms ρ) : ∃ n, Derives itreeAlg (inForce p) n 0 0 (atoms.map (Node.inst itreeAlg ρ)) := by
  obtain ⟨n, hn⟩ := taken_all (P := inForce p) (hs := atoms.map (Node.inst itreeAlg ρ)) fun g hg => by
    obtain ⟨b, hb', rfl⟩ := List.mem_map.1 hg
    exact (h b hb').taken hb.inForce (by rw [head_fv]; exact hb.1 b hb')
  have := hn 0 [] .nil
  rw [List.append_nil] at this
  exact ⟨_, this⟩

/-- Breadth-first resolution that has come to an end has found every solution. -/
theorem SRun.complete {p atoms rs} (h : SRun (inForce p) [.goals (atoms.map (.goal ·.fv)) (Insts.query atoms)] rs []) (hb : OnlyClauses p atoms) (hne : atoms ≠ [])
    {ρ} (hs : Solves (inForce p) atoms ρ) : ∃ S gs, some (.answer S) ∈ rs ∧ S ρ gs := by
  obtain ⟨n, hd⟩ := hs.derives hb
  have hpos : 1 ≤ n + (0 + 0) := by
    rcases Nat.eq_zero_or_pos (n + (0 + 0)) with h0 | h0
    · exact absurd (List.map_eq_nil_iff.1 (hd.zero h0)) hne
    · exact h0
  obtain ⟨m, hm⟩ : ∃ m, depth n (0 + 0) = m + 1 := ⟨depth n (0 + 0) - 1, by have := depth_pos hpos; omega⟩
  have hl : (SItem.goals (atoms.map (.goal ·.fv)) (Insts.query atoms)).LeadsIn (inForce p) ρ 0 (m + 1) :=
    ⟨_, n, 0, 0, rfl, hd, by rw [inst_fvs, calls_goals], hpos, by rw [leaves_goals, hm], Nat.le_refl _⟩
  have hA : AtMost (inForce p).length (inForce p) := fun f => List.length_filter_le _ _
  rcases h.finds hA (by have := hA.two; omega) inForce_own (q2 := []) (List.append_nil _).symm (.inl ⟨_, .head _, hl⟩) (.inr rfl) with h | ⟨h, _⟩
  · exact h
  · cases h

theorem gives_of {rs : List (Option Rep)} {ρ} : Gives (rs.filterMap id) ρ ↔ ∃ S gs, some (.answer S) ∈ rs ∧ S ρ gs := by
  simp [Gives]

/-- **C78, nothing but solutions**: the answers reported, at any time, with any program, show nothing but solutions of the query. -/
theorem C78_sound {o o' : Org} {p atoms fuel k ts} (h : Asked o p atoms) (hr : o.iterate fuel k = .ok (o', ts)) :
    ∃ reps, List.Forall₂ (Meets o.st atoms fuel) (reports ts) reps ∧ ∀ ρ, Gives reps ρ → Solves (inForce p) atoms ρ := by
  obtain ⟨items, rs, h1, h2, _⟩ := C42_breadth_first_resolution_partial h hr
  refine ⟨_, Says.meets h2, fun ρ hg => ?_⟩
  obtain ⟨S, gs, hS, hs⟩ := gives_of.1 hg
  exact h1.enough (by simpa using enough_query) S hS ρ gs hs

/-- **C78, all solutions**: if the search has ended, then the answers together show exactly the solutions of the query.  For programs that do not use `is`, `==` and `\\==`. -/
theorem C78_solutions {o o' : Org} {p atoms fuel k ts} (h : Asked o p atoms) (hb : OnlyClauses p atoms) (hr : o.iterate fuel k = .ok (o', ts)) (hq : o'.queue = []) :
    ∃ reps, List.Forall₂ (Meets o.st atoms fuel) (reports ts) reps ∧ ∀ ρ, Gives reps ρ ↔ Solves (inForce p) atoms ρ := by
  obtain ⟨items, rs, h1, h2, h3⟩ := C42_breadth_first_resolution_partial h hr
  rw [hq] at h3
  obtain rfl := List.length_eq_zero_iff.1 h3
  refine ⟨_, Says.meets h2, fun ρ => ⟨fun hg => ?_, fun hs => gives_of.2 (h1.complete hb h.ne hs)⟩⟩
  obtain ⟨S, gs, hS, hs⟩ := gives_of.1 hg
  exact h1.enough (by simpa using enough_query) S hS ρ gs hs

/-- The same for calls of `get_answer` that have gone on until there were no more answers, whatever the clock did. -/
theorem C78_sessions {o o' : Org} {p atoms fuel clocks rs} (h : Asked o p atoms) (hb : OnlyClauses p atoms) (hs : o.session fuel clocks = .ok (o', rs))
    (hl : rs.getLast? = some .noAnswer) :
    ∃ reps, List.Forall₂ (Meets o.st atoms fuel) (rs.filter Res.isReport) reps ∧ ∀ ρ, Gives reps ρ ↔ Solves (inForce p) atoms ρ := by
  obtain ⟨ts, a1, a2⟩ := C05_timeouts_transparent h.reach hs
  rw [a2]
  exact C78_solutions h hb a1 (session_exhausted hs hl h.reach.rinv)

/-- **C78, meaning**: what is answered depends only on what program and query mean: if the same values are solutions with both programs and queries, and both searches have
ended, then the answers of the one and the answers of the other together show the same instances, even if they are not the same in number. -/
theorem C78_meaning {o o' o2 o2' : Org} {p p2 atoms atoms2 fuel fuel2 k k2 ts ts2} (h : Asked o p atoms) (hb : OnlyClauses p atoms) (h2 : Asked o2 p2 atoms2)
    (hb2 : OnlyClauses p2 atoms2) (hm : ∀ ρ, Solves (inForce p) atoms ρ ↔ Solves (inForce p2) atoms2 ρ)
    (hr : o.iterate fuel k = .ok (o', ts)) (hq : o'.queue = []) (hr2 : o2.iterate fuel2 k2 = .ok (o2', ts2)) (hq2 : o2'.queue = []) :
    ∃ reps reps2, List.Forall₂ (Meets o.st atoms fuel) (reports ts) reps ∧ List.Forall₂ (Meets o2.st atoms2 fuel2) (reports ts2) reps2 ∧
      ∀ ρ, Gives reps ρ ↔ Gives reps2 ρ := by
  obtain ⟨reps, a1, a2⟩ := C78_solutions h hb hr hq
  obtain ⟨reps2, b1, b2⟩ := C78_solutions h2 hb2 hr2 hq2
  exact ⟨reps, reps2, a1, b1, fun ρ => by rw [a2, b2, hm]⟩

/-! ## The order of goals -/

theorem Regoaled.inForce {p p2} (h : Regoaled p p2) : Regoaled (inForce p) (inForce p2) := by
  intro c hc
  rcases List.mem_append.1 hc with hc | hc
  · obtain ⟨hc, hf⟩ := List.mem_filter.1 hc
    obtain ⟨c2, h1, h2, h3⟩ := h c hc
    exact ⟨c2, List.mem_append_left _ (List.mem_filter.2 ⟨h1, by rw [h2]; exact hf⟩), h2, h3⟩
  · exact ⟨c, List.mem_append_right _ hc, rfl, fun _ => Iff.rfl⟩

theorem Proves.regoaled {D} {A : Alg D} {P P2 g} (hp : Regoaled P P2) (h : Proves A P g) : Proves A P2 g := by
  induction h with
  | clause hc _ ih =>
    obtain ⟨c2, h1, h2, h3⟩ := hp _ hc
    rw [← h2]
    exact .clause h1 fun b hb => ih b ((h3 b).1 hb)
  | eq => exact .eq
  | neq => exact .neq
  | is h => exact .is h

theorem Solves.regoaled {p p2 atoms atoms2 ρ} (hp : Regoaled p p2) (ha : ∀ a, a ∈ atoms2 → a ∈ atoms) (h : Solves (inForce p) atoms ρ) : Solves (inForce p2) atoms2 ρ :=
  fun a h2 => (h a (ha a h2)).regoaled hp.inForce

theorem OnlyClauses.regoaled {p p2 atoms atoms2} (hp : Regoaled p2 p) (ha : ∀ a, a ∈ atoms2 → a ∈ atoms) (h : OnlyClauses p atoms) : OnlyClauses p2 atoms2 := by
  refine ⟨fun a h2 => h.1 a (ha a h2), fun c hc a h2 => ?_⟩
  obtain ⟨c', h3, _, h4⟩ := hp c hc
  exact h.2 c' h3 a ((h4 a).2 h2)

/-- **C78, order of goals**: changing the order of the goals in clauses and query, repeating goals, changing the order of the clauses and repeating clauses changes nothing about the instances
that the answers show, provided that both searches end. -/
theorem C78_goals {o o' o2 o2' : Org} {p p2 atoms atoms2 fuel fuel2 k k2 ts ts2} (h : Asked o p atoms) (hb : OnlyClauses p atoms) (h2 : Asked o2 p2 atoms2)
    (hp : Regoaled p p2) (hp2 : Regoaled p2 p) (ha : ∀ a, a ∈ atoms ↔ a ∈ atoms2)
    (hr : o.iterate fuel k = .ok (o', ts)) (hq : o'.queue = []) (hr2 : o2.iterate fuel2 k2 = .ok (o2', ts2)) (hq2 : o2'.queue = []) :
    ∃ reps reps2, List.Forall₂ (Meets o.st atoms fuel) (reports ts) reps ∧ List.Forall₂ (Meets o2.st atoms2 fuel2) (reports ts2) reps2 ∧
      ∀ ρ, Gives reps ρ ↔ Gives reps2 ρ :=
  C78_meaning h hb h2 (hb.regoaled hp2 fun a => (ha a).2) (fun _ => ⟨.regoaled hp fun a => (ha a).2, .regoaled hp2 fun a => (ha a).1⟩) hr hq hr2 hq2

/-- An answer shows something. -/
theorem ShowsInsts.some {st atoms fuel bs S} (h : ShowsInsts st atoms fuel bs S) : ∃ ρ gs, S ρ gs := by
  obtain ⟨pre, hp, L, g, _, _, ag, h⟩ := h
  obtain ⟨σ, m, _⟩ := g.solve_itree (interpOf st) fun _ => itreeAlg.int 0
  obtain ⟨ρ, hρ⟩ := ag σ m
  obtain ⟨ρ', gs, hS, _⟩ := (h ρ).2 ⟨σ, m, hρ⟩
  exact ⟨ρ', gs, hS⟩

theorem forall₂_meet {st atoms fuel} {rs : List Org.Res} {reps : List Rep} (h : List.Forall₂ (Meets st atoms fuel) rs reps) {bs} (hb : Org.Res.answer bs ∈ rs) :
    ∃ S, .answer S ∈ reps ∧ ShowsInsts st atoms fuel bs S := by
  induction h with
  | nil => cases hb
  | cons h1 _ ih =>
    rcases List.mem_cons.1 hb with rfl | hb
    · cases h1 with
      | answer h1 => exact ⟨_, .head _, h1⟩
    · obtain ⟨S, h2, h3⟩ := ih hb
      exact ⟨S, .tail _ h2, h3⟩

/-- **C78, no answer**: if the search has ended without an answer, then no search with another order of the goals finds an answer, ended or not. -/
theorem C78_none {o o' o2 o2' : Org} {p p2 atoms atoms2 fuel fuel2 k k2 ts ts2} (h : Asked o p atoms) (hb : OnlyClauses p atoms) (h2 : Asked o2 p2 atoms2)
    (hp2 : Regoaled p2 p) (ha : ∀ a, a ∈ atoms → a ∈ atoms2)
    (hr : o.iterate fuel k = .ok (o', ts)) (hq : o'.queue = []) (hn : ∀ bs, .answer bs ∉ reports ts) (hr2 : o2.iterate fuel2 k2 = .ok (o2', ts2)) :
    ∀ bs, .answer bs ∉ reports ts2 := by
  intro bs hbs
  obtain ⟨reps, a1, a2⟩ := C78_solutions h hb hr hq
  obtain ⟨reps2, b1, b2⟩ := C78_sound h2 hr2
  obtain ⟨S, c1, c2⟩ := forall₂_meet b1 hbs
  obtain ⟨ρ, gs, hS⟩ := c2.some
  obtain ⟨S', gs', d1, _⟩ := (a2 ρ).2 ((b2 ρ ⟨S, gs, c1, hS⟩).regoaled hp2 ha)
  clear a2 hr hq
  generalize reports ts = rs at a1 hn
  induction a1 with
  | nil => cases d1
  | cons m _ ih =>
    rcases List.mem_cons.1 d1 with rfl | d1
    · cases m with
      | answer => exact hn _ (.head _)
    · exact ih d1 fun bs hb => hn bs (.tail _ hb)

/-- **C78, text**: if a variable has the same finite value in all solutions, then the text of this value is what every answer shows for it, at any time. -/
theorem C78_text {o o' : Org} {p atoms fuel k ts} (h : Asked o p atoms) (hpr : Printable o.st) (hr : o.iterate fuel k = .ok (o', ts)) {x : Name} {u : Tree} {s}
    (hx : ∀ ρ, Solves (inForce p) atoms ρ → ρ x = u.fold itreeAlg) (hs : Text u s) {bs} (hb : .answer bs ∈ reports ts) : ∀ b ∈ bs, b.name = x → b.value = s := by
  obtain ⟨reps, a1, a2⟩ := C78_sound h hr
  obtain ⟨S, c1, c2⟩ := forall₂_meet a1 hb
  exact fun b hb hn => c2.text hpr h.stOK (fun ρ gs hS => hx ρ (a2 ρ ⟨S, gs, c1, hS⟩)) hs hb hn

/-! ## Concrete cases -/

namespace MeaningExamples
open SoundExamples CompleteExamples

/-- `p(a).  p(b).  q(b).  q(c).  r(X) :- p(X), q(X).` -/
def first : List Clause :=
  [⟨.fn n!"p" [.cons n!"a"], []⟩, ⟨.fn n!"p" [.cons n!"b"], []⟩, ⟨.fn n!"q" [.cons n!"b"], []⟩, ⟨.fn n!"q" [.cons n!"c"], []⟩,
   ⟨.fn n!"r" [.var n!"X"], [.fn n!"p" [.var n!"X"], .fn n!"q" [.var n!"X"]]⟩]

/-- `q(b).  q(c).  p(b).  p(a).  r(X) :- q(X), p(X), q(X).  p(b).` -/
def second : List Clause :=
  [⟨.fn n!"q" [.cons n!"b"], []⟩, ⟨.fn n!"q" [.cons n!"c"], []⟩, ⟨.fn n!"p" [.cons n!"b"], []⟩, ⟨.fn n!"p" [.cons n!"a"], []⟩,
   ⟨.fn n!"r" [.var n!"X"], [.fn n!"q" [.var n!"X"], .fn n!"p" [.var n!"X"], .fn n!"q" [.var n!"X"]]⟩, ⟨.fn n!"p" [.cons n!"b"], []⟩]

/-- `r(A)` -/
def askR : List Node := [.fn n!"r" [.var n!"A"]]

instance {p p2 : List Clause} : Decidable (Regoaled p p2) :=
  decidable_of_iff (∀ c ∈ p, ∃ c' ∈ p2, c'.head = c.head ∧ (∀ b ∈ c'.body, b ∈ c.body) ∧ ∀ b ∈ c.body, b ∈ c'.body) <| by
    refine forall_congr' fun c => forall_congr' fun _ => exists_congr fun c' => and_congr_right fun _ => and_congr_right fun _ => ?_
    exact ⟨fun h b => ⟨h.1 b, h.2 b⟩, fun h => ⟨fun b => (h b).1, fun b => (h b).2⟩⟩

/-- The hypotheses of `C78_goals` are met; what is found once with the one program is found twice with the other. -/
example : Asked (demo first askR) first askR ∧ Asked (demo second askR) second askR ∧ OnlyClauses first askR ∧ Regoaled first second ∧ Regoaled second first ∧
    ((demo first askR).iterate 20 100).toOption.map (fun r => (r.1.queue, r.2.length, reports r.2)) = some ([], 11, [.answer [⟨n!"A", n!"b"⟩]]) ∧
    ((demo second askR).iterate 20 100).toOption.map (fun r => (r.1.queue, r.2.length, reports r.2)) =
      some ([], 19, [.answer [⟨n!"A", n!"b"⟩], .answer [⟨n!"A", n!"b"⟩]]) :=
  ⟨asked_demo (by decide +kernel) (by decide +kernel) (safe_of_b (by decide +kernel)) (by decide) (by simp [askR]) (by decide +kernel),
    asked_demo (by decide +kernel) (by decide +kernel) (safe_of_b (by decide +kernel)) (by decide) (by simp [askR]) (by decide +kernel),
    by unfold OnlyClauses; decide +kernel, by decide +kernel, by decide +kernel, by decide +kernel, by decide +kernel⟩

/-- `r(a)` -/
def askRa : List Node := [.fn n!"r" [.cons n!"a"]]

/-- The hypotheses of `C78_none` are met. -/
example : Asked (demo first askRa) first askRa ∧ Asked (demo second askRa) second askRa ∧
    ((demo first askRa).iterate 20 100).toOption.map (fun r => (r.1.queue, reports r.2)) = some ([], []) ∧
    ((demo second askRa).iterate 20 100).toOption.map (fun r => (r.1.queue, reports r.2)) = some ([], []) :=
  ⟨asked_demo (by decide +kernel) (by decide +kernel) (safe_of_b (by decide +kernel)) (by decide) (by simp [askRa]) (by decide +kernel),
    asked_demo (by decide +kernel) (by decide +kernel) (safe_of_b (by decide +kernel)) (by decide) (by simp [askRa]) (by decide +kernel), by decide +kernel, by decide +kernel⟩

/-- The one solution with `first`, as in the hypothesis of `C78_text`. -/
theorem one_solution : ∀ ρ, Solves (inForce first) askR ρ ↔ ρ n!"A" = (Tree.cons n!"b").fold itreeAlg := by
  have e : inForce first = first ++ appendClauses := rfl
  have inv : ∀ {g}, Proves itreeAlg (inForce first) g →
      (g.name = n!"p" → g.args = [itreeAlg.cons n!"a"] ∨ g.args = [itreeAlg.cons n!"b"]) ∧ (g.name = n!"q" → g.args = [itreeAlg.cons n!"b"] ∨ g.args = [itreeAlg.cons n!"c"]) ∧
      (g.name = n!"r" → g.args = [itreeAlg.cons n!"b"]) := by
    intro g h
    induction h with
    | @clause c ρ hc _ ih =>
      rw [e] at hc
      simp only [first, appendClauses, List.cons_append, List.nil_append, List.mem_cons, List.not_mem_nil, or_false] at hc
      rcases hc with rfl | rfl | rfl | rfl | rfl | rfl | rfl
      · simp [Node.inst, Node.name, Node.children, Node.evals, Node.eval]
      · simp [Node.inst, Node.name, Node.children, Node.evals, Node.eval]
      · simp [Node.inst, Node.name, Node.children, Node.evals, Node.eval]
      · simp [Node.inst, Node.name, Node.children, Node.evals, Node.eval]
      · have h1 := ((ih _ (.head _)).1) rfl
        have h2 := ((ih _ (.tail _ (.head _))).2.1) rfl
        simp only [Node.inst, Node.name, Node.children, Node.evals, Node.eval, List.cons.injEq, and_true] at h1 h2 ⊢
        refine ⟨by simp, by simp, fun _ => ?_⟩
        rcases h1 with h1 | h1
        · rcases h2 with h2 | h2
          · exact h2
          · exact absurd (itreeAlg_sharp.cons_inj (h1.symm.trans h2)) (by decide)
        · exact h1
      · simp [Node.inst, Node.name]
      · simp [Node.inst, Node.name]
    | eq => simp
    | neq => simp
    | is => simp
  refine fun ρ => ⟨fun h => ?_, fun h a ha => ?_⟩
  · have := (inv (h _ (.head _))).2.2 rfl
    simpa [Node.inst, Node.children, Node.evals, Node.eval, Tree.fold] using this
  · obtain rfl := List.mem_singleton.1 ha
    have fact : ∀ f, ⟨.fn f [.cons n!"b"], []⟩ ∈ inForce first → Proves itreeAlg (inForce first) ⟨f, [itreeAlg.cons n!"b"]⟩ :=
      fun f hf => by simpa [Node.inst, Node.name, Node.children, Node.evals, Node.eval] using Proves.clause (A := itreeAlg) (ρ := ρ) hf (by simp)
    have hp := fact n!"p" (by rw [e]; simp [first])
    have hq := fact n!"q" (by rw [e]; simp [first])
    have := Proves.clause (A := itreeAlg) (P := inForce first) (ρ := fun _ => itreeAlg.cons n!"b")
      (c := ⟨.fn n!"r" [.var n!"X"], [.fn n!"p" [.var n!"X"], .fn n!"q" [.var n!"X"]]⟩) (by rw [e]; simp [first]) (by
        intro b hb
        rcases List.mem_cons.1 hb with rfl | hb
        · exact hp
        · rw [List.mem_singleton.1 hb]; exact hq)
    have h' : ρ n!"A" = itreeAlg.cons n!"b" := h
    simpa [Node.inst, Node.name, Node.children, Node.evals, Node.eval, h'] using this

end MeaningExamples

open SoundExamples AcceptableExamples in
/-- **C78, both must end**: with `p(X) :- p(X).`, the search for `q(a), p(a)` ends, with no answer, and the search for `p(a), q(a)` never does. -/
theorem C78_needed : ∃ q q2 : List Node, q.Perm q2 ∧ Asked (demo loop q) loop q ∧ Asked (demo loop q2) loop q2 ∧ OnlyClauses loop q ∧ OnlyClauses loop q2 ∧
    ((demo loop q).iterate 20 2).toOption.map (fun r => (r.1.queue, reports r.2)) = some ([], []) ∧
    ∀ fuel k o' ts, (demo loop q2).iterate fuel k = .ok (o', ts) → o'.queue ≠ [] := by
  have h2 : Asked (demo loop [.fn n!"p" [.cons n!"a"], .fn n!"q" [.cons n!"a"]]) loop [.fn n!"p" [.cons n!"a"], .fn n!"q" [.cons n!"a"]] :=
    asked_demo (by decide +kernel) (by decide +kernel) (safe_of_b (by decide +kernel)) (by decide) (by simp) (by decide +kernel)
  have hb : OnlyClauses loop [.fn n!"p" [.cons n!"a"], .fn n!"q" [.cons n!"a"]] := by unfold OnlyClauses; decide +kernel
  refine ⟨[.fn n!"q" [.cons n!"a"], .fn n!"p" [.cons n!"a"]], _, .swap _ _ _,
    asked_demo (by decide +kernel) (by decide +kernel) (safe_of_b (by decide +kernel)) (by decide) (by simp) (by decide +kernel), h2,
    by unfold OnlyClauses; decide +kernel, hb, by decide +kernel, fun fuel k o' ts hr hq => ?_⟩
  obtain ⟨lev, I, n, _, hA, hB⟩ := C76_converse h2 hb hr hq
  exact C76_needed hA fun ρ => ⟨(hB ρ).1, fun _ => trivial⟩

end PBfs
