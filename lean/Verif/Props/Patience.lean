import Verif.Props.Shown
import Verif.Props.Linear
/-! # Every solution gets its line: C80 -/
namespace PBfs
open Org

/-- A call of `get_answer` with enough time comes back with the next report of the search. -/
theorem getAnswer_report {fuel k : Nat} : ∀ {k0 : Nat} {o o' : Org} {ts r rest clock}, o.iterate fuel k0 = .ok (o', ts) → reports ts = r :: rest → k0 ≤ k →
    List.replicate k false <+: clock → ∃ o1 k1 ts1, o.getAnswer fuel clock = .ok (o1, r) ∧ o1.iterate fuel k1 = .ok (o', ts1) ∧ reports ts1 = rest ∧ k1 ≤ k0 := by
  intro k0
  induction k0 generalizing k with
  | zero =>
    intro o o' ts r rest clock h hb
    simp only [Org.iterate, pure_ok, Prod.mk.injEq] at h
    rw [← h.2] at hb
    cases hb
  | succ k0 ih =>
    intro o o' ts r rest clock h hb h0 hc
    obtain ⟨k, rfl⟩ : ∃ x, k = x + 1 := ⟨k - 1, by omega⟩
    rw [List.replicate_succ] at hc
    obtain ⟨clock, rfl⟩ : ∃ x, clock = false :: x := by
      obtain ⟨x, hx⟩ := hc
      exact ⟨_, by rw [← hx]; rfl⟩
    have hc := (List.cons_prefix_cons.1 hc).2
    unfold Org.iterate at h
    split at h
    · simp only [pure_ok, Prod.mk.injEq] at h
      rw [← h.2] at hb
      cases hb
    · rename_i id q hq
      simp only [bind_ok, pure_ok, Prod.mk.injEq] at h
      obtain ⟨⟨o1, t⟩, h1, ⟨o2, ts2⟩, h2, rfl, rfl⟩ := h
      have hget : o.getAnswer fuel (false :: clock) = (match t with
          | .continue => o1.getAnswer fuel clock
          | .answer bs => .ok (o1, .answer bs)
          | .error e => .ok (o1, .error e)) := by
        conv => lhs; unfold Org.getAnswer
        simp only [hq, h1, ok_bind]
        cases t <;> rfl
      cases t with
      | «continue» =>
        obtain ⟨o3, k1, ts1, a1, a2, a3, a4⟩ := ih (k := k) h2 hb (by omega) hc
        exact ⟨o3, k1, ts1, by rw [hget, a1], a2, a3, by omega⟩
      | answer bs =>
        simp only [reports, List.cons.injEq] at hb
        exact ⟨o1, k0, ts2, hget.trans (by simp only [hb.1]), h2, hb.2, by omega⟩
      | error e =>
        simp only [reports, List.cons.injEq] at hb
        exact ⟨o1, k0, ts2, hget.trans (by simp only [hb.1]), h2, hb.2, by omega⟩

/-- A click on "Next" that comes to an answer. -/
theorem next_step {fuel i : Nat} {s : Site} {p : Page} {o o1 bs c} (hp : s.pages[i]? = some p) (ho : p.org = some o) (hn : p.nextOn = true)
    (ha : o.getAnswer fuel c.clock = .ok (o1, .answer bs)) :
    ∃ s' p', s.step fuel (.next i c) = .ok s' ∧ s'.pages[i]? = some p' ∧ p'.org = some o1 ∧ p'.nextOn = true ∧ p'.lines = p.lines ++ [(Res.answer bs).text] := by
  have hi := (List.getElem?_eq_some_iff.1 hp).1
  refine ⟨{ s with pages := s.pages.set i ({ p with org := some o1 }.callback .next (Res.answer bs).text), newest := s.newest + 1 }, _, ?_,
    List.getElem?_set_self hi, rfl, ?_, rfl⟩
  · simp only [Site.step, hp, ho, hn, Option.isSome_some, and_self, if_true, Site.onNext, Page.runOnce_shows ho ha (.inl rfl), ok_bind]
    rfl
  · simp only [Page.callback, if_neg answer_not_false, hn]

/-- A timer of a box without lines that comes to an answer. -/
theorem timer_step {fuel i : Nat} {s : Site} {p : Page} {o o1 bs c} (hp : s.pages[i]? = some p) (ho : p.org = some o) (hn : p.polls[0]? = some .first)
    (ha : o.getAnswer fuel c.clock = .ok (o1, .answer bs)) :
    ∃ s' p', s.step fuel (.timer i 0 c) = .ok s' ∧ s'.pages[i]? = some p' ∧ p'.org = some o1 ∧ p'.nextOn = true ∧ p'.lines = p.lines ++ [(Res.answer bs).text] := by
  have hi := (List.getElem?_eq_some_iff.1 hp).1
  refine ⟨{ s with pages := s.pages.set i ({ p with polls := p.polls.eraseIdx 0, org := some o1 }.callback .first (Res.answer bs).text) }, _, ?_,
    List.getElem?_set_self hi, rfl, ?_, rfl⟩
  · simp only [Site.step, hp, hn, Page.runOnce_shows (p := { p with polls := p.polls.eraseIdx 0 }) ho ha (.inl rfl), ok_bind]
    rfl
  · simp only [Page.callback, if_neg answer_not_false]

/-- Clicks on "Next" show one report after the other. -/
theorem next_steps {fuel i k : Nat} : ∀ {calls : List Call} {s : Site} {p : Page} {o o' k0 ts}, (∀ c ∈ calls, List.replicate k false <+: c.clock) → k0 ≤ k →
    s.pages[i]? = some p → p.org = some o → p.nextOn = true → o.iterate fuel k0 = .ok (o', ts) → (∀ r ∈ reports ts, ∃ bs, r = .answer bs) → calls.length = (reports ts).length →
    ∃ s' p', s.steps fuel (calls.map (.next i)) = .ok s' ∧ s'.pages[i]? = some p' ∧ p'.lines = p.lines ++ (reports ts).map Res.text
  | [], s, p, _, _, _, _, _, _, hp, _, _, _, _, hl => ⟨s, p, rfl, hp, by rw [List.length_eq_zero_iff.1 hl.symm]; simp⟩
  | c :: calls, s, p, o, o', k0, ts, hc, hk, hp, ho, hn, hi, hr, hl => by
    cases hts : reports ts with
    | nil => rw [hts] at hl; cases hl
    | cons r rest =>
      obtain ⟨o1, k1, ts1, a1, a2, a3, a4⟩ := getAnswer_report hi hts hk (hc c (.head _))
      obtain ⟨bs, rfl⟩ := hr r (by rw [hts]; exact .head _)
      obtain ⟨s1, p1, b1, b2, b3, b4, b5⟩ := next_step hp ho hn a1
      obtain ⟨s', p', c1, c2, c3⟩ := next_steps (calls := calls) (fun c h => hc c (.tail _ h)) (Nat.le_trans a4 hk) b2 b3 b4 a2
        (fun r h => hr r (by rw [hts, ← a3]; exact .tail _ h)) (by rw [hts] at hl; rw [a3]; simpa using hl)
      refine ⟨s', p', ?_, c2, by rw [c3, b5, a3]; simp⟩
      simp only [List.map_cons, Site.steps, b1, ok_bind, c1]

/-- Breadth-first resolution finds every solution after a number of turns that is known beforehand, or ends before. -/
theorem SRun.soon {p atoms} (hb : OnlyClauses p atoms) (hne : atoms ≠ []) {ρ} (hs : Solves (inForce p) atoms ρ) :
    ∃ N, ∀ rs items, SRun (inForce p) [.goals (atoms.map (.goal ·.fv)) (Insts.query atoms)] rs items → N ≤ rs.length ∨ items = [] → ∃ S gs, some (.answer S) ∈ rs ∧ S ρ gs := by
  obtain ⟨n, hd⟩ := hs.derives hb
  have hpos : 1 ≤ n + (0 + 0) := by
    rcases Nat.eq_zero_or_pos (n + (0 + 0)) with h0 | h0
    · exact absurd (List.map_eq_nil_iff.1 (hd.zero h0)) hne
    · exact h0
  obtain ⟨m, hm⟩ : ∃ m, depth n (0 + 0) = m + 1 := ⟨depth n (0 + 0) - 1, by have := depth_pos hpos; omega⟩
  have hl : (SItem.goals (atoms.map (.goal ·.fv)) (Insts.query atoms)).LeadsIn (inForce p) ρ 0 (m + 1) :=
    ⟨_, n, 0, 0, rfl, hd, by rw [inst_fvs, calls_goals], hpos, by rw [leaves_goals, hm], Nat.le_refl _⟩
  have hA : AtMost (inForce p).length (inForce p) := fun f => List.length_filter_le _ _
  refine ⟨costs (inForce p).length (m + 1) [.goals (atoms.map (.goal ·.fv)) (Insts.query atoms)] + costs (inForce p).length m [], fun rs items h hk => ?_⟩
  rcases h.finds hA (by have := hA.two; omega) inForce_own (q2 := []) (List.append_nil _).symm (.inl ⟨_, .head _, hl⟩) hk with h | ⟨h, _⟩
  · exact h
  · cases h

theorem onlyAnswers {st atoms fuel} {ts : List Org.Turn} {rs : List (Option Rep)} (h : List.Forall₂ (Says st atoms fuel) ts rs) (hn : ∀ e, some (.error e) ∉ rs) :
    ∀ r ∈ reports ts, ∃ bs, r = .answer bs := by
  intro r hr
  obtain ⟨rep, h1, h2⟩ := forall₂_of_mem (Says.meets h) hr
  cases h2 with
  | answer => exact ⟨_, rfl⟩
  | error => exact absurd (by simpa using h1) (hn _)

theorem onlyClauses_noError {p atoms rs items} (hb : OnlyClauses p atoms) (h : SRun (inForce p) [.goals (atoms.map (.goal ·.fv)) (Insts.query atoms)] rs items) :
    ∀ e, some (.error e) ∉ rs :=
  h.noError hb.inForce (by
    intro i hi f hf
    rw [List.mem_singleton.1 hi] at hf
    simp only [SItem.Calls, calls_goals] at hf
    obtain ⟨a, ha, rfl⟩ := List.mem_map.1 hf
    exact hb.1 a ha)

/-- If the solution is found, then there is an answer that shows it. -/
theorem found_line {o : Org} {p atoms fuel ts rs items} (h : Asked o p atoms) (hpr : Printable o.st) (hw : HasTexts (inForce p) atoms)
    (h1 : SRun (inForce p) [.goals (atoms.map (.goal ·.fv)) (Insts.query atoms)] rs items) (h2 : List.Forall₂ (Says o.st atoms fuel) ts rs) {ρ}
    (hf : ∃ S gs, some (.answer S) ∈ rs ∧ S ρ gs) : ∃ r ∈ reports ts, Line atoms ρ r.text := by
  obtain ⟨S, gs, hS, hs⟩ := hf
  obtain ⟨r, hr, h5⟩ := forall₂_of_mem' (Says.meets h2) (y := .answer S) (by simpa using hS)
  cases h5 with
  | answer h5 => exact ⟨_, hr, h5.line hpr h.stOK (fun ρ gs hs => hw ρ (h1.enough (by simpa using enough_query) S hS ρ gs hs)) hs⟩

/-- **C80, soon**: for every solution there is a number, known beforehand, such that a box with so many lines, or with "false", has a line for the solution, whatever happens on the page. -/
theorem C80_soon {cs q} (hb : OnlyClauses cs q) (hw : HasTexts (inForce cs) q) {ρ} (hs : Solves (inForce cs) q ρ) :
    ∃ N, ∀ {fuel : Nat} {es : List Event} {s : Site}, Ample es → ProperRuns es → Site.empty.steps fuel es = .ok s →
      ∀ p ∈ s.pages, ∃ ord program c, Event.run ord program p.query c ∈ es ∧ (Readable program p.query cs q →
        N ≤ (p.lines.filter (· ≠ n!"Soft memory limit reached. Please close some results.")).length ∨ n!"false" ∈ p.lines → ∃ l ∈ p.lines, Line q ρ l) := by
  by_cases hne : q = []
  · refine ⟨0, fun {fuel es s} ha ho h p hp => ?_⟩
    obtain ⟨ord, program, c, o0, o, h1, h2, _, _⟩ := C50_lines_show_search ha h p hp
    exact ⟨ord, program, c, h1, fun hr => absurd hne (h2.asked (ho _ _ _ _ h1) hr).1.ne⟩
  · obtain ⟨N, hN⟩ := SRun.soon hb hne hs
    refine ⟨N, fun {fuel es s} ha ho h p hp => ?_⟩
    obtain ⟨ord, program, c, o0, o, h1, h2, _, ts, k, h3, h4, h5⟩ := C50_lines_show_search ha h p hp
    refine ⟨ord, program, c, h1, fun hr hl => ?_⟩
    obtain ⟨a1, a2⟩ := h2.asked (ho _ _ _ _ h1) hr
    obtain ⟨items, rs, b1, b2, b3⟩ := C42_breadth_first_resolution_partial a1 h3
    have hlen : ts.length = rs.length := b2.length_eq
    have hk : k ≠ 0 → items = [] := fun hk => by
      rw [h4 hk] at b3
      exact List.length_eq_zero_iff.1 b3
    obtain ⟨r, c1, c2⟩ := found_line a1 a2 hw b1 b2 (hN _ _ b1 (by
      by_cases h0 : k = 0
      · subst h0
        left
        rw [List.replicate_zero, List.append_nil] at h5
        rcases hl with hl | hl
        · rw [h5, List.length_map] at hl
          have := reports_length ts
          omega
        · have : n!"false" ∈ p.lines.filter (· ≠ n!"Soft memory limit reached. Please close some results.") := List.mem_filter.2 ⟨hl, by decide⟩
          rw [h5] at this
          obtain ⟨r, hr, h6⟩ := List.mem_map.1 this
          obtain ⟨bs, rfl⟩ := onlyAnswers b2 (onlyClauses_noError hb b1) r hr
          exact absurd h6 answer_not_false
      · exact .inr (hk h0)))
    have : r.text ∈ p.lines.filter (· ≠ n!"Soft memory limit reached. Please close some results.") := by
      rw [h5]; exact List.mem_append_left _ (List.mem_map_of_mem c1)
    exact ⟨_, (List.mem_filter.1 this).1, c2⟩

/-- **C80, clicks**: in every open box, after whatever has happened on the page, every solution of the query can be got to by clicking "Next" often enough, if there is enough time each time; the
lines that are there stay.  (For programs with modes, as in C57, so that no unification runs forever.) -/
theorem C80_clicks {fuel : Nat} {es : List Event} {s : Site} (ha : Ample es) (ho : ProperRuns es) (h : Site.empty.steps fuel es = .ok s) {i p} (hp : s.pages[i]? = some p)
    (hopen : p.org ≠ none) :
    ∃ ord program c, Event.run ord program p.query c ∈ es ∧ ∀ cs q M ρ, Readable program p.query cs q → HasTexts (inForce cs) q → OnlyClauses cs q → WellModed M cs q →
      Solves (inForce cs) q ρ → ∃ fuel0 m k, ∀ fuel', fuel0 ≤ fuel' → ∀ calls : List Call, calls.length = m → (∀ c ∈ calls, List.replicate k false <+: c.clock) →
        ∃ s' p', s.steps fuel' (clicks i p calls) = .ok s' ∧ s'.pages[i]? = some p' ∧ p.lines <+: p'.lines ∧ ∃ l ∈ p'.lines, Line q ρ l := by
  obtain ⟨ord, program, c, o0, o, h1, h2, h2', ts, k, h3, h4, h5⟩ := C50_lines_show_search ha h p (List.mem_of_getElem? hp)
  have horg : p.org = some o := h2'.resolve_left hopen
  refine ⟨ord, program, c, h1, fun cs q M ρ hr hw hb hM hs => ?_⟩
  obtain ⟨a1, a2⟩ := h2.asked (ho _ _ _ _ h1) hr
  obtain ⟨N, hN⟩ := SRun.soon hb a1.ne hs
  obtain ⟨f0, oE, tsE, items, rs, e1, e2, b1, b2, b3⟩ := C57_search a1 a2 hM hb.noArith.notCalled (ts.length + N)
  obtain ⟨r, c1, c2⟩ := found_line a1 a2 hw b1 b2 (hN _ _ b1 (by
    have := b2.length_eq
    rcases e2 with e2 | e2
    · left; omega
    · right; rw [e2] at b3; exact List.length_eq_zero_iff.1 b3))
  have only := onlyAnswers b2 (onlyClauses_noError hb b1)
  have hfuel : ∀ fuel', max fuel f0 ≤ fuel' → ∃ ts2, o.iterate fuel' N = .ok (oE, ts2) ∧ tsE = ts ++ ts2 := by
    intro fuel' hf
    have x1 := e1 fuel' (by omega)
    have x2 : o0.iterate fuel' ts.length = .ok (o, ts) := by
      rw [Org.iterate_fuel (n := fuel) (by omega) _ _ (by rw [h3]; simp), h3]
    rw [iterate_add, x2, ok_bind, bind_ok] at x1
    obtain ⟨⟨o2, ts2⟩, y1, y2⟩ := x1
    simp only [pure_ok, Prod.mk.injEq] at y2
    exact ⟨ts2, by rw [y1, y2.1], y2.2.symm⟩
  obtain ⟨ts2, -, hts⟩ := hfuel _ (Nat.le_refl _)
  subst hts
  rw [reports_append] at c1 only
  refine ⟨max fuel f0, (reports ts2).length, N, fun fuel' hf calls hl hc => ?_⟩
  obtain ⟨ts3, g1, g2⟩ := hfuel fuel' hf
  obtain rfl := List.append_cancel_left g2
  have done : ∀ {s' : Site} {p' : Page}, s.steps fuel' (clicks i p calls) = .ok s' → s'.pages[i]? = some p' → p'.lines = p.lines ++ (reports ts2).map Res.text →
      ∃ s' p', s.steps fuel' (clicks i p calls) = .ok s' ∧ s'.pages[i]? = some p' ∧ p.lines <+: p'.lines ∧ ∃ l ∈ p'.lines, Line q ρ l := by
    intro s' p' x1 x2 x3
    refine ⟨s', p', x1, x2, by rw [x3]; exact List.prefix_append _ _, r.text, ?_, c2⟩
    rw [x3]
    rcases List.mem_append.1 c1 with c1 | c1
    · have : r.text ∈ p.lines.filter (· ≠ n!"Soft memory limit reached. Please close some results.") := by
        rw [h5]; exact List.mem_append_left _ (List.mem_map_of_mem c1)
      exact List.mem_append_left _ (List.mem_filter.1 this).1
    · exact List.mem_append_right _ (List.mem_map_of_mem c1)
  cases calls with
  | nil => exact done (s' := s) rfl hp (by rw [List.length_eq_zero_iff.1 hl.symm]; simp)
  | cons c0 calls =>
    have hq : o.queue ≠ [] := by
      intro hq
      rw [iterate_done hq] at g1
      cases g1
      cases hl
    have hk : k = 0 := Classical.byContradiction fun hk => hq (h4 hk)
    subst hk
    rw [List.replicate_zero, List.append_nil] at h5
    by_cases h0 : p.lines = []
    · have hpoll : p.polls[0]? = some .first := by
        rcases (tidy_inv fuel).pages (fun _ _ => trivial) h p (List.mem_of_getElem? hp) with ⟨_, _, _, x | x⟩ | ⟨x, _⟩
        · rw [x]; rfl
        · exact absurd x hopen
        · exact absurd h0 x
      cases hts : reports ts2 with
      | nil => rw [hts] at hl; cases hl
      | cons r1 rest =>
        obtain ⟨o1, k1, ts1, x1, x2, x3, x4⟩ := getAnswer_report g1 hts (Nat.le_refl _) (hc c0 (.head _))
        obtain ⟨bs, rfl⟩ := only r1 (List.mem_append_right _ (by rw [hts]; exact .head _))
        obtain ⟨s1, p1, y1, y2, y3, y4, y5⟩ := timer_step hp horg hpoll x1
        obtain ⟨s', p', z1, z2, z3⟩ := next_steps (calls := calls) (fun c h => hc c (.tail _ h)) x4 y2 y3 y4 x2
          (fun r h => only r (List.mem_append_right _ (by rw [hts, ← x3]; exact .tail _ h))) (by rw [hts] at hl; rw [x3]; simpa using hl)
        exact done (s' := s') (by simp only [clicks, h0, if_true, Site.steps, y1, ok_bind, z1]) z2 (by rw [z3, y5, x3, hts]; simp)
    · have hn : p.nextOn = true := by
        refine ((C51_buttons h p (List.mem_of_getElem? hp)).1).2 ⟨h0, fun hf => ?_⟩
        have : n!"false" ∈ p.lines.filter (· ≠ n!"Soft memory limit reached. Please close some results.") := List.mem_filter.2 ⟨hf, by decide⟩
        rw [h5] at this
        obtain ⟨r, hr, h6⟩ := List.mem_map.1 this
        obtain ⟨bs, rfl⟩ := only r (List.mem_append_left _ hr)
        exact answer_not_false h6
      obtain ⟨s', p', z1, z2, z3⟩ := next_steps (calls := c0 :: calls) hc (Nat.le_refl _) hp horg hn g1 (fun r h => only r (List.mem_append_right _ h)) hl
      exact done (s' := s') (by simpa only [clicks, h0, if_false, List.map_cons] using z1) z2 z3

/-! ## A concrete case -/

namespace PatienceExample
open LinearExamples SoundExamples

def text : List Char := n!"nat(z). nat(s(X)) :- nat(X)."
def goal : List Node := [.fn n!"nat" [.var n!"A"]]

/-- `s(...s(z)...)` -/
def num : Nat → Tree
  | 0 => .cons n!"z"
  | n + 1 => .fn n!"s" [num n]

def numText : Nat → Name
  | 0 => n!"z"
  | n + 1 => n!"s(" ++ numText n ++ n!")"

theorem num_text : ∀ n, Text (num n) (numText n)
  | 0 => .cons
  | n + 1 => by
    refine Text.fn (f := n!"s") (ts := [num n]) (ss := [numText n]) (by decide) (by simp) rfl fun i t s ht hs => ?_
    cases i with
    | zero => cases ht; cases hs; exact num_text n
    | succ i => cases ht

/-- The solutions. -/
theorem solutions (ρ) : Solves (inForce nat) goal ρ ↔ ∃ n, ρ n!"A" = (num n).fold itreeAlg := by
  have e : inForce nat = nat ++ appendClauses := rfl
  constructor
  · intro h
    have inv : ∀ {g}, Proves itreeAlg (inForce nat) g → g.name = n!"nat" → ∃ n, g.args = [(num n).fold itreeAlg] := by
      intro g h
      induction h with
      | @clause c ρ hc _ ih =>
        rw [e] at hc
        simp only [nat, appendClauses, List.cons_append, List.nil_append, List.mem_cons, List.not_mem_nil, or_false] at hc
        rcases hc with rfl | rfl | rfl | rfl
        · exact fun _ => ⟨0, rfl⟩
        · intro _
          obtain ⟨n, hn⟩ := ih _ (.head _) rfl
          simp only [Node.inst, Node.children, Node.evals, Node.eval, List.cons.injEq, and_true] at hn
          exact ⟨n + 1, by simp [Node.inst, Node.children, Node.evals, Node.eval, hn, num, Tree.fold, Tree.folds]⟩
        · simp [Node.inst, Node.name]
        · simp [Node.inst, Node.name]
      | eq => simp
      | neq => simp
      | is => simp
    obtain ⟨n, hn⟩ := inv (h _ (.head _)) rfl
    exact ⟨n, by simpa [Node.inst, Node.children, Node.evals, Node.eval] using hn⟩
  · rintro ⟨n, hn⟩ a ha
    obtain rfl := List.mem_singleton.1 ha
    have : ∀ n, Proves itreeAlg (inForce nat) ⟨n!"nat", [(num n).fold itreeAlg]⟩ := by
      intro n
      induction n with
      | zero =>
        have := Proves.clause (A := itreeAlg) (P := inForce nat) (ρ := fun _ => itreeAlg.int 0) (c := ⟨.fn n!"nat" [.cons n!"z"], []⟩) (by rw [e]; simp [nat]) (by simp)
        simpa [Node.inst, Node.name, Node.children, Node.evals, Node.eval, num, Tree.fold] using this
      | succ n ih =>
        have := Proves.clause (A := itreeAlg) (P := inForce nat) (ρ := fun _ => (num n).fold itreeAlg)
          (c := ⟨.fn n!"nat" [.fn n!"s" [.var n!"X"]], [.fn n!"nat" [.var n!"X"]]⟩) (by rw [e]; simp [nat]) (by
            intro b hb
            obtain rfl := List.mem_singleton.1 hb
            exact ih)
        simpa [Node.inst, Node.name, Node.children, Node.evals, Node.eval, num, Tree.fold, Tree.folds] using this
    simpa [Node.inst, Node.name, Node.children, Node.evals, Node.eval, hn] using this n

theorem inGoal {x} : InQuery goal x ↔ x = n!"A" := by
  simp [InQuery, goal, Node.children, Node.varss, Node.vars]

theorem hasTexts : HasTexts (inForce nat) goal := by
  intro ρ h x hx
  rw [inGoal.1 hx]
  obtain ⟨n, hn⟩ := (solutions ρ).1 h
  exact ⟨_, _, hn, num_text n⟩

theorem readable : Readable text n!"nat(A)" nat goal :=
  ⟨C41_program_text.1 (by decide +kernel), C41_query_text.1 (by decide +kernel), safe_of_b (by decide +kernel), by decide⟩

theorem line {ρ l n} (hn : ρ n!"A" = (num n).fold itreeAlg) (h : Line goal ρ l) : l = n!"[A / " ++ numText n ++ n!"]" := by
  obtain ⟨bs, h1, h2, h3, _, h5⟩ := h
  have hA : ∀ b ∈ bs, b.1 = n!"A" ∧ b.2 = numText n := by
    intro b hb
    have e : b.1 = n!"A" := inGoal.1 ((h2 _).1 (List.mem_map_of_mem hb))
    obtain ⟨u, hu, ht⟩ := h3 b hb
    rw [e, hn] at hu
    rw [← Tree.fold_inj hu] at ht
    exact ⟨e, ht.det (num_text n)⟩
  have hne : bs ≠ [] := by
    rintro rfl
    exact absurd ((h2 n!"A").2 (inGoal.2 rfl)) (by simp)
  rw [h5 hne]
  match bs, h1, hA with
  | [], _, _ => exact absurd rfl hne
  | [(x, s)], _, hA =>
    obtain ⟨rfl, rfl⟩ := hA _ (.head _)
    simp
  | a :: b :: bs, h1, hA =>
    have e1 := (hA a (.head _)).1
    have e2 := (hA b (.tail _ (.head _))).1
    simp [e1, e2] at h1

/-- A box without lines: time has run out at once. -/
def started : List Event := [.run id text n!"nat(A)" ⟨[true], false, false⟩]

theorem started_run : (Site.empty.steps 0 started).toOption.map (fun s => s.pages.map (fun p => (p.query, p.lines, p.org.isSome))) = some [(n!"nat(A)", [], true)] := by decide +kernel

theorem started_ample : Ample started := by
  intro e he c hc
  simp only [started, List.mem_cons, List.not_mem_nil, or_false] at he
  subst he
  simp [Event.call?] at hc
  subst hc
  rfl

theorem started_proper : ProperRuns started := by
  intro ord program query c h
  simp only [started, List.mem_cons, List.not_mem_nil, or_false] at h
  cases h
  exact HashOrder.id_ok

end PatienceExample

open LinearExamples PatienceExample in
/-- **C80**, an example with infinitely many solutions: clicking long enough one gets to every number. -/
theorem C80_numerals (n : Nat) : ∃ s, Site.empty.steps 0 started = .ok s ∧ ∃ fuel0 m k, ∀ fuel, fuel0 ≤ fuel → ∀ p, s.pages[0]? = some p → ∀ calls : List Call, calls.length = m →
    (∀ c ∈ calls, List.replicate k false <+: c.clock) →
    ∃ s' p', s.steps fuel (clicks 0 p calls) = .ok s' ∧ s'.pages[0]? = some p' ∧ n!"[A / " ++ numText n ++ n!"]" ∈ p'.lines := by
  have h := started_run
  cases hs : Site.empty.steps 0 started with
  | error => rw [hs] at h; cases h
  | ok s =>
    rw [hs] at h
    simp only [Except.toOption, Option.map_some, Option.some.injEq] at h
    refine ⟨s, rfl, ?_⟩
    obtain ⟨p, hp, h1⟩ := List.map_eq_singleton_iff.1 h
    simp only [Prod.mk.injEq] at h1
    obtain ⟨hq, hl, ho⟩ := h1
    have hp0 : s.pages[0]? = some p := by rw [hp]; rfl
    obtain ⟨ord, program, c, a1, a2⟩ := C80_clicks started_ample started_proper hs hp0 (by intro h; rw [h] at ho; cases ho)
    simp only [started, List.mem_singleton, Event.run.injEq] at a1
    obtain ⟨rfl, rfl, _, rfl⟩ := a1
    obtain ⟨fuel0, m, k, a3⟩ := a2 nat goal .none (fun _ => (num n).fold itreeAlg) (by rw [hq]; exact readable) hasTexts ⟨by decide, by decide⟩
      (NoRepeats.moded (.of [⟨n!"nat", 1⟩] (by decide) (by decide))) ((solutions _).2 ⟨n, rfl⟩)
    refine ⟨fuel0, m, k, fun fuel hf p' hp' calls h1 h2 => ?_⟩
    obtain rfl : p = p' := by rw [hp0] at hp'; cases hp'; rfl
    obtain ⟨s', p', b1, b2, _, l, b3, b4⟩ := a3 fuel hf calls h1 h2
    exact ⟨s', p', b1, b2, by rw [← line rfl b4]; exact b3⟩

end PBfs
