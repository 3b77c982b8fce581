import Verif.Props.Patience
import Verif.Props.Acceptable
/-! # Boxes that come to "false": C81 -/
namespace PBfs
open Org

theorem getAnswer_done {fuel : Nat} {o : Org} {clock} (hq : o.queue = []) : o.getAnswer fuel clock = .ok (o, .noAnswer) := by
  unfold getAnswer
  split
  · rfl
  · rename_i h'; rw [hq] at h'; cases h'

/-- A call of `get_answer` with enough time says that there are no more answers if the search has none. -/
theorem getAnswer_none {fuel k : Nat} : ∀ {k0 : Nat} {o o' : Org} {ts clock}, o.iterate fuel k0 = .ok (o', ts) → reports ts = [] → o'.queue = [] → k0 ≤ k →
    List.replicate k false <+: clock → o.getAnswer fuel clock = .ok (o', .noAnswer) := by
  intro k0
  induction k0 generalizing k with
  | zero =>
    intro o o' ts clock h _ hq _ _
    simp only [Org.iterate, pure_ok, Prod.mk.injEq] at h
    rw [h.1]
    exact getAnswer_done hq
  | succ k0 ih =>
    intro o o' ts clock h hb hq' h0 hc
    obtain ⟨k, rfl⟩ : ∃ x, k = x + 1 := ⟨k - 1, by omega⟩
    rw [List.replicate_succ] at hc
    obtain ⟨clock, rfl⟩ : ∃ x, clock = false :: x := by
      obtain ⟨x, hx⟩ := hc
      exact ⟨_, by rw [← hx]; rfl⟩
    have hc := (List.cons_prefix_cons.1 hc).2
    unfold Org.iterate at h
    split at h
    · rename_i hq
      simp only [pure_ok, Prod.mk.injEq] at h
      rw [h.1]
      exact getAnswer_done hq'
    · rename_i id q hq
      simp only [bind_ok, pure_ok, Prod.mk.injEq] at h
      obtain ⟨⟨o1, t⟩, h1, ⟨o2, ts2⟩, h2, rfl, rfl⟩ := h
      cases t with
      | «continue» =>
        have hget : o.getAnswer fuel (false :: clock) = o1.getAnswer fuel clock := by
          conv => lhs; unfold Org.getAnswer
          simp only [hq, h1, ok_bind]
        rw [hget]
        exact ih (k := k) h2 hb hq' (by omega) hc
      | answer bs => cases hb
      | error e => cases hb

/-- A click on "Next" that finds the search at its end. -/
theorem next_false {fuel i : Nat} {s : Site} {p : Page} {o o1 c} (hp : s.pages[i]? = some p) (ho : p.org = some o) (hn : p.nextOn = true)
    (ha : o.getAnswer fuel c.clock = .ok (o1, .noAnswer)) :
    ∃ s' p', s.step fuel (.next i c) = .ok s' ∧ s'.pages[i]? = some p' ∧ p'.nextOn = false ∧ p'.lines = p.lines ++ [n!"false"] := by
  have hi := (List.getElem?_eq_some_iff.1 hp).1
  refine ⟨{ s with pages := s.pages.set i ({ p with org := some o1 }.callback .next Res.noAnswer.text), newest := s.newest + 1 }, _, ?_,
    List.getElem?_set_self hi, ?_, rfl⟩
  · simp only [Site.step, hp, ho, hn, Option.isSome_some, and_self, if_true, Site.onNext, Page.runOnce_shows ho ha (.inr rfl), ok_bind]
    rfl
  · rfl

/-- A timer of a box without lines that finds the search at its end. -/
theorem timer_false {fuel i : Nat} {s : Site} {p : Page} {o o1 c} (hp : s.pages[i]? = some p) (ho : p.org = some o) (hn : p.polls[0]? = some .first) (hx : p.nextOn = false)
    (ha : o.getAnswer fuel c.clock = .ok (o1, .noAnswer)) :
    ∃ s' p', s.step fuel (.timer i 0 c) = .ok s' ∧ s'.pages[i]? = some p' ∧ p'.nextOn = false ∧ p'.lines = p.lines ++ [n!"false"] := by
  have hi := (List.getElem?_eq_some_iff.1 hp).1
  refine ⟨{ s with pages := s.pages.set i ({ p with polls := p.polls.eraseIdx 0, org := some o1 }.callback .first Res.noAnswer.text) }, _, ?_,
    List.getElem?_set_self hi, ?_, rfl⟩
  · simp only [Site.step, hp, hn, Page.runOnce_shows (p := { p with polls := p.polls.eraseIdx 0 }) ho ha (.inr rfl), ok_bind]
    rfl
  · exact hx

/-- Where "Next" cannot be clicked, nothing happens. -/
theorem next_off {fuel i : Nat} {s : Site} {p : Page} (hp : s.pages[i]? = some p) (hn : p.nextOn = false) : ∀ calls : List Call, s.steps fuel (calls.map (.next i)) = .ok s
  | [] => rfl
  | c :: calls => by
    have h1 : s.step fuel (.next i c) = .ok s := by simp [Site.step, hp, hn, pure, Except.pure]
    simp only [List.map_cons, Site.steps, h1, ok_bind, next_off hp hn calls]

/-- Clicks on "Next" show the rest of the reports and then "false". -/
theorem next_ends {fuel i k : Nat} : ∀ {calls : List Call} {s : Site} {p : Page} {o o' k0 ts}, (∀ c ∈ calls, List.replicate k false <+: c.clock) → k0 ≤ k →
    s.pages[i]? = some p → p.org = some o → p.nextOn = true → o.iterate fuel k0 = .ok (o', ts) → o'.queue = [] → (∀ r ∈ reports ts, ∃ bs, r = .answer bs) →
    (reports ts).length < calls.length →
    ∃ s' p', s.steps fuel (calls.map (.next i)) = .ok s' ∧ s'.pages[i]? = some p' ∧ p'.nextOn = false ∧ p'.lines = p.lines ++ (reports ts).map Res.text ++ [n!"false"]
  | [], _, _, _, _, _, _, _, _, _, _, _, _, _, _, hl => by cases hl
  | c :: calls, s, p, o, o', k0, ts, hc, hk, hp, ho, hn, hi, hq, hr, hl => by
    cases hts : reports ts with
    | nil =>
      obtain ⟨s1, p1, b1, b2, b3, b4⟩ := next_false hp ho hn (getAnswer_none hi hts hq hk (hc c (.head _)))
      exact ⟨s1, p1, by simp only [List.map_cons, Site.steps, b1, ok_bind, next_off b2 b3], b2, b3, by simpa using b4⟩
    | cons r rest =>
      obtain ⟨o1, k1, ts1, a1, a2, a3, a4⟩ := getAnswer_report hi hts hk (hc c (.head _))
      obtain ⟨bs, rfl⟩ := hr r (by rw [hts]; exact .head _)
      obtain ⟨s1, p1, b1, b2, b3, b4, b5⟩ := next_step hp ho hn a1
      obtain ⟨s', p', c1, c2, c3, c4⟩ := next_ends (calls := calls) (fun c h => hc c (.tail _ h)) (Nat.le_trans a4 hk) b2 b3 b4 a2 hq
        (fun r h => hr r (by rw [hts, ← a3]; exact .tail _ h)) (by rw [hts] at hl; rw [a3]; simpa using hl)
      refine ⟨s', p', ?_, c2, c3, by rw [c4, b5, a3]; simp⟩
      simp only [List.map_cons, Site.steps, b1, ok_bind, c1]

theorem filter_two (a b : Name) (l : List Name) : l.filter (fun x => x ≠ a ∧ x ≠ b) = (l.filter (· ≠ a)).filter (· ≠ b) := by
  rw [List.filter_filter]
  congr 1
  funext x
  simp [Bool.and_comm]

theorem filter_replicate_self (a : Name) (k : Nat) : (List.replicate k a).filter (· ≠ a) = [] :=
  List.filter_eq_nil_iff.2 fun l hl => by simp [List.eq_of_mem_replicate hl]

/-- **C81, no more**: with a level mapping, no box has more than `enough` lines, apart from "false" and the memory limit, whatever happens on the page. -/
theorem C81_no_more {fuel : Nat} {es : List Event} {s : Site} (ha : Ample es) (ho : ProperRuns es) (h : Site.empty.steps fuel es = .ok s) :
    ∀ p ∈ s.pages, ∃ ord program c, Event.run ord program p.query c ∈ es ∧ ∀ cs q b m n lev I, Readable program p.query cs q → Model (inForce cs) I → Acceptable (inForce cs) lev I →
      Bounded lev I n q → AtMost b (inForce cs) → (∀ c ∈ inForce cs, c.body.length ≤ m) →
      (p.lines.filter (fun l => l ≠ n!"Soft memory limit reached. Please close some results." ∧ l ≠ n!"false")).length ≤ enough b m n q.length := by
  intro p hp
  obtain ⟨ord, program, c, o0, o, h1, h2, _, ts, k, h3, _, h5⟩ := C50_lines_show_search ha h p hp
  refine ⟨ord, program, c, h1, fun cs q b m n lev I hr hI hA hq hb hm => ?_⟩
  obtain ⟨a1, _⟩ := h2.asked (ho _ _ _ _ h1) hr
  have := (C76_bound a1 hI hA hq hb hm h3).1
  have e : p.lines.filter (fun l => l ≠ n!"Soft memory limit reached. Please close some results." ∧ l ≠ n!"false") = ((reports ts).map Res.text).filter (· ≠ n!"false") := by
    rw [filter_two, h5, List.filter_append, filter_replicate_self, List.append_nil]
  rw [e]
  have := List.length_filter_le (· ≠ n!"false") ((reports ts).map Res.text)
  rw [List.length_map] at this
  have := reports_length ts
  omega

/-- Clicks that show the rest of a search without errors, and "false". -/
theorem clicks_end {fuel : Nat} {es : List Event} {s : Site} (h : Site.empty.steps fuel es = .ok s) {i p} (hp : s.pages[i]? = some p) {o oE : Org} {ts ts2 : List Turn} {k n fuel' : Nat}
    (horg : p.org = some o) (h4 : k ≠ 0 → o.queue = [])
    (h5 : p.lines.filter (· ≠ n!"Soft memory limit reached. Please close some results.") = (reports ts).map Res.text ++ List.replicate k n!"false")
    (only : ∀ r ∈ reports ts ++ reports ts2, ∃ bs, r = .answer bs) (g1 : o.iterate fuel' (n + 1) = .ok (oE, ts2)) (hqE : oE.queue = []) (hlen : (reports ts2).length ≤ n)
    {calls : List Call} (hl : n < calls.length) (hc : ∀ c ∈ calls, List.replicate (n + 1) false <+: c.clock) :
    ∃ s' p', s.steps fuel' (clicks i p calls) = .ok s' ∧ s'.pages[i]? = some p' ∧ p.lines <+: p'.lines ∧ n!"false" ∈ p'.lines ∧ p'.nextOn = false ∧
      ∀ r ∈ reports ts ++ reports ts2, r.text ∈ p'.lines := by
  have hopen : p.org ≠ none := by rw [horg]; simp
  have lines : ∀ r ∈ reports ts, r.text ∈ p.lines := by
    intro r hr
    have : r.text ∈ p.lines.filter (· ≠ n!"Soft memory limit reached. Please close some results.") := by
      rw [h5]; exact List.mem_append_left _ (List.mem_map_of_mem hr)
    exact (List.mem_filter.1 this).1
  have done : ∀ {s' : Site} {p' : Page}, s.steps fuel' (clicks i p calls) = .ok s' → s'.pages[i]? = some p' → p'.nextOn = false → p'.lines = p.lines ++ (reports ts2).map Res.text ++ [n!"false"] →
      ∃ s' p', s.steps fuel' (clicks i p calls) = .ok s' ∧ s'.pages[i]? = some p' ∧ p.lines <+: p'.lines ∧ n!"false" ∈ p'.lines ∧ p'.nextOn = false ∧
        ∀ r ∈ reports ts ++ reports ts2, r.text ∈ p'.lines := by
    intro s' p' x1 x2 x3 x4
    refine ⟨s', p', x1, x2, by rw [x4, List.append_assoc]; exact List.prefix_append _ _, by rw [x4]; simp, x3, fun r c1 => ?_⟩
    rw [x4]
    rcases List.mem_append.1 c1 with c1 | c1
    · exact List.mem_append_left _ (List.mem_append_left _ (lines r c1))
    · exact List.mem_append_left _ (List.mem_append_right _ (List.mem_map_of_mem c1))
  by_cases hfalse : n!"false" ∈ p.lines
  · have hne : p.lines ≠ [] := by intro h0; rw [h0] at hfalse; cases hfalse
    have hoff : p.nextOn = false := by
      cases hx : p.nextOn with
      | false => rfl
      | true => exact absurd hfalse ((C51_buttons h p (List.mem_of_getElem? hp)).1.1 hx).2
    have hk : k ≠ 0 := by
      intro hk
      have : n!"false" ∈ p.lines.filter (· ≠ n!"Soft memory limit reached. Please close some results.") := List.mem_filter.2 ⟨hfalse, by decide⟩
      rw [h5, hk, List.replicate_zero, List.append_nil] at this
      obtain ⟨r, hr, h6⟩ := List.mem_map.1 this
      obtain ⟨bs, rfl⟩ := only r (List.mem_append_left _ hr)
      exact answer_not_false h6
    have hts2 : ts2 = [] := by
      rw [iterate_done (h4 hk)] at g1
      cases g1; rfl
    subst hts2
    refine ⟨s, p, ?_, hp, List.prefix_refl _, hfalse, hoff, fun r c1 => ?_⟩
    · cases calls with
      | nil => rfl
      | cons c0 calls => simpa only [clicks, hne, if_false, List.map_cons] using next_off hp hoff (c0 :: calls)
    · simp only [reports, List.append_nil] at c1
      exact lines r c1
  · cases calls with
    | nil => cases hl
    | cons c0 calls =>
      by_cases h0 : p.lines = []
      · obtain ⟨hpoll, hoff⟩ : p.polls[0]? = some .first ∧ p.nextOn = false := by
          rcases (tidy_inv fuel).pages (fun _ _ => trivial) h p (List.mem_of_getElem? hp) with ⟨_, x0, _, x | x⟩ | ⟨x, _⟩
          · exact ⟨by rw [x]; rfl, by simpa using x0⟩
          · exact absurd x hopen
          · exact absurd h0 x
        cases hts : reports ts2 with
        | nil =>
          obtain ⟨s1, p1, y1, y2, y3, y4⟩ := timer_false hp horg hpoll hoff (getAnswer_none g1 hts hqE (Nat.le_refl _) (hc c0 (.head _)))
          rw [← hts]
          exact done (s' := s1) (by simp only [clicks, h0, if_true, Site.steps, y1, ok_bind, next_off y2 y3]) y2 y3 (by rw [y4, hts]; simp)
        | cons r1 rest =>
          obtain ⟨o1, k1, ts1, x1, x2, x3, x4⟩ := getAnswer_report g1 hts (Nat.le_refl _) (hc c0 (.head _))
          obtain ⟨bs, rfl⟩ := only r1 (List.mem_append_right _ (by rw [hts]; exact .head _))
          obtain ⟨s1, p1, y1, y2, y3, y4, y5⟩ := timer_step hp horg hpoll x1
          obtain ⟨s', p', z1, z2, z3, z4⟩ := next_ends (calls := calls) (fun c h => hc c (.tail _ h)) x4 y2 y3 y4 x2 hqE
            (fun r h => only r (List.mem_append_right _ (by rw [hts, ← x3]; exact .tail _ h))) (by
              rw [hts] at hlen; rw [x3]; simp only [List.length_cons] at hlen hl; omega)
          rw [← hts]
          exact done (s' := s') (by simp only [clicks, h0, if_true, Site.steps, y1, ok_bind, z1]) z2 z3 (by rw [z4, y5, x3, hts]; simp)
      · have hn : p.nextOn = true := (C51_buttons h p (List.mem_of_getElem? hp)).1.2 ⟨h0, hfalse⟩
        obtain ⟨s', p', z1, z2, z3, z4⟩ := next_ends (calls := c0 :: calls) hc (Nat.le_refl _) hp horg hn g1 hqE (fun r h => only r (List.mem_append_right _ h)) (by omega)
        exact done (s' := s') (by simpa only [clicks, h0, if_false, List.map_cons] using z1) z2 z3 z4

/-- **C81, clicks**: in every open box, after whatever has happened on the page, clicking "Next" leads to "false" after no more than `enough` + 1 clicks, if there is time for `enough` + 1
iterations each time; then "Next" cannot be clicked any more, and there is a line for every solution. -/
theorem C81_clicks {fuel : Nat} {es : List Event} {s : Site} (ha : Ample es) (ho : ProperRuns es) (h : Site.empty.steps fuel es = .ok s) {i p} (hp : s.pages[i]? = some p)
    (hopen : p.org ≠ none) :
    ∃ ord program c, Event.run ord program p.query c ∈ es ∧ ∀ cs q M b m n lev I, Readable program p.query cs q → OnlyClauses cs q → WellModed M cs q → Model (inForce cs) I →
      Acceptable (inForce cs) lev I → Bounded lev I n q → AtMost b (inForce cs) → (∀ c ∈ inForce cs, c.body.length ≤ m) →
      ∃ fuel0, ∀ fuel', fuel0 ≤ fuel' → ∀ calls : List Call, enough b m n q.length < calls.length → (∀ c ∈ calls, List.replicate (enough b m n q.length + 1) false <+: c.clock) →
        ∃ s' p', s.steps fuel' (clicks i p calls) = .ok s' ∧ s'.pages[i]? = some p' ∧ p.lines <+: p'.lines ∧ n!"false" ∈ p'.lines ∧ p'.nextOn = false ∧
          (HasTexts (inForce cs) q → ∀ ρ, Solves (inForce cs) q ρ → ∃ l ∈ p'.lines, Line q ρ l) := by
  obtain ⟨ord, program, c, o0, o, h1, h2, h2', ts, k, h3, h4, h5⟩ := C50_lines_show_search ha h p (List.mem_of_getElem? hp)
  have horg : p.org = some o := h2'.resolve_left hopen
  refine ⟨ord, program, c, h1, fun cs q M b m n lev I hr hb hM hI hA hq hbb hm => ?_⟩
  obtain ⟨a1, a2⟩ := h2.asked (ho _ _ _ _ h1) hr
  obtain ⟨f0, oE, tsE, items, rs, e1, _, b1, b2, b3⟩ := C57_search a1 a2 hM hb.noArith.notCalled (ts.length + (enough b m n q.length + 1))
  have hbound := C76_bound a1 hI hA hq hbb hm (e1 f0 (Nat.le_refl _))
  have hqE : oE.queue = [] := hbound.2 (by omega)
  obtain rfl : items = [] := by rw [hqE] at b3; exact List.length_eq_zero_iff.1 b3
  have only := onlyAnswers b2 (onlyClauses_noError hb b1)
  have hfuel : ∀ fuel', max fuel f0 ≤ fuel' → ∃ ts2, o.iterate fuel' (enough b m n q.length + 1) = .ok (oE, ts2) ∧ tsE = ts ++ ts2 := by
    intro fuel' hf
    have x1 := e1 fuel' (by omega)
    have x2 : o0.iterate fuel' ts.length = .ok (o, ts) := by
      rw [Org.iterate_fuel (n := fuel) (by omega) _ _ (by rw [h3]; simp), h3]
    rw [iterate_add, x2, ok_bind, bind_ok] at x1
    obtain ⟨⟨o2, ts2⟩, y1, y2⟩ := x1
    simp only [pure_ok, Prod.mk.injEq] at y2
    exact ⟨ts2, by rw [y1, y2.1], y2.2.symm⟩
  obtain ⟨ts2, -, hts⟩ := hfuel _ (Nat.le_refl _)
  subst hts
  have found : HasTexts (inForce cs) q → ∀ ρ, Solves (inForce cs) q ρ → ∃ r ∈ reports ts ++ reports ts2, Line q ρ r.text := by
    intro hw ρ hs
    obtain ⟨N, hN⟩ := SRun.soon hb a1.ne hs
    have := found_line a1 a2 hw b1 b2 (hN _ _ b1 (.inr rfl))
    rwa [reports_append] at this
  have hlen : (reports ts2).length ≤ enough b m n q.length := by
    have := hbound.1
    have := reports_length ts2
    simp only [List.length_append] at *
    omega
  rw [reports_append] at only
  refine ⟨max fuel f0, fun fuel' hf calls hl hc => ?_⟩
  obtain ⟨ts3, g1, g2⟩ := hfuel fuel' hf
  obtain rfl := List.append_cancel_left g2
  obtain ⟨s', p', x1, x2, x3, x4, x5, x6⟩ := clicks_end h hp horg h4 h5 only g1 hqE hlen hl hc
  refine ⟨s', p', x1, x2, x3, x4, x5, fun hw ρ hs => ?_⟩
  obtain ⟨r, c1, c2⟩ := found hw ρ hs
  exact ⟨_, x6 r c1, c2⟩

/-! ## A concrete case -/

namespace EndsExample
open AcceptableExamples ModedExamples EffortExamples SoundExamples

def text : List Char := n!"rev([],[]). rev([X|Xs],Zs) :- rev(Xs,Ys), append(Ys,[X],Zs)."

/-- A box without lines: time has run out at once. -/
def started : List Event := [.run id text n!"rev([a,b],R)" ⟨[true], false, false⟩]

theorem started_run : (Site.empty.steps 0 started).toOption.map (fun s => s.pages.map (fun p => (p.query, p.lines, p.org.isSome))) = some [(n!"rev([a,b],R)", [], true)] := by decide +kernel

theorem started_ample : Ample started := by
  intro e he c hc
  simp only [started, List.mem_cons, List.not_mem_nil, or_false] at he
  subst he
  simp [Event.call?] at hc
  subst hc
  rfl

theorem started_proper : ProperRuns started := by
  intro ord program query c h
  simp only [started, List.mem_cons, List.not_mem_nil, or_false] at h
  cases h
  exact HashOrder.id_ok

theorem readable : Readable text n!"rev([a,b],R)" rev askRev :=
  ⟨C41_program_text.1 (by decide +kernel), C41_query_text.1 (by decide +kernel), safe_of_b (by decide +kernel), by decide⟩

/-- What the clicks of C81 lead to, here with fewer clicks. -/
example : (Site.empty.steps 40 (started ++ [.timer 0 0 ⟨List.replicate 60 false, false, false⟩, .next 0 ⟨List.replicate 60 false, false, false⟩])).toOption.map
    (fun s => s.pages.map (fun p => (p.lines, p.nextOn))) = some [([n!"[R / [b,a]]", n!"false"], false)] := by decide +kernel

end EndsExample

open AcceptableExamples ModedExamples EffortExamples EndsExample in
/-- **C81**, an example: the box for `rev([a,b],R)` comes to "false". -/
theorem C81_reverse : ∃ s, Site.empty.steps 0 started = .ok s ∧ ∃ fuel0, ∀ fuel, fuel0 ≤ fuel → ∀ p, s.pages[0]? = some p → ∀ calls : List Call, enough 2 2 3 1 < calls.length →
    (∀ c ∈ calls, List.replicate (enough 2 2 3 1 + 1) false <+: c.clock) →
    ∃ s' p', s.steps fuel (clicks 0 p calls) = .ok s' ∧ s'.pages[0]? = some p' ∧ n!"false" ∈ p'.lines ∧ p'.nextOn = false := by
  have h := started_run
  cases hs : Site.empty.steps 0 started with
  | error => rw [hs] at h; cases h
  | ok s =>
    rw [hs] at h
    simp only [Except.toOption, Option.map_some, Option.some.injEq] at h
    refine ⟨s, rfl, ?_⟩
    obtain ⟨p, hp, h1⟩ := List.map_eq_singleton_iff.1 h
    simp only [Prod.mk.injEq] at h1
    obtain ⟨hq, hl, ho⟩ := h1
    have hp0 : s.pages[0]? = some p := by rw [hp]; rfl
    obtain ⟨ord, program, c, a1, a2⟩ := C81_clicks started_ample started_proper hs hp0 (by intro h; rw [h] at ho; cases ho)
    simp only [started, List.mem_singleton, Event.run.injEq] at a1
    obtain ⟨rfl, rfl, _, rfl⟩ := a1
    obtain ⟨fuel0, a3⟩ := a2 rev askRev forth 2 2 3 first lengths (by rw [hq]; exact readable) ⟨by decide, by decide⟩
      (.of [⟨n!"rev", 2⟩, ⟨n!"append", 3⟩] ⟨fun _ => rfl, fun _ => rfl, fun _ _ => rfl⟩ (by decide) (by decide) (by decide)) rev_model rev_acceptable (rev_bounded _)
      (atMost_of (by decide +kernel)) (by decide)
    refine ⟨fuel0, fun fuel hf p' hp' calls h1 h2 => ?_⟩
    obtain rfl : p = p' := by rw [hp0] at hp'; cases hp'; rfl
    obtain ⟨s', p', b1, b2, _, b3, b4, _⟩ := a3 fuel hf calls h1 h2
    exact ⟨s', p', b1, b2, b3, b4⟩

end PBfs
