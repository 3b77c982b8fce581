import Verif.Proof.Page
import Verif.Props.Draw
import Verif.Props.Parser
/-! # Properties of the web page: C50 to C53 -/
namespace PBfs
open Org

/-! ## C50 -/

/-- **C50**: every box on the page belongs to a click on "Run", and its lines are what the uninterrupted search for its query reports, from the beginning, in order and
without gaps, however the events are interleaved.  (As long as the memory is not exhausted; the interpreter of the box, unless it is closed, has come exactly this far.) -/
theorem C50_lines_show_search {fuel : Nat} {es : List Event} {s : Site} (ha : Ample es) (h : Site.empty.steps fuel es = .ok s) :
    ∀ p ∈ s.pages, ∃ ord program c o0 o, Event.run ord program p.query c ∈ es ∧ OpenedBy ord program p.query o0 ∧
      (p.org = none ∨ p.org = some o) ∧ ShowsSearch fuel o0 o p.lines := by
  intro p hp
  obtain ⟨ord, program, c, o0, o, h1, h2, _, h3, h4⟩ := (told_inv fuel es).pages (fun e he => ⟨he, ha e he⟩) h p hp
  exact ⟨ord, program, c, o0, o, h1, h2, h3, h4⟩

theorem bindingsStr_intersperse : ∀ bs : List Binding,
    bindingsStr bs = ((bs.map fun b => n!"[" ++ b.name ++ n!" / " ++ b.value ++ n!"]").intersperse n!" ").flatten
  | [] => rfl
  | [b] => by simp [bindingsStr, Binding.str]
  | b :: c :: bs => by
    have := bindingsStr_intersperse (c :: bs)
    simp only [List.map_cons] at this
    simp [bindingsStr, this, Binding.str]

/-- **C50**: what the line for a result looks like. -/
theorem C50_texts (r : Org.Res) : LineFor r r.text := by
  cases r with
  | answer bs =>
    cases bs with
    | nil => rfl
    | cons b bs => exact bindingsStr_intersperse (b :: bs)
  | error e =>
    obtain ⟨k, m⟩ := e
    cases k <;> simp only [LineFor, Org.Res.text, RtErr.explanation]
    · exact ⟨_, _, rfl, by decide⟩
    · exact ⟨_, List.append_assoc ..⟩
  | _ => rfl

example : LineFor (.answer [⟨n!"X", n!"a"⟩, ⟨n!"Y", n!"[1,2]"⟩]) n!"[X / a] [Y / [1,2]]" := rfl

/-- A call of `get_answer` that comes back with something other than "time limit exceeded" leads to exactly one more line. -/
theorem Page.runOnce_shows {fuel : Nat} {c k} {p : Page} {o o' r} (ho : p.org = some o) (hg : o.getAnswer fuel c.clock = .ok (o', r))
    (hr : r.isReport = true ∨ r = .noAnswer) : p.runOnce fuel c k = .ok ({ p with org := some o' }.callback k r.text) := by
  have hg' : o.getAnswerOf fuel c = .ok (o', r) := by
    unfold getAnswerOf
    rw [hg]
    cases r <;> simp [Org.Res.isReport] at hr <;> rfl
  unfold Page.runOnce
  rw [ho]
  simp only [hg', ok_bind]
  cases r with
  | error e =>
    simp only [Org.Res.isReport, reduceCtorEq, or_false] at hr
    have : e.kind ≠ .outOfTime := by simpa using hr
    simp only [this, if_false]; rfl
  | _ => rfl

/-- And a time-out only sets the timer again. -/
theorem Page.runOnce_waits {fuel : Nat} {c k} {p : Page} {o o' e} (ho : p.org = some o) (hg : o.getAnswer fuel c.clock = .ok (o', .error e))
    (he : e.kind = .outOfTime) (hf : c.full = false) : p.runOnce fuel c k = .ok { p with org := some o', polls := p.polls ++ [k] } := by
  have hg' : o.getAnswerOf fuel c = .ok (o', .error e) := by
    unfold getAnswerOf
    rw [hg]; rfl
  unfold Page.runOnce
  rw [ho]
  simp only [hg', ok_bind, he, hf, if_true]; rfl

/-- **C50**: a click on "Run" with acceptable texts opens a box for the query; the other boxes stay as they are. -/
theorem C50_run_opens {fuel : Nat} {s s' : Site} {ord program query c o0 o1 o} (hi : Org.init = .ok o0) (hp : o0.loadProgramText ord program = (o1, .ok))
    (hq : o1.loadQueryText ord query = (o, .ok)) (h : s.step fuel (.run ord program query c) = .ok s') :
    ∃ p, s'.pages = s.pages ++ [p] ∧ p.query = query ∧
      (∀ o' r, o.getAnswer fuel c.clock = .ok (o', r) → r.isReport = true ∨ r = .noAnswer → p.lines = [r.text] ∧ p.org = some o') ∧
      (∀ o' e, o.getAnswer fuel c.clock = .ok (o', .error e) → e.kind = .outOfTime → c.full = false → p.lines = [] ∧ p.org = some o' ∧ p.polls = [.first]) := by
  simp only [Site.step, hi, hp, hq, bind_ok, pure_ok] at h
  obtain ⟨p, h1, rfl⟩ := h
  refine ⟨p, rfl, ?_, fun o' r hg hr => ?_, fun o' e hg he hf => ?_⟩
  · rcases Page.runOnce_cases h1 with ⟨_, rfl⟩ | ⟨o, s, _, rfl⟩ | ⟨o, _, rfl⟩
    · rfl
    · exact (Page.callback_lines _ _ _).2.2
    · rfl
  · rw [Page.runOnce_shows rfl hg hr] at h1
    cases h1
    exact ⟨(Page.callback_lines _ _ _).1, (Page.callback_lines _ _ _).2.1⟩
  · rw [Page.runOnce_waits rfl hg he hf] at h1
    cases h1
    exact ⟨rfl, rfl, rfl⟩

/-- **C50**: a click on "Next", where this button is enabled, adds the next result as a line to this box, or sets the timer. -/
theorem C50_next_shows {fuel : Nat} {s s' : Site} {i c p o} (hp : s.pages[i]? = some p) (ho : p.org = some o) (hn : p.nextOn = true)
    (h : s.step fuel (.next i c) = .ok s') :
    (∀ j, j ≠ i → s'.pages[j]? = s.pages[j]?) ∧ ∃ p', s'.pages[i]? = some p' ∧
      (∀ o' r, o.getAnswer fuel c.clock = .ok (o', r) → r.isReport = true ∨ r = .noAnswer → p'.lines = p.lines ++ [r.text] ∧ p'.org = some o' ∧ p'.polls = p.polls) ∧
      (∀ o' e, o.getAnswer fuel c.clock = .ok (o', .error e) → e.kind = .outOfTime → c.full = false →
        p'.lines = p.lines ∧ p'.org = some o' ∧ p'.polls = p.polls ++ [.next]) := by
  simp only [Site.step, hp, ho, hn, Option.isSome_some, and_self, if_true, Site.onNext, bind_ok, pure_ok] at h
  obtain ⟨p', h1, rfl⟩ := h
  refine ⟨fun j hj => by simp [List.getElem?_set_ne (Ne.symm hj)], p', List.getElem?_set_self (List.getElem?_eq_some_iff.1 hp).1, fun o' r hg hr => ?_, fun o' e hg he hf => ?_⟩
  · rw [Page.runOnce_shows ho hg hr] at h1
    cases h1
    exact ⟨(Page.callback_lines _ _ _).1, (Page.callback_lines _ _ _).2.1, rfl⟩
  · rw [Page.runOnce_waits ho hg he hf] at h1
    cases h1
    exact ⟨rfl, rfl, rfl⟩

/-- **C50**: and so does the timer. -/
theorem C50_timer_shows {fuel : Nat} {s s' : Site} {i j c p o k} (hp : s.pages[i]? = some p) (ho : p.org = some o) (hk : p.polls[j]? = some k)
    (h : s.step fuel (.timer i j c) = .ok s') :
    (∀ j, j ≠ i → s'.pages[j]? = s.pages[j]?) ∧ ∃ p', s'.pages[i]? = some p' ∧
      (∀ o' r, o.getAnswer fuel c.clock = .ok (o', r) → r.isReport = true ∨ r = .noAnswer →
        p'.lines = p.lines ++ [r.text] ∧ p'.org = some o' ∧ p'.polls = p.polls.eraseIdx j) ∧
      (∀ o' e, o.getAnswer fuel c.clock = .ok (o', .error e) → e.kind = .outOfTime → c.full = false →
        p'.lines = p.lines ∧ p'.org = some o' ∧ p'.polls = p.polls.eraseIdx j ++ [k]) := by
  simp only [Site.step, hp, hk, bind_ok, pure_ok] at h
  obtain ⟨p', h1, rfl⟩ := h
  have ho' : ({ p with polls := p.polls.eraseIdx j } : Page).org = some o := ho
  refine ⟨fun j hj => by simp [List.getElem?_set_ne (Ne.symm hj)], p', List.getElem?_set_self (List.getElem?_eq_some_iff.1 hp).1, fun o' r hg hr => ?_, fun o' e hg he hf => ?_⟩
  · rw [Page.runOnce_shows ho' hg hr] at h1
    cases h1
    exact ⟨(Page.callback_lines _ _ _).1, (Page.callback_lines _ _ _).2.1, by cases k <;> rfl⟩
  · rw [Page.runOnce_waits ho' hg he hf] at h1
    cases h1
    exact ⟨rfl, rfl, rfl⟩

/-! ## C51 -/

/-- **C51**: "Next" can be clicked exactly in the boxes in which something but never "false" has been shown, and "Show tree view" in those in which something has been
shown. -/
theorem C51_buttons {fuel : Nat} {es : List Event} {s : Site} (h : Site.empty.steps fuel es = .ok s) :
    ∀ p ∈ s.pages, (p.nextOn = true ↔ p.lines ≠ [] ∧ n!"false" ∉ p.lines) ∧ (p.treeOn = true ↔ p.lines ≠ []) := by
  intro p hp
  rcases (tidy_inv fuel).pages (fun _ _ => trivial) h p hp with ⟨h1, h2, h3, _⟩ | ⟨h1, h2, _, h3⟩
  · simp [h1, h2, h3]
  · simp [h1, h2, h3]

theorem Org.Res.text_not_false {r : Org.Res} (h : r ≠ .noAnswer) : r.text ≠ n!"false" := by
  cases r with
  | answer bs =>
    cases bs with
    | nil => decide
    | cons b bs =>
      obtain ⟨x, hx⟩ := bindingsStr_head (bs := b :: bs) (by simp)
      show answerStr (some (b :: bs)) ≠ _
      simp only [answerStr, hx]
      intro h
      exact absurd (List.cons.inj h).1 (by decide)
  | noAnswer => exact absurd rfl h
  | error e =>
    obtain ⟨kind, m⟩ := e
    intro h
    have := congrArg List.head? h
    cases kind <;> simp [Org.Res.text, RtErr.explanation] at this
  | running => decide

theorem noAnswer_not_reported : ∀ {ts : List Org.Turn}, Org.Res.noAnswer ∉ reports ts
  | [] => by simp [reports]
  | .continue :: ts => by simpa [reports] using noAnswer_not_reported (ts := ts)
  | .answer _ :: ts => by simpa [reports] using noAnswer_not_reported (ts := ts)
  | .error _ :: ts => by simpa [reports] using noAnswer_not_reported (ts := ts)

/-- **C51 (part that holds).** If the memory is not exhausted, "Next" is only withdrawn when the search has come to its end.
Missing: after "Memory exhausted." (see the witness). -/
theorem C51_withdrawn_partial {fuel : Nat} {es : List Event} {s : Site} (ha : Ample es) (h : Site.empty.steps fuel es = .ok s) :
    ∀ p ∈ s.pages, p.lines ≠ [] → p.nextOn = false → ∃ program o0 o, Opened program p.query o0 ∧ (p.org = none ∨ p.org = some o) ∧
      ShowsSearch fuel o0 o p.lines ∧ o.queue = [] := by
  intro p hp hl hn
  have hf : n!"false" ∈ p.lines := by
    have := (C51_buttons h p hp).1
    by_cases hf : n!"false" ∈ p.lines
    · exact hf
    · rw [this.2 ⟨hl, hf⟩] at hn; cases hn
  obtain ⟨ord, program, c, o0, o, h1, h2, h3, h4⟩ := C50_lines_show_search ha h p hp
  refine ⟨program, o0, o, h2.opened, h3, h4, ?_⟩
  obtain ⟨ts, k, g1, g2, g3⟩ := h4
  apply g2
  rintro rfl
  have : n!"false" ∈ p.lines.filter (· ≠ n!"Soft memory limit reached. Please close some results.") := List.mem_filter.2 ⟨hf, by decide⟩
  rw [g3] at this
  simp only [List.replicate_zero, List.append_nil, List.mem_map] at this
  obtain ⟨r, hr, hrt⟩ := this
  exact Org.Res.text_not_false (fun h => noAnswer_not_reported (h ▸ hr)) hrt

/-- **C51 is false** when the memory gets exhausted: the program `p(a).` with the query `p(X)`.  The memory is exhausted before the first answer; the box says so, and
to "Next" it says "false" and withdraws the button, although `[X / a]` is an answer. -/
theorem C51_witness :
    (Site.empty.steps 20 [.run id n!"p(a)." n!"p(X)." ⟨[], true, false⟩, .next 0 ⟨List.replicate 9 false, false, false⟩]).toOption.map
      (fun s => s.pages.map (fun p => (p.lines, p.nextOn))) = some [([n!"Memory exhausted.", n!"false"], false)] ∧
    (Site.empty.steps 20 [.run id n!"p(a)." n!"p(X)." ⟨List.replicate 9 false, false, false⟩]).toOption.map
      (fun s => s.pages.map (fun p => (p.lines, p.nextOn))) = some [([n!"[X / a]"], true)] := by
  constructor <;> decide +kernel

/-- **C51**, in every box: if the memory is exhausted during a call, the box says so, at most one executor and nothing of the program and the query is kept, and from then
on every click on "Next" shows "false" and withdraws the button. -/
theorem C51_exhausted {fuel : Nat} {c k} {p : Page} {o o' : Org} (ho : p.org = some o) (hg : o.getAnswer fuel c.clock = .ok (o', .running)) (he : c.exhausted = true) :
    ∃ p' o'', p.runOnce fuel c k = .ok p' ∧ p'.lines = p.lines ++ [n!"Memory exhausted."] ∧ p'.org = some o'' ∧
      o''.execs.length ≤ 1 ∧ (∀ e ∈ o''.execs, e.children = []) ∧ o''.program = [] ∧ o''.query = [] ∧ o''.queue = [] ∧ o''.st = ⟨[], []⟩ ∧
      ∀ fuel' c', ∃ q, p'.runOnce fuel' c' .next = .ok q ∧ q.lines = p'.lines ++ [n!"false"] ∧ q.nextOn = false ∧ q.org = some o'' := by
  have hg' : o.getAnswerOf fuel c = .ok (o'.clearMemory, .error ⟨.outOfMemory, []⟩) := by
    unfold getAnswerOf
    simp only [hg, ok_bind, he, if_true]; rfl
  refine ⟨({ p with org := some o'.clearMemory } : Page).callback k n!"Memory exhausted.", o'.clearMemory, ?_, ?_, ?_, ?_, ?_, rfl, rfl, rfl, rfl, ?_⟩
  · unfold Page.runOnce
    rw [ho]
    simp only [hg', ok_bind, reduceCtorEq, if_false]; rfl
  · cases k <;> rfl
  · cases k <;> rfl
  · simp only [clearMemory, List.length_map, List.length_take]; omega
  · intro e h
    obtain ⟨_, _, rfl⟩ := List.mem_map.1 h
    rfl
  · intro fuel' c'
    have h1 : (({ p with org := some o'.clearMemory } : Page).callback k n!"Memory exhausted.").org = some o'.clearMemory := by cases k <;> rfl
    have h2 := Page.runOnce_shows (k := .next) (c := c') (fuel := fuel') (o' := o'.clearMemory) (r := .noAnswer) h1 (by unfold getAnswer; rfl) (.inr rfl)
    exact ⟨_, h2, by cases k <;> rfl, rfl, rfl⟩

/-- The hypotheses hold of the box of the witness. -/
example : (demo [⟨.fn n!"p" [.cons n!"a"], []⟩] [.fn n!"p" [.var n!"X"]]).getAnswer 20 [] = .ok (demo [⟨.fn n!"p" [.cons n!"a"], []⟩] [.fn n!"p" [.var n!"X"]], .running) := by
  have h : (demo [⟨.fn n!"p" [.cons n!"a"], []⟩] [.fn n!"p" [.var n!"X"]]).queue = [0] := by decide +kernel
  unfold getAnswer
  rw [h]; rfl

/-! ## C52 -/

/-- **C52 (part that holds).** A click on "Show tree view", where this button is enabled, shows the tree of the present state of the search.
Missing: if a tree has been drawn before while its box was waiting for an answer (see the witness). -/
theorem C52_tree_partial {fuel : Nat} {es : List Event} {s s' : Site} {i p o} (h : Site.empty.steps fuel es = .ok s) (hse : Settled fuel Site.empty es)
    (hp : s.pages[i]? = some p) (ho : p.org = some o) (ht : p.treeOn = true) (hs : s.step fuel (.tree i) = .ok s') : s'.ShowsTree fuel i := by
  have hf : DrawnInv fuel s := DrawnInv.steps (s := Site.empty) ⟨by decide, by simp [Site.empty], by simp [Site.empty]⟩ hse h
  simp only [Site.step, hp, ho, ht, Option.isSome_some, and_self, if_true] at hs
  exact (hf.drawTree hp ho hs).1

/-- **C52 (part that holds).** And so does a click on a node in the tree that stands for further search. -/
theorem C52_node_partial {fuel : Nat} {es : List Event} {s s' : Site} {i d n c p o} (h : Site.empty.steps fuel es = .ok s) (hse : Settled fuel Site.empty es)
    (hv : s.view = some (i, d)) (hn : n ∈ d.buttons) (hp : s.pages[i]? = some p) (ho : p.org = some o)
    (hs : s.step fuel (.node n c) = .ok s') : s'.ShowsTree fuel i := by
  have hf : DrawnInv fuel s := DrawnInv.steps (s := Site.empty) ⟨by decide, by simp [Site.empty], by simp [Site.empty]⟩ hse h
  simp only [Site.step, hv, hn, if_true, bind_ok] at hs
  obtain ⟨s1, h1, h2⟩ := hs
  have hf1 := hf.onNext h1
  simp only [Site.onNext, hp, bind_ok, pure_ok] at h1
  obtain ⟨p', h1, rfl⟩ := h1
  have ho' : ∃ o', p'.org = some o' := by
    rcases Page.runOnce_cases h1 with ⟨hx, _⟩ | ⟨o', s, _, rfl⟩ | ⟨o', _, rfl⟩
    · rw [ho] at hx; cases hx
    · exact ⟨o', (Page.callback_lines _ _ _).2.1⟩
    · exact ⟨o', rfl⟩
  obtain ⟨o', ho'⟩ := ho'
  exact (hf1.drawTree (List.getElem?_set_self (List.getElem?_eq_some_iff.1 hp).1) ho' h2).1

namespace PageExample

def quick : Call := ⟨List.replicate 9 false, false, false⟩

/-- The program `p(a). p(b).` with the query `p(X)`: after the first answer "Next" is clicked; before the second answer is there, the tree is shown; then the answer
arrives. -/
def late : List Event := [.run id n!"p(a). p(b)." n!"p(X)." quick, .next 0 ⟨[true], false, false⟩, .tree 0, .timer 0 0 quick]

theorem late_run : (Site.empty.steps 30 (late ++ [.tree 0])).toOption.map (fun s =>
    (s.pages.map (·.lines), s.view.map (·.2.buttons), s.pages.map fun p => (p.org.bind fun o => (o.unificationTree 30).toOption.bind fun t =>
      (o.draw 30 t).toOption).map (·.buttons))) =
    some ([[n!"[X / a]", n!"[X / b]"]], some [-2], [some []]) := by decide +kernel

end PageExample

/-- **C52 is false**: in this example, both answers are listed, but clicking "Show tree view" (again) shows the tree without the second one. -/
theorem C52_witness : ∃ s, Site.empty.steps 30 (PageExample.late ++ [.tree 0]) = .ok s ∧ s.pages.map (·.lines) = [[n!"[X / a]", n!"[X / b]"]] ∧
    ¬ s.ShowsTree 30 0 := by
  have h := PageExample.late_run
  cases hs : Site.empty.steps 30 (PageExample.late ++ [.tree 0]) with
  | error => rw [hs] at h; cases h
  | ok s =>
    rw [hs] at h
    simp only [Except.toOption, Option.map_some, Option.some.injEq, Prod.mk.injEq] at h
    obtain ⟨h1, h2, h3⟩ := h
    refine ⟨s, rfl, h1, ?_⟩
    rintro ⟨p, o, t, d, hp, ho, ht, hd, hv⟩
    rw [hv] at h2
    have := congrArg (·[0]?) h3
    simp only [List.getElem?_map, hp, Option.map_some, ho, Option.bind_some, ht, hd] at this
    simp only [Option.map_some, Option.some.injEq] at h2
    simp [h2] at this

/-! ## C53 -/

theorem word_no_markup {p : Char → Bool} {w : Name} (hp : ∀ c, p c = true → isWord c = true) (h : IsWord p w) : ∀ c ∈ w, c ≠ '<' ∧ c ≠ '&' := by
  obtain ⟨a, as, rfl, h1, h2⟩ := h
  have key : ∀ c, isWord c = true → c ≠ '<' ∧ c ≠ '&' := by
    intro c hc
    constructor <;> (rintro rfl; revert hc; decide)
  intro c hc
  rcases List.mem_cons.1 hc with rfl | hc
  · exact key _ (hp _ h1)
  · exact key _ (h2 _ hc)

/-- Tokens that cannot contain `<` or `&`: words, numbers and the symbols of the grammar. -/
def Tok.Harmless : Tok → Prop
  | .sym t => ∀ c ∈ t, c ≠ '<' ∧ c ≠ '&'
  | .comment _ => False
  | _ => True

theorem Tok.Harmless.text {t : Tok} (h : t.Harmless) (hv : t.Valid) : ∀ c ∈ t.text, c ≠ '<' ∧ c ≠ '&' := by
  have hl : ∀ c, isLower c = true → isWord c = true := by intro c h; simp [isWord, h]
  have hu : ∀ c, isUpper c = true → isWord c = true := by intro c h; simp [isWord, h]
  cases t with
  | name w => exact word_no_markup hl hv
  | opening w =>
    intro c hc
    simp only [Tok.text, List.mem_append, List.mem_singleton] at hc
    rcases hc with hc | rfl
    · exact word_no_markup hl hv c hc
    · decide
  | var w => exact word_no_markup hu hv
  | num neg ds =>
    have key : ∀ c, isDigit c = true → c ≠ '<' ∧ c ≠ '&' := by
      intro c hc
      constructor <;> (rintro rfl; revert hc; decide)
    intro c hc
    simp only [Tok.text, List.mem_append] at hc
    rcases hc with hc | hc
    · cases neg
      · simp at hc
      · simp only [if_true, List.mem_singleton] at hc; subst hc; decide
    · exact key c (hv.2 c hc)
  | sym t => exact h
  | comment => exact h.elim

theorem Syn.harmless {k es ts} (h : Syn k es ts) : ∀ t ∈ ts, t.Harmless := by
  induction h <;> simp_all [Tok.Harmless] <;> grind

theorem HeadSyn.harmless {a ts} (h : HeadSyn a ts) : ∀ t ∈ ts, t.Harmless := by
  cases h with
  | fn h => have := h.harmless; simp_all [Tok.Harmless]; grind
  | cons => simp [Tok.Harmless]

theorem GoalSyn.harmless {a ts} (h : GoalSyn a ts) : ∀ t ∈ ts, t.Harmless := by
  cases h with
  | eq h1 h2 => have := h1.harmless; have := h2.harmless; simp_all [Tok.Harmless]; grind
  | neq h1 h2 => have := h1.harmless; have := h2.harmless; simp_all [Tok.Harmless]; grind
  | is h1 h2 => have := h1.harmless; have := h2.harmless; simp_all [Tok.Harmless]; grind
  | head h => exact h.harmless

theorem GoalsSyn.harmless {q ts} (h : GoalsSyn q ts) : ∀ t ∈ ts, t.Harmless := by
  induction h with
  | one h => exact h.harmless
  | more h _ ih => have := h.harmless; simp_all [Tok.Harmless]; grind

theorem Spell.harmless {ts s} (h : Spell ts s) (ht : ∀ t ∈ ts, t.Harmless) : ∀ c ∈ s, c ≠ '<' ∧ c ≠ '&' := by
  have sp : ∀ c, isSpace c = true → c ≠ '<' ∧ c ≠ '&' := by
    intro c hc
    constructor <;> (rintro rfl; revert hc; decide)
  induction h with
  | nil h => exact fun c hc => sp c (h c hc)
  | cons h hv _ _ ih =>
    intro c hc
    simp only [List.mem_append] at hc
    rcases hc with hc | hc | hc
    · exact sp c (h c hc)
    · exact Tok.Harmless.text (ht _ (by simp)) hv c hc
    · exact ih (fun t h => ht t (by simp [h])) c hc

theorem mem_appendDot {q : Name} {c : Char} (h : c ∈ q) : c ∈ appendDot q := by
  unfold appendDot
  rcases appendDotRev_spec q.reverse [] (by simp [Blank]) with ⟨h1, _⟩ | ⟨s, d, w, h1, _, _, _, h5⟩
  · rw [h1]; exact h
  · rw [h5]
    simp only [List.reverse_reverse, List.append_nil] at h1
    rw [h1] at h
    simp only [Option.getD_some]
    simp at h ⊢
    grind

/-- **C53 (part that holds).** The text of a query that the page puts into a box contains no markup.
Missing: text after the dot of the query (see the witness); the lines of the box. -/
theorem C53_query_partial {fuel : Nat} {es : List Event} {s : Site} (h : Site.empty.steps fuel es = .ok s) :
    ∀ p ∈ s.pages, (¬ ∃ q ts us, GoalsSyn q ts ∧ us ≠ [] ∧ Spell (ts ++ .sym ['.'] :: us) (appendDot p.query)) → ∀ c ∈ p.query, c ≠ '<' ∧ c ≠ '&' := by
  intro p hp hb
  have hq : ∃ program o0, Opened program p.query o0 := by
    have I : PageInv fuel (fun _ => True) (fun p => ∃ program o0, Opened program p.query o0) := by
      have run : ∀ {p p' : Page} {c k}, p.runOnce fuel c k = .ok p' → p'.query = p.query := by
        intro p p' c k h
        rcases Page.runOnce_cases h with ⟨_, rfl⟩ | ⟨o, s, _, rfl⟩ | ⟨o, _, rfl⟩
        · rfl
        · exact (Page.callback_lines _ _ _).2.2
        · rfl
      exact {
        start := fun _ ho h => by rw [run h]; exact ⟨_, _, ho.opened⟩
        timer := fun _ _ hp _ h => by rw [run h]; exact hp
        next := fun _ _ hp _ h => by rw [run h]; exact hp
        drawn := fun h => h
        close := fun h => h }
    exact I.pages (fun _ _ => trivial) h p hp
  obtain ⟨program, o, ord, o0, o1, _, _, hl⟩ := hq
  have ht : ∃ q, QueryText q (appendDot p.query) := by
    unfold Org.loadQueryText at hl
    split at hl
    · rename_i q hq
      exact ⟨q, C41_query_text.1 hq⟩
    · simp only [Org.loadQuery, Prod.mk.injEq] at hl
      exact absurd hl.2 (by simp)
    · rename_i hq
      exact absurd (C41_trailing_text.1 hq) hb
  obtain ⟨q, ts, h1, h2⟩ := ht
  intro c hc
  refine h2.harmless (fun t ht => ?_) c (mem_appendDot hc)
  rcases List.mem_append.1 ht with ht | ht
  · exact h1.harmless t ht
  · simp only [List.mem_singleton] at ht; subst ht; simp [Tok.Harmless]

/-- **C53 is false**: text after the dot is neither read nor refused but becomes part of the page. -/
theorem C53_witness : (Site.empty.steps 20 [.run id n!"p." n!"p. <img src=x onerror=alert(1)>." PageExample.quick]).toOption.map
    (fun s => (s.pages.map (fun p => (p.query, p.lines)), s.alerts)) = some ([(n!"p. <img src=x onerror=alert(1)>.", [n!"false"])], []) := by
  decide +kernel

/-! ## A concrete example -/

namespace PageExample

/-- Two boxes, whose events are interleaved; a time-out in between; a click on a node of the tree. -/
def twoBoxes : List Event := [.run id n!"p(a). p(b)." n!"p(X)" quick, .run id n!"q :- q. q." n!"q." ⟨[true], false, false⟩, .next 0 ⟨[true], false, false⟩, .timer 1 0 quick,
  .timer 0 0 quick, .tree 0, .next 0 quick, .tree 0, .next 1 quick, .close 1]

theorem twoBoxes_run : (Site.empty.steps 30 twoBoxes).toOption.map (fun s => s.pages.map (fun p => (p.lines, p.nextOn, p.treeOn, p.org.isSome))) =
    some [([n!"[X / a]", n!"[X / b]", n!"false"], false, true, true), ([n!"true", n!"true"], true, true, false)] := by decide +kernel

theorem twoBoxes_ample : Ample twoBoxes := by
  intro e he c hc
  simp only [twoBoxes, List.mem_cons, List.not_mem_nil, or_false] at he
  rcases he with rfl | rfl | rfl | rfl | rfl | rfl | rfl | rfl | rfl | rfl <;> simp [Event.call?] at hc <;> subst hc <;> rfl

/-- C50 and C51 apply to it. -/
example : ∃ s, Site.empty.steps 30 twoBoxes = .ok s ∧ s.pages.length = 2 ∧ ∀ p ∈ s.pages, ∃ program o0 o, Opened program p.query o0 ∧ ShowsSearch 30 o0 o p.lines := by
  have h := twoBoxes_run
  cases hs : Site.empty.steps 30 twoBoxes with
  | error => rw [hs] at h; cases h
  | ok s =>
    rw [hs] at h
    simp only [Except.toOption, Option.map_some, Option.some.injEq] at h
    refine ⟨s, rfl, by simpa using congrArg List.length h, fun p hp => ?_⟩
    obtain ⟨_, program, _, o0, o, _, h1, _, h2⟩ := C50_lines_show_search twoBoxes_ample hs p hp
    exact ⟨program, o0, o, h1.opened, h2⟩

end PageExample
end PBfs
