import Verif.Spec.Spoken
import Verif.Props.Ends
import Verif.Props.Console
import Verif.Props.Defined
import Verif.Props.Table
/-! # What the console says are exactly the solutions: C82 -/
namespace PBfs
open Org

theorem ShowsInsts.spoken {st : Storage} (hpr : Printable st) (sok : StOK st) {atoms fuel bs S} (h : ShowsInsts st atoms fuel bs S)
    (hw : ∀ ρ gs, S ρ gs → ∀ x, InQuery atoms x → ∃ (u : Tree) (s : Name), ρ x = u.fold itreeAlg ∧ Text u s) {ρ gs} (hS : S ρ gs) : Spoken atoms ρ (said (.answer bs)) := by
  obtain ⟨h1, h2, h3⟩ := h.values hpr sok hw hS
  refine ⟨_, h1, h2, h3, fun h0 => ?_, fun h0 => ?_⟩
  · cases bs with
    | nil => rfl
    | cons => cases h0
  · cases bs with
    | nil => exact absurd rfl h0
    | cons b bs =>
      rw [List.map_map]
      rfl

/-- What is told in a session. -/
theorem session_fits {o o' : Org} {cs q fuel clocks rs} (h : Asked o cs q) (hpr : Printable o.st) (hs : o.session fuel clocks = .ok (o', rs)) (hw : HasTexts (inForce cs) q) :
    (∀ bs, .answer bs ∈ rs → ∃ ρ, Solves (inForce cs) q ρ ∧ Spoken q ρ (said (.answer bs))) ∧
    (OnlyClauses cs q → (∀ e, .error e ∈ rs → e.kind = .outOfTime) ∧
      (rs.getLast? = some .noAnswer → ∀ ρ, Solves (inForce cs) q ρ → ∃ r ∈ rs, Spoken q ρ (said r))) := by
  obtain ⟨ts, h1, h2⟩ := C05_timeouts_transparent h.reach hs
  obtain ⟨items, rs', b1, b2, b3⟩ := C42_breadth_first_resolution_partial h h1
  have hm := Says.meets b2
  refine ⟨fun bs hb => ?_, fun ho => ⟨fun e he => ?_, fun hl ρ hsol => ?_⟩⟩
  · have : .answer bs ∈ reports ts := by rw [← h2]; exact List.mem_filter.2 ⟨hb, rfl⟩
    obtain ⟨rep, c1, c2⟩ := forall₂_of_mem hm this
    cases c2 with
    | answer c2 =>
      rename_i S
      have hS : some (.answer S) ∈ rs' := by simpa using c1
      obtain ⟨ρ, gs, hg⟩ := c2.some
      exact ⟨ρ, b1.enough (by simpa using enough_query) S hS ρ gs hg, c2.spoken hpr h.stOK (fun ρ gs hs => hw ρ (b1.enough (by simpa using enough_query) S hS ρ gs hs)) hg⟩
  · refine Classical.byContradiction fun hk => ?_
    have : .error e ∈ reports ts := by rw [← h2]; exact List.mem_filter.2 ⟨he, by simpa [Res.isReport] using hk⟩
    obtain ⟨bs, hb⟩ := onlyAnswers b2 (onlyClauses_noError ho b1) _ this
    cases hb
  · have hq := session_exhausted hs hl h.reach.rinv
    obtain rfl : items = [] := by rw [hq] at b3; exact List.length_eq_zero_iff.1 b3
    obtain ⟨N, hN⟩ := SRun.soon ho h.ne hsol
    obtain ⟨S, gs, hS, hg⟩ := hN _ _ b1 (.inr rfl)
    obtain ⟨r, hr, h5⟩ := forall₂_of_mem' hm (y := .answer S) (by simpa using hS)
    cases h5 with
    | answer h5 =>
      rw [← h2] at hr
      exact ⟨_, (List.mem_filter.1 hr).1, h5.spoken hpr h.stOK (fun ρ gs hs => hw ρ (b1.enough (by simpa using enough_query) S hS ρ gs hs)) hg⟩

/-! ## From the command line to the output -/

/-- The console works with this program: with that of the last argument that is the text of one, if this one is accepted; with none, if no argument is.  (The arguments should be paths, but
they are taken for texts, see C44.) -/
inductive WorksWith : List Name → List Clause → Prop
  | none {args} : (∀ a ∈ args, ∀ p, ¬ ProgText p a) → WorksWith args []
  | last {cs a pre post} : ProgText cs a → verdict cs = none → (∀ c ∈ cs, ∀ n ∈ c.head :: c.body, Node.readable n = true) → (∀ b ∈ post, ∀ p, ¬ ProgText p b) →
      WorksWith (pre ++ a :: post) cs

theorem FedBy.session {fuel n : Nat} : ∀ {clocks : List (List Bool)} {o o' : Org} {rs}, FedBy o n → o.session fuel clocks = .ok (o', rs) → FedBy o' n
  | [], o, o', rs, hs, h => by
    simp only [Org.session, pure_ok, Prod.mk.injEq] at h
    rw [← h.1]
    exact hs
  | c :: cs, o, o', rs, hs, h => by
    simp only [Org.session, bind_ok, pure_ok, Prod.mk.injEq] at h
    obtain ⟨⟨o1, r⟩, h1, ⟨o2, rs2⟩, h2, rfl, _⟩ := h
    exact FedBy.session (hs.answer h1) h2

theorem FedBy.loadAll {ord : HashOrder} : ∀ {args : List Name} {o o' : Org} {n}, FedBy o n → Con.loadAll ord args o = some o' → FedBy o' (n + (args.map List.length).sum)
  | [], o, o', n, hf, h => by
    simp only [Con.loadAll, Option.some.injEq] at h
    subst h
    simpa using hf
  | a :: as, o, o', n, hf, h => by
    obtain ⟨o1, l, hl⟩ : ∃ o1 l, o.loadProgramText ord a = (o1, l) := ⟨_, _, rfl⟩
    have h1 : Con.loadAll ord as o1 = some o' := by
      rw [Con.loadAll, hl] at h
      cases l with
      | exception => cases h
      | ok => exact h
      | rejected => exact h
    have h2 := FedBy.program ord a hf
    rw [hl] at h2
    have := FedBy.loadAll h2 h1
    simpa [Nat.add_assoc] using this

theorem Talk.fed {fuel : Nat} {o xs o' n} (h : Talk fuel o xs o') (hf : FedBy o n) : FedBy o' (n + (xs.map (·.text.length)).sum) := by
  induction h with
  | nil => simpa using hf
  | @snoc xs o1 ord x o2 l clocks o3 _ _ _ hl _ hse ih =>
    have := FedBy.query ord x.text ih
    rw [hl] at this
    have := this.session hse
    simpa [Nat.add_assoc] using this

/-- The conversation before an exchange. -/
theorem Talk.split {fuel : Nat} {o xs o'} (h : Talk fuel o xs o') {x} (hx : x ∈ xs) : ∃ ys zs o1 ord o2 l clocks o3, xs = ys ++ x :: zs ∧ Talk fuel o ys o1 ∧
    x.Proper ∧ ord.OK ∧ o1.loadQueryText ord x.text = (o2, l) ∧ l ≠ .exception ∧ o2.session fuel clocks = .ok (o3, x.results) := by
  induction h with
  | nil => cases hx
  | @snoc xs o1 ord y o2 l clocks o3 ht hp ho hl hne hse ih =>
    rcases List.mem_append.1 hx with hx | hx
    · obtain ⟨ys, zs, a, b, c, d, e, f, h1, h2⟩ := ih hx
      exact ⟨ys, zs ++ [y], a, b, c, d, e, f, by rw [h1]; simp, h2⟩
    · obtain rfl := List.mem_singleton.1 hx
      exact ⟨xs, [], o1, ord, o2, l, clocks, o3, rfl, ht, hp, ho, hl, hne, hse⟩

/-- A query whose expressions have their variables is not rejected. -/
theorem loadQuery_defined {o : Org} {ord : HashOrder} (ho : ord.OK) {q : List Node} (hd : Node.defined [] q = true) (he : (o.loadQuery ord (some q)).2 ≠ .exception) :
    (o.loadQuery ord (some q)).2 = .ok := by
  have hf := compileQuery_fine ho (st := o.st) hd
  unfold Org.loadQuery at he ⊢
  simp only at he ⊢
  split
  · rename_i e st h
    rw [h] at he
    have : e = .outOfRange := hf e st h
    subst this
    exact absurd rfl he
  · rfl

/-- A text that is a query is asked. -/
theorem asked_of_text {o o1 : Org} {ord ord' : HashOrder} {cs q text n l} (hs : Serves o ord cs) (hf : FedBy o n) (ho : ord.OK) (hu : Untangled cs) (ho' : ord'.OK)
    (hdot : '.' ∉ text) (hl : o.loadQueryText ord' text = (o1, l)) (hne : l ≠ .exception) (hn : n + text.length ≤ 32765) (hq : QueryText q (text ++ n!".")) (hd : Node.defined [] q = true) :
    Asked o1 cs q ∧ Printable o1.st ∧ l = .ok := by
  have hpq := parseQuery_complete ((queryText_appendDot hdot).2 hq)
  have e : o.loadQueryText ord' text = o.loadQuery ord' (some q) := by
    unfold Org.loadQueryText
    rw [hpq]
  have hok : l = .ok := by
    have := loadQuery_defined ho' hd (o := o) (by rw [← e, hl]; exact hne)
    rwa [← e, hl] at this
  subst hok
  obtain ⟨q', a1, a2, a3⟩ := C73_asked hs hf ho hu ho' hl (by rw [hpq]; simp) hn
  have : q' = q := by
    have := parseQuery_complete a1
    rw [hpq] at this
    cases this; rfl
  exact ⟨this ▸ a2, a3, rfl⟩

theorem Told.results {rs line} (h : Told rs line) : ∀ r ∈ rs, r = .noAnswer ∨ ∃ bs, r = .answer bs := by
  induction h with
  | no => simp
  | yes => simp
  | enough => simp
  | more _ _ ih =>
    intro r hr
    rcases List.mem_cons.1 hr with rfl | hr
    · exact .inr ⟨_, rfl⟩
    · exact ih r hr

theorem Talk.fits {fuel : Nat} {o xs o' ord cs n} (h : Talk fuel o xs o') (hs : Serves o ord cs) (ho : ord.OK) (hu : Untangled cs) (hf : FedBy o n)
    (hn : n + (xs.map (·.text.length)).sum ≤ 32765) {x q} (hx : x ∈ xs) (hq : QueryText q (x.text ++ n!".")) (hd : Node.defined [] q = true) (hw : HasTexts (inForce cs) q) :
    x.Fits (inForce cs) q ∧ (OnlyClauses cs q → x.FitsAll (inForce cs) q) := by
  obtain ⟨ys, zs, o1, ord', o2, l, clocks, o3, rfl, h1, h2, h3, h4, h5, h6⟩ := h.split hx
  have hlen : n + (ys.map (·.text.length)).sum + x.text.length ≤ 32765 := by simp at hn; omega
  obtain ⟨a1, a2, _⟩ := asked_of_text (h1.serves hs).1 (h1.fed hf) ho hu h3 h2.text h4 h5 hlen hq hd
  obtain ⟨b1, b2⟩ := session_fits a1 a2 h6 hw
  refine ⟨⟨fun r hr => ?_⟩, fun hb => ⟨(b2 hb).1, (b2 hb).2⟩⟩
  rcases h2.told with ht | ⟨e, he, _⟩
  · rcases ht.results r hr with rfl | ⟨bs, rfl⟩
    · exact .inl rfl
    · exact .inr (.inr (b1 bs hr))
  · rw [he] at hr
    exact .inr (.inl ⟨e, List.mem_singleton.1 hr⟩)

theorem loadAll_append {ord : HashOrder} {bs : List Name} : ∀ {as : List Name} {o o' : Org}, Con.loadAll ord (as ++ bs) o = some o' →
    ∃ o1, Con.loadAll ord as o = some o1 ∧ Con.loadAll ord bs o1 = some o'
  | [], o, o', h => ⟨o, rfl, h⟩
  | a :: as, o, o', h => by
    rw [List.cons_append, Con.loadAll] at h
    rw [Con.loadAll]
    split at h
    · cases h
    · exact loadAll_append h

theorem loadAll_serves {ord : HashOrder} : ∀ {args : List Name} {o o' : Org} {ord0 p}, Serves o ord0 p → Con.loadAll ord args o = some o' → ∃ ord1 p1, Serves o' ord1 p1
  | [], o, o', _, _, hs, h => by
    simp only [Con.loadAll, Option.some.injEq] at h
    exact ⟨_, _, h ▸ hs⟩
  | args, o, o', _, _, hs, h => by
    rcases C44_arguments_are_texts_partial h hs with h | ⟨p, h, _⟩
    · exact ⟨_, _, h⟩
    · exact ⟨_, _, h⟩

/-- The interpreter works with the program that the console should work with. -/
theorem WorksWith.serves {args cs} (h : WorksWith args cs) {ord : HashOrder} (ho : ord.OK) {o0 o : Org} (h0 : Org.init = .ok o0) (hl : Con.loadAll ord args o0 = some o) :
    Serves o ord cs := by
  cases h with
  | none h =>
    rw [C44_files_unread h] at hl
    cases hl
    exact .init h0
  | last h1 h2 h3 h4 =>
    rename_i a pre post
    obtain ⟨o1, g1, g2⟩ := loadAll_append hl
    obtain ⟨ord1, p1, hs⟩ := loadAll_serves (Serves.init (ord := ord) h0) g1
    have e : o1.loadProgramText ord a = o1.loadProgram ord (some cs) := by unfold Org.loadProgramText; rw [C41_program_text.2 h1]
    have hok := C61_accepted (o := o1) ho h3 h2
    rw [← e] at hok
    obtain ⟨o2, l, hl2⟩ : ∃ o2 l, o1.loadProgramText ord a = (o2, l) := ⟨_, _, rfl⟩
    rw [hl2] at hok
    subst hok
    have hs2 : Serves o2 ord cs := hs.program (by rw [← e, hl2])
    rw [Con.loadAll, hl2] at g2
    have := C44_files_unread (ord := ord) (o := o2) h4
    rw [show Con.loadAll ord post o2 = some o from g2] at this
    cases this
    exact hs2

theorem typed_length (x : Exchange) : x.text.length ≤ x.typed.length := by
  simp [Exchange.typed]

theorem typed_lengths : ∀ xs : List Exchange, (xs.map (·.text.length)).sum ≤ (xs.flatMap Exchange.typed).length
  | [] => by simp
  | x :: xs => by
    have := typed_length x
    have := typed_lengths xs
    simp only [List.map_cons, List.sum_cons, List.flatMap_cons, List.length_append]
    omega

/-- **C82**: whatever is typed, as long as the console is at its prompt (or has been left by `q.`) and the end of the input has not been hit: what has been typed is a sequence of exchanges, and what has been
written is what these show.  Every exchange about a query tells solutions of the query only, and all of them if the last word
is "false".  For programs without register clashes and at most 32765 characters all in all, as long as the values can be written down; completeness without `is`, `==` and `\\==`. -/
theorem C82_console {fuel : Nat} {ord : HashOrder} (ho : ord.OK) {args : List Name} {input : List Char} {o0 o : Org} (h0 : Org.init = .ok o0) (hl : Con.loadAll ord args o0 = some o)
    {cs} (hc : WorksWith args cs) (hlen : (args.map List.length).sum + input.length ≤ 32765) {es c} (he : Envs es) (h : (Con.start ord args input o0).steps fuel es = .ok c)
    (hg : c.cin.good = true) (hp : c.phase = .prompt ∨ c.phase = .quit) :
    ∃ xs : List Exchange,
      (c.phase = .prompt → input = xs.flatMap Exchange.typed ++ c.cin.rest ∧ c.out = (Con.start ord args input o0).out ++ xs.flatMap Exchange.shown) ∧
      (c.phase = .quit → input = xs.flatMap Exchange.typed ++ n!"q." ++ c.cin.rest ∧ c.out = (Con.start ord args input o0).out ++ xs.flatMap Exchange.shown ++ n!"?- ") ∧
      (Untangled cs → ∀ x ∈ xs, ∀ q, QueryText q (x.text ++ n!".") → Node.defined [] q = true → HasTexts (inForce cs) q →
        x.Fits (inForce cs) q ∧ (OnlyClauses cs q → x.FitsAll (inForce cs) q)) := by
  have hst : Con.start ord args input o0 = ⟨o, ⟨input, true⟩, [], (Con.start ord args input o0).out, .prompt⟩ := by
    simp only [Con.start, hl]
  rw [hst] at h
  obtain ⟨c1, c2⟩ := C43_conversation he h hg
  have hf : FedBy o (0 + (args.map List.length).sum) := FedBy.loadAll (.init h0) hl
  have d2 : Serves o ord cs := hc.serves ho h0 hl
  have key : ∃ xs, Talk fuel o xs c.org ∧ (xs.flatMap Exchange.typed).length ≤ input.length ∧
      (c.phase = .prompt → input = xs.flatMap Exchange.typed ++ c.cin.rest ∧ c.out = (Con.start ord args input o0).out ++ xs.flatMap Exchange.shown) ∧
      (c.phase = .quit → input = xs.flatMap Exchange.typed ++ n!"q." ++ c.cin.rest ∧ c.out = (Con.start ord args input o0).out ++ xs.flatMap Exchange.shown ++ n!"?- ") := by
    rcases hp with hp | hp
    · obtain ⟨xs, e1, e2, e3⟩ := c1 hp
      exact ⟨xs, e1, by rw [e2]; simp, fun _ => ⟨e2, e3⟩, fun h => by rw [hp] at h; cases h⟩
    · obtain ⟨xs, e1, e2, e3⟩ := c2 hp
      exact ⟨xs, e1, by rw [e2]; simp, fun h => absurd (hp.symm.trans h) (by simp), fun _ => ⟨e2, e3⟩⟩
  obtain ⟨xs, e1, e2, e3, e4⟩ := key
  have := typed_lengths xs
  exact ⟨xs, e3, e4, fun hu x hx q hq hd hw => e1.fits d2 ho hu hf (by omega) hx hq hd hw⟩

/-! ## Typing `;` -/

theorem showAnswer_out (bs : List Binding) (c : Con) : (c.showAnswer bs).out = c.out ++ said (.answer bs) := by
  cases bs with
  | nil => rfl
  | cons b bs => rw [Con.showAnswer_ne (by simp)]

theorem next_run {fuel : Nat} {ord clock} {o o1 : Org} {r} (ha : o.getAnswer fuel clock = .ok (o1, r)) (rest cur out) :
    (⟨o, ⟨n!";\n" ++ rest, true⟩, cur, out, .more⟩ : Con).step fuel ord clock = match r with
      | .error e => .ok ⟨o1, ⟨rest, true⟩, cur, out ++ (n!"Error: " ++ e.explanation ++ n!"\n"), .abort⟩
      | .noAnswer => .ok ⟨o1, ⟨rest, true⟩, cur, out ++ n!"false\n", .prompt⟩
      | .answer bs => .ok ((⟨o1, ⟨rest, true⟩, cur, out, .more⟩ : Con).showAnswer bs)
      | .running => .ok ⟨o1, ⟨rest, true⟩, cur, out, .busy⟩ := by
  have hsemi : '\n' ∉ n!";" := by decide
  have hgl : (⟨n!";\n" ++ rest, true⟩ : Cin).getline '\n' [] = (n!";", ⟨rest, true⟩) := getline_hit (r := rest) hsemi
  simp only [Con.step, Con.next, hgl, if_true, ha, ok_bind, Con.write, pure, Except.pure]
  cases r <;> rfl

theorem ask_run {fuel : Nat} {ord clock} {o o1 o2 : Org} {text r} (hd : '.' ∉ text) (hq : text ≠ n!"q") (hl : o.loadQueryText ord text = (o1, .ok))
    (ha : o1.getAnswer fuel clock = .ok (o2, r)) (rest cur out) :
    (⟨o, ⟨text ++ n!".\n" ++ rest, true⟩, cur, out, .prompt⟩ : Con).step fuel ord clock = match r with
      | .error e => .ok ⟨o2, ⟨rest, true⟩, text, out ++ n!"?- " ++ (n!"error: " ++ e.explanation ++ n!"\n"), .prompt⟩
      | .noAnswer => .ok ⟨o2, ⟨rest, true⟩, text, out ++ n!"?- " ++ n!"false\n", .prompt⟩
      | .answer bs => .ok ((⟨o2, ⟨rest, true⟩, text, out ++ n!"?- ", .prompt⟩ : Con).showAnswer bs)
      | .running => .ok ⟨o2, ⟨rest, true⟩, text, out ++ n!"?- ", .busy⟩ := by
  rw [show text ++ n!".\n" ++ rest = text ++ '.' :: (n!"\n" ++ rest) by simp]
  have hs : Skipped n!"\n" := .inl ⟨[], rfl, by simp, by simp⟩
  simp only [Con.step, Con.ask, Con.write, getline_hit hd, if_neg hq, ignore_hit hs, hl, ha, ok_bind]
  cases r <;> rfl

/-- `;` shows one report after the other. -/
theorem more_run {fuel k : Nat} {ord rest cur} : ∀ {pre post : List Res} {clocks : List (List Bool)} {o o' : Org} {k0 ts out}, (∀ c ∈ clocks, List.replicate k false <+: c) → k0 ≤ k →
    o.iterate fuel k0 = .ok (o', ts) → reports ts = pre ++ post → (∀ r ∈ pre, ∃ bs, bs ≠ [] ∧ r = .answer bs) → clocks.length = pre.length →
    ∃ o1 k1 ts1, (⟨o, ⟨(List.replicate pre.length n!";\n").flatten ++ rest, true⟩, cur, out, .more⟩ : Con).steps fuel (clocks.map (ord, ·)) =
      .ok ⟨o1, ⟨rest, true⟩, cur, out ++ pre.flatMap said, .more⟩ ∧ o1.iterate fuel k1 = .ok (o', ts1) ∧ reports ts1 = post ∧ k1 ≤ k0
  | [], post, [], o, o', k0, ts, out, _, _, hi, hr, _, _ => ⟨o, k0, ts, by simp [Con.steps, pure, Except.pure], hi, hr, Nat.le_refl _⟩
  | r :: pre, post, c :: clocks, o, o', k0, ts, out, hc, hk, hi, hr, hp, hl => by
    obtain ⟨o1, k1, ts1, a1, a2, a3, a4⟩ := getAnswer_report hi hr hk (hc c (.head _))
    obtain ⟨bs, hb, rfl⟩ := hp r (.head _)
    obtain ⟨o2, k2, ts2, b1, b2, b3, b4⟩ := more_run (rest := rest) (cur := cur) (ord := ord) (out := out ++ said (.answer bs)) (fun c h => hc c (.tail _ h)) (Nat.le_trans a4 hk) a2 a3
      (fun r h => hp r (.tail _ h)) (by simpa using hl)
    refine ⟨o2, k2, ts2, ?_, b2, b3, by omega⟩
    have := next_run (ord := ord) a1 ((List.replicate pre.length n!";\n").flatten ++ rest) cur out
    simp only [Con.showAnswer_ne hb] at this
    simp only [List.map_cons, Con.steps, List.length_cons, List.replicate_succ, List.flatten_cons, List.append_assoc]
    rw [this]
    simp only [ok_bind, b1]
    simp
  | [], _, _ :: _, _, _, _, _, _, _, _, _, _, _, hl => by cases hl
  | _ :: _, _, [], _, _, _, _, _, _, _, _, _, _, hl => by cases hl

/-- The answers have bindings if there are variables, and only then. -/
theorem answers_bindings {o : Org} {cs q fuel ts rs items}
    (b1 : SRun (inForce cs) [.goals (q.map (.goal ·.fv)) (Insts.query q)] rs items) (b2 : List.Forall₂ (Says o.st q fuel) ts rs) (hb : OnlyClauses cs q) :
    ∀ r ∈ reports ts, ∃ bs, r = .answer bs ∧ (bs = [] ↔ ∀ x, ¬ InQuery q x) := by
  intro r hr
  obtain ⟨bs, rfl⟩ := onlyAnswers b2 (onlyClauses_noError hb b1) r hr
  obtain ⟨rep, c1, c2⟩ := forall₂_of_mem (Says.meets b2) hr
  cases c2 with
  | answer c2 =>
    refine ⟨bs, rfl, ?_⟩
    obtain ⟨pre, hp, L, g, P, hv, _⟩ := c2
    constructor
    · rintro rfl x hx
      obtain ⟨y, hy, _⟩ := List.mem_map.1 ((hv x).2 hx)
      exact absurd (P.all y hy) (by simp)
    · intro hn
      cases bs with
      | nil => rfl
      | cons b bs =>
        obtain ⟨a, ha, _⟩ := P.value b (.head _)
        exact absurd ((hv _).1 (List.mem_map.2 ⟨_, ha, rfl⟩)) (hn _)

/-- A console at its prompt, with a program without register clashes, at which a text that is a query can be typed. -/
structure Ready (o : Org) (cs : List Clause) (text : List Char) (q : List Node) : Prop where
  program : ∃ ord n, ord.OK ∧ Serves o ord cs ∧ FedBy o n ∧ n + text.length ≤ 32765
  untangled : Untangled cs
  dot : '.' ∉ text
  notQ : text ≠ n!"q"
  query : QueryText q (text ++ n!".")
  numbers : ∀ a ∈ q, Node.readable a = true
  defined : Node.defined [] q = true
  only : OnlyClauses cs q
  moded : ∃ M, WellModed M cs q

theorem Ready.asked {o cs text q} (h : Ready o cs text q) {ord' : HashOrder} (ho' : ord'.OK) :
    ∃ o1, o.loadQueryText ord' text = (o1, .ok) ∧ Asked o1 cs q ∧ Printable o1.st := by
  obtain ⟨ord, n, h1, h2, h3, h4⟩ := h.program
  have hpq := parseQuery_complete ((queryText_appendDot h.dot).2 h.query)
  have e : o.loadQueryText ord' text = o.loadQuery ord' (some q) := by
    unfold Org.loadQueryText
    rw [hpq]
  have hok : (o.loadQueryText ord' text).2 = .ok := by rw [e, C61_query ho' h.numbers, if_pos h.defined]
  have hl : o.loadQueryText ord' text = ((o.loadQueryText ord' text).1, .ok) := by rw [← hok]
  obtain ⟨a1, a2, _⟩ := asked_of_text h2 h3 h1 h.untangled ho' h.dot hl (by simp) h4 h.query h.defined
  exact ⟨_, hl, a1, a2⟩

/-- **C82, patience**: for every solution that can be written down there is a number of `;` after which it has been told, if there is enough time for each answer. -/
theorem C82_every_solution {o cs text q} (h : Ready o cs text q) (hw : HasTexts (inForce cs) q) {ρ} (hs : Solves (inForce cs) q ρ) {ord : HashOrder} (ho : ord.OK) :
    ∃ fuel0 m k, ∀ fuel, fuel0 ≤ fuel → ∀ clocks : List (List Bool), clocks.length = m + 1 → (∀ c ∈ clocks, List.replicate k false <+: c) → ∀ rest cur out,
      ∃ c told s, (⟨o, ⟨text ++ n!".\n" ++ ((List.replicate m n!";\n").flatten ++ rest), true⟩, cur, out, .prompt⟩ : Con).steps fuel (clocks.map (ord, ·)) = .ok c ∧
        c.cin = ⟨rest, true⟩ ∧ c.out = out ++ n!"?- " ++ told ++ s ∧ Spoken q ρ s := by
  obtain ⟨o1, hl, a1, a2⟩ := h.asked ho
  obtain ⟨M, hM⟩ := h.moded
  obtain ⟨N, hN⟩ := SRun.soon h.only a1.ne hs
  obtain ⟨f0, oE, ts, items, rs, e1, e2, b1, b2, b3⟩ := C57_search a1 a2 hM h.only.noArith.notCalled N
  obtain ⟨S, gs, hS, hg⟩ := hN _ _ b1 (by
    have := b2.length_eq
    rcases e2 with e2 | e2
    · left; omega
    · right; rw [e2] at b3; exact List.length_eq_zero_iff.1 b3)
  obtain ⟨r, hr, h5⟩ := forall₂_of_mem' (Says.meets b2) (y := .answer S) (by simpa using hS)
  have hsp : Spoken q ρ (said r) := by
    cases h5 with
    | answer h5 => exact h5.spoken a2 a1.stOK (fun ρ gs hs => hw ρ (b1.enough (by simpa using enough_query) S hS ρ gs hs)) hg
  have hbind := answers_bindings b1 b2 h.only
  -- the first answer that shows the solution
  obtain ⟨pre, r, post, hsplit, hpre, hsp⟩ : ∃ pre r post, reports ts = pre ++ r :: post ∧ (∀ x ∈ pre, ∃ bs, bs ≠ [] ∧ x = .answer bs) ∧ Spoken q ρ (said r) := by
    by_cases hv : ∀ x, ¬ InQuery q x
    · cases hts : reports ts with
      | nil => rw [hts] at hr; cases hr
      | cons r0 rest =>
        refine ⟨[], r0, rest, rfl, by simp, ?_⟩
        obtain ⟨bs, rfl, hb⟩ := hbind r0 (by rw [hts]; exact .head _)
        obtain rfl := hb.2 hv
        exact ⟨[], by simp, by simpa using hv, by simp, fun _ => rfl, by simp⟩
    · obtain ⟨pre, post, hp⟩ := List.append_of_mem hr
      refine ⟨pre, r, post, hp, fun x hx => ?_, hsp⟩
      obtain ⟨bs, rfl, hb⟩ := hbind x (by rw [hp]; exact List.mem_append_left _ hx)
      exact ⟨bs, fun h0 => hv (hb.1 h0), rfl⟩
  obtain ⟨bsr, rfl, _⟩ := hbind r (by rw [hsplit]; simp)
  refine ⟨f0, pre.length, N, fun fuel hf clocks hcl hc rest cur out => ?_⟩
  have hi := e1 fuel hf
  match clocks, hcl, hc with
  | c0 :: clocks, hcl, hc =>
    cases pre with
    | nil =>
      obtain rfl : clocks = [] := List.length_eq_zero_iff.1 (by simpa using hcl)
      obtain ⟨o2, k1, ts1, x1, _⟩ := getAnswer_report hi hsplit (Nat.le_refl _) (hc c0 (.head _))
      have := ask_run h.dot h.notQ hl x1 rest cur out
      refine ⟨(⟨o2, ⟨rest, true⟩, text, out ++ n!"?- ", .prompt⟩ : Con).showAnswer bsr, [], _, ?_, ?_, by rw [showAnswer_out, List.append_nil], hsp⟩
      · simp only [List.length_nil, List.replicate_zero, List.flatten_nil, List.nil_append, List.map_cons, List.map_nil, Con.steps]
        rw [this]; rfl
      · cases bsr <;> rfl
    | cons r0 pre =>
      obtain ⟨bs0, hb0, rfl⟩ := hpre r0 (.head _)
      obtain ⟨o2, k1, ts1, x1, x2, x3, x4⟩ := getAnswer_report hi hsplit (Nat.le_refl _) (hc c0 (.head _))
      have hask := ask_run h.dot h.notQ hl x1 ((List.replicate (pre.length + 1) n!";\n").flatten ++ rest) cur out
      simp only [Con.showAnswer_ne hb0] at hask
      simp only [List.length_cons, Nat.add_right_cancel_iff] at hcl
      obtain ⟨ys, c1, rfl⟩ : ∃ ys c1, clocks = ys ++ [c1] := by
        rcases List.eq_nil_or_concat clocks with rfl | ⟨ys, c1, hy⟩
        · cases hcl
        · exact ⟨ys, c1, by simpa using hy⟩
      obtain ⟨o3, k2, ts2, y1, y2, y3, y4⟩ := more_run (ord := ord) (rest := n!";\n" ++ rest) (cur := text) (out := out ++ n!"?- " ++ said (.answer bs0)) (clocks := ys) (k := N)
        (fun c h => hc c (.tail _ (List.mem_append_left _ h))) x4 x2 x3 (fun x hx => hpre x (.tail _ hx)) (by simpa using hcl)
      obtain ⟨o4, k3, ts3, z1, _⟩ := getAnswer_report y2 y3 (Nat.le_trans y4 x4) (hc c1 (.tail _ (List.mem_append_right _ (.head _))))
      have hnext := next_run (ord := ord) z1 rest text (out ++ n!"?- " ++ said (.answer bs0) ++ pre.flatMap said)
      refine ⟨(⟨o4, ⟨rest, true⟩, text, out ++ n!"?- " ++ said (.answer bs0) ++ pre.flatMap said, .more⟩ : Con).showAnswer bsr, said (.answer bs0) ++ pre.flatMap said, _, ?_, ?_,
        by rw [showAnswer_out]; simp, hsp⟩
      · simp only [List.map_cons, Con.steps, List.length_cons]
        rw [hask]
        simp only [ok_bind, List.map_append, List.map_cons, List.map_nil, Con.steps_append]
        rw [show (List.replicate (pre.length + 1) n!";\n").flatten ++ rest = (List.replicate pre.length n!";\n").flatten ++ (n!";\n" ++ rest) by
          rw [List.replicate_succ']; simp, y1]
        simp only [ok_bind, Con.steps, hnext]
        rfl
      · cases bsr <;> rfl

/-- **C82, the end**: if the search has to end, by a level mapping as in C76, then so does the exchange, after no more than `enough` times `;`: with "false", or with "true" if the query has no variables.  The
console is at its prompt again and has read nothing else. -/
theorem C82_ends {o cs text q} (h : Ready o cs text q) {b m n lev I} (hI : Model (inForce cs) I) (hA : Acceptable (inForce cs) lev I) (hq : Bounded lev I n q)
    (hb : AtMost b (inForce cs)) (hm : ∀ c ∈ inForce cs, c.body.length ≤ m) {ord : HashOrder} (ho : ord.OK) :
    ∃ fuel0 i, i ≤ enough b m n q.length ∧ ∀ fuel, fuel0 ≤ fuel → ∀ clocks : List (List Bool), clocks.length = i + 1 →
      (∀ c ∈ clocks, List.replicate (enough b m n q.length + 1) false <+: c) → ∀ rest cur out,
      ∃ c, (⟨o, ⟨text ++ n!".\n" ++ ((List.replicate i n!";\n").flatten ++ rest), true⟩, cur, out, .prompt⟩ : Con).steps fuel (clocks.map (ord, ·)) = .ok c ∧
        c.cin = ⟨rest, true⟩ ∧ c.phase = .prompt ∧ (n!"false\n" <:+ c.out ∨ (∀ x, ¬ InQuery q x) ∧ c.out = out ++ n!"?- true\n") := by
  obtain ⟨o1, hl, a1, a2⟩ := h.asked ho
  obtain ⟨M, hM⟩ := h.moded
  obtain ⟨f0, oE, ts, items, rs, e1, _, b1, b2, b3⟩ := C57_search a1 a2 hM h.only.noArith.notCalled (enough b m n q.length + 1)
  obtain ⟨hbound, hend⟩ := C76_bound a1 hI hA hq hb hm (e1 f0 (Nat.le_refl _))
  have hqE : oE.queue = [] := hend (by omega)
  have hbind := answers_bindings b1 b2 h.only
  have hrep := reports_length ts
  cases hts : reports ts with
  | nil =>
    refine ⟨f0, 0, Nat.zero_le _, fun fuel hf clocks hcl hc rest cur out => ?_⟩
    obtain ⟨c0, rfl⟩ := List.length_eq_one_iff.1 hcl
    have hask := ask_run h.dot h.notQ hl (getAnswer_none (e1 fuel hf) hts hqE (Nat.le_refl _) (hc c0 (.head _))) rest cur out
    refine ⟨⟨oE, ⟨rest, true⟩, text, out ++ n!"?- " ++ n!"false\n", .prompt⟩, ?_, rfl, rfl, .inl (List.suffix_append _ _)⟩
    simp only [List.replicate_zero, List.flatten_nil, List.nil_append, List.map_cons, List.map_nil, Con.steps]
    rw [hask]; rfl
  | cons r0 pre =>
    obtain ⟨bs0, rfl, hb0⟩ := hbind r0 (by rw [hts]; exact .head _)
    by_cases hv : ∀ x, ¬ InQuery q x
    · obtain rfl := hb0.2 hv
      refine ⟨f0, 0, Nat.zero_le _, fun fuel hf clocks hcl hc rest cur out => ?_⟩
      obtain ⟨c0, rfl⟩ := List.length_eq_one_iff.1 hcl
      obtain ⟨o2, k1, ts1, x1, _⟩ := getAnswer_report (e1 fuel hf) hts (Nat.le_refl _) (hc c0 (.head _))
      have hask := ask_run h.dot h.notQ hl x1 rest cur out
      refine ⟨⟨o2, ⟨rest, true⟩, text, out ++ n!"?- " ++ n!"true\n", .prompt⟩, ?_, rfl, rfl, .inr ⟨hv, by simp⟩⟩
      simp only [List.replicate_zero, List.flatten_nil, List.nil_append, List.map_cons, List.map_nil, Con.steps]
      rw [hask]; rfl
    · have hne : ∀ x ∈ reports ts, ∃ bs, bs ≠ [] ∧ x = .answer bs := by
        intro x hx
        obtain ⟨bs, rfl, hb⟩ := hbind x hx
        exact ⟨bs, fun h0 => hv (hb.1 h0), rfl⟩
      rw [hts] at hne hrep
      refine ⟨f0, pre.length + 1, by simp only [List.length_cons] at hrep; omega, fun fuel hf clocks hcl hc rest cur out => ?_⟩
      match clocks, hcl, hc with
      | c0 :: clocks, hcl, hc =>
        have hb0 : bs0 ≠ [] := fun h0 => hv (hb0.1 h0)
        obtain ⟨o2, k1, ts1, x1, x2, x3, x4⟩ := getAnswer_report (e1 fuel hf) hts (Nat.le_refl _) (hc c0 (.head _))
        have hask := ask_run h.dot h.notQ hl x1 ((List.replicate (pre.length + 1) n!";\n").flatten ++ rest) cur out
        simp only [Con.showAnswer_ne hb0] at hask
        simp only [List.length_cons, Nat.add_right_cancel_iff] at hcl
        obtain ⟨ys, c1, rfl⟩ : ∃ ys c1, clocks = ys ++ [c1] := by
          rcases List.eq_nil_or_concat clocks with rfl | ⟨ys, c1, hy⟩
          · cases hcl
          · exact ⟨ys, c1, by simpa using hy⟩
        obtain ⟨o3, k2, ts2, y1, y2, y3, y4⟩ := more_run (ord := ord) (rest := n!";\n" ++ rest) (cur := text) (out := out ++ n!"?- " ++ said (.answer bs0)) (clocks := ys) (post := [])
          (k := enough b m n q.length + 1) (fun c h => hc c (.tail _ (List.mem_append_left _ h))) x4 x2 (by rw [x3, List.append_nil]) (fun x hx => hne x (.tail _ hx)) (by simpa using hcl)
        have hnext := next_run (ord := ord) (getAnswer_none y2 y3 hqE (Nat.le_trans y4 x4) (hc c1 (.tail _ (List.mem_append_right _ (.head _))))) rest text (out ++ n!"?- " ++ said (.answer bs0) ++ pre.flatMap said)
        refine ⟨⟨oE, ⟨rest, true⟩, text, out ++ n!"?- " ++ said (.answer bs0) ++ pre.flatMap said ++ n!"false\n", .prompt⟩, ?_, rfl, rfl, .inl (List.suffix_append _ _)⟩
        simp only [List.map_cons, Con.steps]
        rw [hask]
        simp only [ok_bind, List.map_append, List.map_cons, List.map_nil, Con.steps_append]
        rw [show (List.replicate (pre.length + 1) n!";\n").flatten ++ rest = (List.replicate pre.length n!";\n").flatten ++ (n!";\n" ++ rest) by
          rw [List.replicate_succ']; simp, y1]
        simp only [ok_bind, Con.steps, hnext]
        rfl

/-! ## Concrete cases -/

namespace SpokenExample
open MeaningExamples SoundExamples AcceptableExamples ModedExamples EffortExamples

def input : List Char := n!"r(A).\n;\nq."

theorem works : WorksWith [ShownExample.program] first :=
  .last (pre := []) (post := []) ShownExample.readable.prog (by decide +kernel) (by decide +kernel) (by simp)

/-- The hypotheses of `C82_console` are met, and what is told is the only solution and "false". -/
example : WorksWith [ShownExample.program] first ∧ (Con.loadAll id [ShownExample.program] Org.init0).isSome = true ∧ Untangled first ∧ QueryText askR (n!"r(A)" ++ n!".") ∧
    Node.defined [] askR = true ∧ HasTexts (inForce first) askR ∧ OnlyClauses first askR ∧
    ((Con.start id [ShownExample.program] input Org.init0).steps 30 (List.replicate 3 (id, List.replicate 30 false))).toOption.map (fun c => (c.out, c.phase, c.cin)) =
      some (Con.greeting ++ n!"?- [A / b]false\n?- ", .quit, ⟨[], true⟩) :=
  ⟨works, by decide +kernel, ShownExample.readable.untangled, ShownExample.readable.goals, by decide +kernel, ShownExample.hasTexts, ShownExample.only, by decide +kernel⟩

theorem works_rev : WorksWith [EndsExample.text] rev :=
  .last (pre := []) (post := []) EndsExample.readable.prog (by decide +kernel) (by decide +kernel) (by simp)

theorem ready_rev : ∃ o, Con.loadAll id [EndsExample.text] Org.init0 = some o ∧ Ready o rev n!"rev([a,b],R)" askRev := by
  have h : (Con.loadAll id [EndsExample.text] Org.init0).isSome = true := by decide +kernel
  obtain ⟨o, ho⟩ := Option.isSome_iff_exists.1 h
  exact ⟨o, ho, ⟨_, _, HashOrder.id_ok, works_rev.serves HashOrder.id_ok Org.init_eq ho, .loadAll (.init Org.init_eq) ho, by decide⟩, EndsExample.readable.untangled, by decide, by decide,
    EndsExample.readable.goals, by decide, by decide, ⟨by decide, by decide⟩,
    ⟨forth, .of [⟨n!"rev", 2⟩, ⟨n!"append", 3⟩] ⟨fun _ => rfl, fun _ => rfl, fun _ _ => rfl⟩ (by decide) (by decide) (by decide)⟩⟩

end SpokenExample

open AcceptableExamples ModedExamples EffortExamples SpokenExample in
/-- **C82**, an example: the exchange about `rev([a,b],R)` ends with "false". -/
theorem C82_reverse : ∃ o, Con.loadAll id [EndsExample.text] Org.init0 = some o ∧ ∃ fuel0 i, i ≤ enough 2 2 3 1 ∧ ∀ fuel, fuel0 ≤ fuel → ∀ clocks : List (List Bool), clocks.length = i + 1 →
    (∀ c ∈ clocks, List.replicate (enough 2 2 3 1 + 1) false <+: c) → ∀ rest cur out,
    ∃ c, (⟨o, ⟨n!"rev([a,b],R).\n" ++ ((List.replicate i n!";\n").flatten ++ rest), true⟩, cur, out, .prompt⟩ : Con).steps fuel (clocks.map (id, ·)) = .ok c ∧
      c.cin = ⟨rest, true⟩ ∧ c.phase = .prompt ∧ n!"false\n" <:+ c.out := by
  obtain ⟨o, ho, hr⟩ := ready_rev
  obtain ⟨fuel0, i, h1, h2⟩ := C82_ends hr rev_model rev_acceptable (rev_bounded _) (atMost_of (b := 2) (by decide +kernel)) (m := 2) (by decide) HashOrder.id_ok
  refine ⟨o, ho, fuel0, i, h1, fun fuel hf clocks hcl hc rest cur out => ?_⟩
  obtain ⟨c, c1, c2, c3, c4⟩ := h2 fuel hf clocks hcl hc rest cur out
  refine ⟨c, c1, c2, c3, c4.resolve_right fun h => ?_⟩
  exact h.1 n!"R" ⟨_, .head _, by decide⟩

end PBfs
