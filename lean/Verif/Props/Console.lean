import Verif.Proof.Console
import Verif.Proof.Typed
import Verif.Props.Complete
import Verif.Props.Parser
/-! # Properties of the console: C43 to C47 -/
namespace PBfs
open Org

/-! ## C43 -/

/-- **C43**: as long as the end of the input has not been hit, whatever the console has read is a sequence of exchanges, and what it has written
is what these exchanges show: for every query the results of its own search, in order, as many as the user asked for.
When it has been left, this was by `q.` in the place of a query. -/
theorem C43_conversation {fuel : Nat} {o : Org} {input cur out es c} (he : Envs es)
    (h : (⟨o, ⟨input, true⟩, cur, out, .prompt⟩ : Con).steps fuel es = .ok c) (hg : c.cin.good = true) :
    (c.phase = .prompt → ∃ xs, Talk fuel o xs c.org ∧ input = xs.flatMap Exchange.typed ++ c.cin.rest ∧ c.out = out ++ xs.flatMap Exchange.shown) ∧
    (c.phase = .quit → ∃ xs, Talk fuel o xs c.org ∧ input = xs.flatMap Exchange.typed ++ n!"q." ++ c.cin.rest ∧
      c.out = out ++ xs.flatMap Exchange.shown ++ n!"?- ") := by
  have h0 : Held fuel o input out ⟨o, ⟨input, true⟩, cur, out, .prompt⟩ := by
    show ∃ xs, _
    exact ⟨[], .nil, by simp, by simp⟩
  have := (Con.steps_held he h0 h hg).2
  refine ⟨fun hp => ?_, fun hp => ?_⟩
  · unfold Held at this; rw [hp] at this; exact this
  · unfold Held at this; rw [hp] at this; exact this

/-- **C43**: and every conversation can be held in this way, and ended by `q.` -/
theorem C43_every_conversation {fuel : Nat} {o : Org} {xs o'} (h : Talk fuel o xs o') (rest cur out) : ∃ es cur', Envs es ∧
    (⟨o, ⟨xs.flatMap Exchange.typed ++ n!"q." ++ rest, true⟩, cur, out, .prompt⟩ : Con).steps fuel es =
      .ok ⟨o', ⟨rest, true⟩, cur', out ++ xs.flatMap Exchange.shown ++ n!"?- ", .quit⟩ := by
  obtain ⟨es, cur', he, h1⟩ := h.steps (n!"q." ++ rest) cur out
  refine ⟨es ++ [(id, [])], n!"q", he.append (.cons id_ok .nil), ?_⟩
  rw [List.append_assoc, Con.steps_append, h1]
  have hq : '.' ∉ n!"q" := by decide
  have hgl : (⟨n!"q." ++ rest, true⟩ : Cin).getline '.' cur' = (n!"q", ⟨rest, true⟩) := getline_hit (r := rest) hq
  simp only [ok_bind, Con.steps, Con.step, Con.ask, Con.write, hgl, if_true]
  simp [pure, Except.pure, ok_bind]

theorem loadQueryText_fst (ord : HashOrder) (text : List Char) (o : Org) : ∃ parsed, (o.loadQueryText ord text).1 = (o.loadQuery ord parsed).1 := by
  unfold Org.loadQueryText
  split
  · exact ⟨_, rfl⟩
  · exact ⟨_, rfl⟩
  · exact ⟨_, rfl⟩

theorem Serves.session {fuel : Nat} {ord p} : ∀ {clocks : List (List Bool)} {o o' : Org} {rs}, Serves o ord p → o.session fuel clocks = .ok (o', rs) →
    Serves o' ord p ∧ o'.st = o.st
  | [], o, o', rs, hs, h => by
    simp only [Org.session, pure_ok, Prod.mk.injEq] at h
    rw [← h.1]
    exact ⟨hs, rfl⟩
  | c :: cs, o, o', rs, hs, h => by
    simp only [Org.session, bind_ok, pure_ok, Prod.mk.injEq] at h
    obtain ⟨⟨o1, r⟩, h1, ⟨o2, rs2⟩, h2, rfl, _⟩ := h
    obtain ⟨i1, i2⟩ := Serves.session (hs.answer h1) h2
    exact ⟨i1, i2.trans (getAnswer_keeps hs.reach.rinv h1).2.2.1⟩

theorem Talk.serves {fuel : Nat} {o xs o' ord p} (h : Talk fuel o xs o') (hs : Serves o ord p) : Serves o' ord p ∧ Grow o.st o'.st := by
  induction h with
  | nil => exact ⟨hs, .refl _⟩
  | @snoc xs o1 ord' x o2 l clocks o3 _ _ _ hl _ hse ih =>
    obtain ⟨i1, i2⟩ := ih
    obtain ⟨parsed, hp⟩ := loadQueryText_fst ord' x.text o1
    rw [hl] at hp
    have hs2 : Serves o2 ord p := by rw [show o2 = _ from hp]; exact i1.query
    obtain ⟨i3, i4⟩ := hs2.session hse
    refine ⟨i3, ?_⟩
    rw [i4, show o2 = _ from hp]
    exact i2.trans loadQuery_st.1

/-- An exchange of a conversation. -/
theorem Talk.mem {fuel : Nat} {o xs o' ord p} (h : Talk fuel o xs o') (hs : Serves o ord p) {x} (hx : x ∈ xs) : ∃ o1 ord' o2 l clocks o3, Serves o1 ord p ∧
    x.Proper ∧ ord'.OK ∧ o1.loadQueryText ord' x.text = (o2, l) ∧ l ≠ .exception ∧ o2.session fuel clocks = .ok (o3, x.results) ∧ Grow o2.st o'.st := by
  induction h with
  | nil => simp at hx
  | @snoc xs o1 ord' y o2 l clocks o3 ht hp ho hl hne hse ih =>
    have hs1 := ht.serves hs
    obtain ⟨parsed, hq⟩ := loadQueryText_fst ord' y.text o1
    rw [hl] at hq
    have hs2 : Serves o2 ord p := by rw [show o2 = _ from hq]; exact hs1.1.query
    have hst := (hs2.session hse).2
    simp only [List.mem_append, List.mem_singleton] at hx
    rcases hx with hx | rfl
    · obtain ⟨a, b, c, d, e, f, h1, h2, h3, h4, h5, h6, h7⟩ := ih hx
      refine ⟨a, b, c, d, e, f, h1, h2, h3, h4, h5, h6, h7.trans ?_⟩
      rw [hst, show o2 = _ from hq]
      exact loadQuery_st.1
    · exact ⟨o1, ord', o2, l, clocks, o3, hs1.1, hp, ho, hl, hne, hse, by rw [hst]; exact .refl _⟩

theorem session_idle {fuel : Nat} {o : Org} (hq : o.queue = []) : ∀ {clocks : List (List Bool)} {o' rs}, o.session fuel clocks = .ok (o', rs) → ∀ r ∈ rs, r = .noAnswer
  | [], o', rs, h => by
    simp only [Org.session, pure_ok, Prod.mk.injEq] at h
    rw [← h.2]; simp
  | c :: cs, o', rs, h => by
    have : o.getAnswer fuel c = .ok (o, .noAnswer) := by
      unfold getAnswer
      split
      · rfl
      · rename_i h'; rw [hq] at h'; cases h'
    simp only [Org.session, this, ok_bind, bind_ok, pure_ok, Prod.mk.injEq] at h
    obtain ⟨⟨o2, rs2⟩, h2, _, rfl⟩ := h
    intro r hr
    simp only [List.mem_cons] at hr
    rcases hr with rfl | hr
    · rfl
    · exact session_idle hq h2 r hr

/-- If nothing is searched, the exchange consists of the word "false". -/
theorem Exchange.Proper.idle {x : Exchange} (hx : x.Proper) (h : ∀ r ∈ x.results, r = .noAnswer) : x.results = [.noAnswer] := by
  rcases hx.told with ht | ⟨e, he, _⟩
  · generalize x.results = rs at *
    generalize x.line = line at *
    cases ht with
    | no => rfl
    | yes => exact absurd (h (.answer []) (by simp)) (by simp)
    | @enough bs => exact absurd (h (.answer bs) (by simp)) (by simp)
    | @more bs => exact absurd (h (.answer bs) (by simp)) (by simp)
  · exact absurd (h (.error e) (by simp [he])) (by simp)

/-- **C43**: the search behind an exchange is that for the query that was typed, with the program the console works with: either the interpreter has been asked this query
(so that C01 to C06 apply), or it has rejected it and the exchange consists of "false". -/
theorem C43_asked_partial {fuel : Nat} {o xs o' ord p} (h : Talk fuel o xs o') (hs : Serves o ord p) (ho : ord.OK) (hu : Untangled p)
    (hsm : o'.st.functors.length ≤ 65536) {x q} (hx : x ∈ xs) (hq : QueryText q (x.text ++ n!".")) :
    (∃ o1 clocks o2, Asked o1 p q ∧ o1.session fuel clocks = .ok (o2, x.results)) ∨
    x.results = [.noAnswer] ∧ ∃ o1 ord' e, Serves o1 ord p ∧ (o1.loadQuery ord' (some q)).2 = .rejected e := by
  obtain ⟨o1, ord', o2, l, clocks, o3, h1, h2, h3, h4, hex, h5, h6⟩ := h.mem hs hx
  have hq' := (queryText_appendDot h2.text).2 hq
  have hpq := parseQuery_complete hq'
  have h4' := h4
  unfold Org.loadQueryText at h4'
  rw [hpq] at h4'
  simp only at h4'
  have hne : l = .ok ∨ l ≠ .ok := by by_cases h : l = .ok <;> simp [h]
  rcases hne with rfl | hne
  · left
    have hb : parseQuery (appendDot x.text) ≠ .blank := by rw [hpq]; simp
    obtain ⟨q', hq1, ha⟩ := Asked.of_text h1 ho hu h3 h4 hb (Nat.le_trans h6.le.1.length_le hsm)
    have : q' = q := by
      have := parseQuery_complete hq1
      rw [hpq] at this
      cases this; rfl
    subst this
    exact ⟨o2, clocks, o3, ha, h5⟩
  · right
    have hqu : o2.queue = [] := by
      unfold Org.loadQuery at h4'
      simp only at h4'
      split at h4'
      · cases h4'; rfl
      · cases h4'; exact absurd rfl hne
    refine ⟨h2.idle (session_idle hqu h5), o1, ord', ?_⟩
    have hl : (o1.loadQuery ord' (some q)).2 = l := by rw [h4']
    cases l with
    | ok => exact absurd rfl hne
    | rejected e => exact ⟨e, h1, hl⟩
    | exception => exact absurd rfl hex

/-! ## C44 -/

/-- **C44 (what holds instead).** The console works with no program at all, or with one whose text is one of the arguments themselves. -/
theorem C44_arguments_are_texts_partial {ord ord0 : HashOrder} : ∀ {args : List Name} {o o' : Org} {p0}, Con.loadAll ord args o = some o' → Serves o ord0 p0 →
    Serves o' ord0 p0 ∨ ∃ p, Serves o' ord p ∧ ∃ a ∈ args, ProgText p a
  | [], o, o', p0, h, hs => by
    simp only [Con.loadAll, Option.some.injEq] at h
    subst h
    exact .inl hs
  | a :: as, o, o', p0, h, hs => by
    have step : ∀ {o1 l}, o.loadProgramText ord a = (o1, l) → l ≠ .exception → Con.loadAll ord as o1 = some o' := by
      intro o1 l hl hne
      rw [Con.loadAll, hl] at h
      cases l with
      | exception => exact absurd rfl hne
      | ok => exact h
      | rejected => exact h
    obtain ⟨o1, l, hl⟩ : ∃ o1 l, o.loadProgramText ord a = (o1, l) := ⟨_, _, rfl⟩
    have hne : l ≠ .exception := by
      rintro rfl
      rw [Con.loadAll, hl] at h
      cases h
    have h1 := step hl hne
    -- the program after this argument
    have h2 : (l ≠ .ok ∧ Serves o1 ord0 p0) ∨ ∃ p, Serves o1 ord p ∧ ProgText p a := by
      unfold Org.loadProgramText at hl
      split at hl
      · rename_i p hp
        by_cases hk : l = .ok
        · subst hk
          exact .inr ⟨p, hs.program hl, parseProgram_sound hp⟩
        · exact .inl ⟨hk, hs.rejected hl hk⟩
      · simp only [Org.loadProgram, Prod.mk.injEq] at hl
        obtain ⟨rfl, rfl⟩ := hl
        exact .inl ⟨by simp, hs⟩
    rcases h2 with ⟨_, h2⟩ | ⟨p, h2, h3⟩
    · rcases C44_arguments_are_texts_partial h1 h2 with h | ⟨p, h, b, hb, hp⟩
      · exact .inl h
      · exact .inr ⟨p, h, b, by simp [hb], hp⟩
    · rcases C44_arguments_are_texts_partial h1 h2 with h | ⟨p, h, b, hb, hp⟩
      · exact .inr ⟨p, h, a, by simp, h3⟩
      · exact .inr ⟨p, h, b, by simp [hb], hp⟩

/-- **C44 is false**: the files are never read.  Unless a path is itself the text of a program, the console works with a new interpreter, whatever the files contain. -/
theorem C44_files_unread {ord : HashOrder} {o : Org} : ∀ {args : List Name}, (∀ a ∈ args, ∀ p, ¬ ProgText p a) → Con.loadAll ord args o = some o
  | [], _ => rfl
  | a :: as, h => by
    have : o.loadProgramText ord a = (o, .rejected .parse) := by
      unfold Org.loadProgramText
      split
      · rename_i p hp; exact absurd (parseProgram_sound hp) (h a (by simp) p)
      · rfl
    rw [Con.loadAll, this]
    exact C44_files_unread fun b hb => h b (by simp [hb])

/-- **C44 is false**: started with the path `p.pl`, the console says that `p` does not hold, although a file with this path may contain the
fact `p.`, with which the interpreter says that it does. -/
theorem C44_witness :
    ((Con.start id [n!"p.pl"] n!"p.\nq." Org.init0).steps 20 (List.replicate 2 (id, List.replicate 20 false))).toOption.map (fun c => (c.out, c.phase)) =
      some (Con.greeting ++ n!"?- false\n?- ", .quit) ∧
    ((((Org.init0.loadProgramText id n!"p.").1.loadQueryText id n!"p").1).session 20 [List.replicate 20 false]).toOption.map (·.2) = some [Org.Res.answer []] := by
  decide +kernel

/-! ## C45 -/

/-- **C45 is false**: once the end of the input has been hit, and `q` is not what was read last, the console never ends regularly.  It reads nothing any more and
loads the same text again and again. -/
theorem C45_endless {fuel : Nat} : ∀ {es : List (HashOrder × List Bool)} {c c' : Con}, c.cin.good = false → c.cur ≠ n!"q" → c.phase ≠ .quit → c.steps fuel es = .ok c' →
    c'.phase ≠ .quit ∧ c'.cin.good = false ∧ c'.cur = c.cur
  | [], c, c', hg, _, hp, h => by
    simp only [Con.steps, pure_ok] at h
    subst h
    exact ⟨hp, hg, rfl⟩
  | e :: es, c, c', hg, hc, hp, h => by
    simp only [Con.steps, bind_ok] at h
    obtain ⟨c1, h1, h2⟩ := h
    obtain ⟨g1, g2, g3⟩ := Con.step_bad hg h1
    have hp1 : c1.phase ≠ .quit := fun h => (g3 h).elim hp fun h => hc h.2
    obtain ⟨i1, i2, i3⟩ := C45_endless (by rw [g1, hg]) (by rw [g2]; exact hc) hp1 h2
    exact ⟨i1, i2, i3.trans g2⟩

theorem empty_query_false {fuel : Nat} {ord : HashOrder} {clock} {c : Con} (hp : c.phase = .prompt) (hg : c.cin.getline '.' c.cur = ([], ⟨[], false⟩)) :
    ∃ o, c.step fuel ord clock = .ok ⟨o, ⟨[], false⟩, [], c.out ++ n!"?- false\n", .prompt⟩ := by
  obtain ⟨o, cin, cur, out, ph⟩ := c
  cases hp
  simp only at hg
  have hl : o.loadQueryText ord [] = o.loadQuery ord none := by
    have : parseQuery (appendDot []) = .error [] := by decide +kernel
    unfold Org.loadQueryText
    rw [this]
  have ha : (o.loadQuery ord none).1.getAnswer fuel clock = .ok ((o.loadQuery ord none).1, .noAnswer) := by
    unfold Org.getAnswer
    rfl
  refine ⟨(o.loadQuery ord none).1, ?_⟩
  simp only [Con.step, Con.ask, Con.write, hg, hl, if_neg (show ¬ ([] : Name) = n!"q" by decide), ignore_bad]
  rw [show (o.loadQuery ord none).2 = .rejected .parse from rfl]
  simp only [ha, ok_bind, pure, Except.pure]
  simp

/-- **C45 is false**, concretely: on an empty input the console answers "false" without end. -/
theorem C45_witness (fuel n : Nat) (o : Org) (env : HashOrder × List Bool) : ∃ o', (Con.start id [] [] o).steps fuel (List.replicate n env) =
    .ok ⟨o', ⟨[], decide (n = 0)⟩, [], (Con.start id [] [] o).out ++ (List.replicate n n!"?- false\n").flatten, .prompt⟩ := by
  have go : ∀ n (c : Con), c.phase = .prompt → c.cin = ⟨[], false⟩ → c.cur = [] → ∃ o', c.steps fuel (List.replicate n env) =
      .ok ⟨o', ⟨[], false⟩, [], c.out ++ (List.replicate n n!"?- false\n").flatten, .prompt⟩ := by
    intro n
    induction n with
    | zero =>
      rintro ⟨o, cin, cur, out, ph⟩ h1 h2 h3
      simp only at h1 h2 h3
      subst h1 h2 h3
      exact ⟨o, by simp [Con.steps, pure, Except.pure]⟩
    | succ n ih =>
      intro c h1 h2 h3
      obtain ⟨o1, he⟩ := empty_query_false (fuel := fuel) (ord := env.1) (clock := env.2) h1 (by rw [h2, h3]; rfl)
      obtain ⟨o2, h⟩ := ih ⟨o1, ⟨[], false⟩, [], c.out ++ n!"?- false\n", .prompt⟩ rfl rfl rfl
      refine ⟨o2, ?_⟩
      simp only [List.replicate_succ, Con.steps, he, ok_bind, h]
      simp
  cases n with
  | zero => exact ⟨o, by simp [Con.steps, Con.start, Con.loadAll, pure, Except.pure]⟩
  | succ n =>
    obtain ⟨o1, he⟩ := empty_query_false (fuel := fuel) (ord := env.1) (clock := env.2) (c := Con.start id [] [] o) rfl rfl
    obtain ⟨o2, h⟩ := go n ⟨o1, ⟨[], false⟩, [], (Con.start id [] [] o).out ++ n!"?- false\n", .prompt⟩ rfl rfl rfl
    refine ⟨o2, ?_⟩
    simp only [List.replicate_succ, Con.steps, he, ok_bind, h]
    simp

/-- **C45 (part that holds).** `q.` in the place of a query ends the console, and (unless the end of the input has been hit) nothing else does. -/
theorem C45_quit_partial {fuel : Nat} {o : Org} {input cur out} :
    (∀ es c, Envs es → (⟨o, ⟨input, true⟩, cur, out, .prompt⟩ : Con).steps fuel es = .ok c → c.cin.good = true → c.phase = .quit →
      ∃ xs o', Talk fuel o xs o' ∧ input = xs.flatMap Exchange.typed ++ n!"q." ++ c.cin.rest) ∧
    (∀ xs o' rest, Talk fuel o xs o' → input = xs.flatMap Exchange.typed ++ n!"q." ++ rest →
      ∃ es c, Envs es ∧ (⟨o, ⟨input, true⟩, cur, out, .prompt⟩ : Con).steps fuel es = .ok c ∧ c.phase = .quit) := by
  refine ⟨fun es c he h hg hp => ?_, ?_⟩
  · obtain ⟨xs, h1, h2, _⟩ := (C43_conversation he h hg).2 hp
    exact ⟨xs, _, h1, h2⟩
  · rintro xs o' rest ht rfl
    obtain ⟨es, cur', he, h⟩ := C43_every_conversation ht rest cur out
    exact ⟨es, _, he, h, rfl⟩

/-! ## C46 -/

/-- **C46 (part that holds).** If the search for a query runs into an error before its first answer, the console says so and is ready for the next query. -/
theorem C46_first_error_partial {fuel : Nat} {o o1 o2 : Org} {ord l clock e text} (hd : '.' ∉ text) (hq : text ≠ n!"q") (ho : ord.OK)
    (hl : o.loadQueryText ord text = (o1, l)) (hne : l ≠ .exception) (ha : o1.getAnswer fuel clock = .ok (o2, .error e)) (rest cur out) :
    ∃ es, Envs es ∧ (⟨o, ⟨text ++ n!".\n" ++ rest, true⟩, cur, out, .prompt⟩ : Con).steps fuel es =
      .ok ⟨o2, ⟨rest, true⟩, text, out ++ n!"?- error: " ++ e.explanation ++ n!"\n", .prompt⟩ := by
  have hx : Exchange.Proper ⟨text, n!"\n", [.error e], none⟩ :=
    ⟨hd, hq, .inl ⟨[], rfl, by simp, by simp⟩, .inr ⟨e, rfl, rfl⟩⟩
  have hs : o1.session fuel [clock] = .ok (o2, [.error e]) := by simp only [Org.session, ha, ok_bind, pure, Except.pure]
  obtain ⟨es, h1, h2⟩ := hx.steps ho hl hne hs rest cur out
  refine ⟨es, h1, ?_⟩
  simp only [Exchange.typed, Exchange.shown, List.flatMap_singleton, said] at h2
  simpa using h2

/-- **C46 is false**: an error (also that the time limit is exceeded) after the user has asked for another answer ends the console. -/
theorem C46_later_error_fatal {fuel : Nat} {o o' : Org} {clock e} (ha : o.getAnswer fuel clock = .ok (o', .error e)) (rest cur out ord) :
    (⟨o, ⟨n!";\n" ++ rest, true⟩, cur, out, .more⟩ : Con).step fuel ord clock =
      .ok ⟨o', ⟨rest, true⟩, cur, out ++ (n!"Error: " ++ e.explanation ++ n!"\n"), .abort⟩ := by
  have hq : '\n' ∉ n!";" := by decide
  have hgl : (⟨n!";\n" ++ rest, true⟩ : Cin).getline '\n' [] = (n!";", ⟨rest, true⟩) := getline_hit (r := rest) hq
  simp only [Con.step, Con.next, hgl, if_true, ha, ok_bind, Con.write, pure, Except.pure]

/-- **C46 is false**, concretely: the second answer to `p(X)` is an error, which ends the console. -/
theorem C46_witness :
    ((Con.start id [n!"p(1). p(X) :- X is 1 // 0."] n!"p(X).\n;\np(1).\nq." Org.init0).steps 20 (List.replicate 9 (id, List.replicate 20 false))).toOption.map
      (fun c => (c.out, c.phase)) =
      some (Con.greeting ++ n!"?- [X / 1]Error: ERROR: Arithmetic: evaluation error: zero_divisor\n", .abort) := by
  decide +kernel

/-! ## C47 -/

/-- **C47 is false**: whatever is not a query is answered "false" as well. -/
theorem C47_unread_false {fuel : Nat} {o xs o' ord p} (h : Talk fuel o xs o') (hs : Serves o ord p) {x} (hx : x ∈ xs)
    (hq : ∀ q, ¬ QueryText q (x.text ++ n!".")) : x.shown = n!"?- false\n" := by
  obtain ⟨o1, ord', o2, l, clocks, o3, h1, h2, h3, h4, hex, h5, h6⟩ := h.mem hs hx
  have hqu : o2.queue = [] := by
    unfold Org.loadQueryText at h4
    split at h4
    · rename_i q hp; exact absurd ((queryText_appendDot h2.text).1 (parseQuery_sound hp)) (hq q)
    · cases h4; rfl
    · cases h4; rfl
  have := h2.idle (session_idle hqu h5)
  rw [Exchange.shown, this]
  rfl

/-- **C47 (part that holds).** If an exchange about a query ends with "false", then every instance of the query that is provable over finite trees is an instance of an
answer told before, or the interpreter has rejected the query.
Missing: as in C03; and texts that are not queries or are rejected. -/
theorem C47_false_partial {fuel : Nat} {o xs o' ord p} (h : Talk fuel o xs o') (hs : Serves o ord p) (ho : ord.OK) (hu : Untangled p)
    (hsm : o'.st.functors.length ≤ 65536) {x q} (hx : x ∈ xs) (hq : QueryText q (x.text ++ n!".")) (hb : OnlyClauses p q)
    (hl : x.results.getLast? = some .noAnswer) {ρ : Name → Tree} (hp : ∀ a ∈ q, Proves treeAlg (inForce p) (a.inst treeAlg ρ)) :
    (∃ o1 bs, Asked o1 p q ∧ Res.answer bs ∈ x.results ∧ HasInstance o1.st q fuel bs ρ) ∨
    x.results = [.noAnswer] ∧ ∃ o1 ord' e, Serves o1 ord p ∧ (o1.loadQuery ord' (some q)).2 = .rejected e := by
  rcases C43_asked_partial h hs ho hu hsm hx hq with ⟨o1, clocks, o2, ha, hse⟩ | h
  · obtain ⟨bs, h1, h2⟩ := C03_false_conclusive_partial ha hb hse hl hp
    exact .inl ⟨o1, bs, ha, h1, h2⟩
  · exact .inr h

/-- **C47 is false**, concretely: with the fact `p(X).`, the console says "false" to `p(a`, which is not a query, and to `p(X+1)`, which is rejected, but "true" to `p(a)`. -/
theorem C47_witness :
    ((Con.start id [n!"p(X)."] n!"p(a.\np(X+1).\np(a).\nq." Org.init0).steps 20 (List.replicate 9 (id, List.replicate 20 false))).toOption.map (fun c => (c.out, c.phase)) =
      some (Con.greeting ++ n!"?- false\n?- false\n?- true\n?- ", .quit) := by
  decide +kernel

/-! ## A concrete conversation -/

namespace ConsoleExample

def args : List Name := [n!"p(1). p(2). q(X,f(X))."]
def input : List Char := n!"p(X). \n;\n;\nq(a,Y).\nno\n p( 2 ) .\nq(X,Y).\n\nq.rest"
def output : List Char :=
  n!"?- [X / 1][X / 2]false\n?- [Y / f(a)]?- true\n?- [X / X]\n[Y / f(X)]?- "

def run : R Con := (Con.start id args input Org.init0).steps 30 (List.replicate 9 (id, List.replicate 20 false))

theorem run_out : run.toOption.map (fun c => (c.out, c.phase, c.cin)) = some (Con.greeting ++ output, .quit, ⟨n!"rest", true⟩) := by decide +kernel

/-- C43 applies to it: it consists of exchanges. -/
example : ∃ c xs, run = .ok c ∧ Talk 30 (Con.start id args input Org.init0).org xs c.org ∧ input = xs.flatMap Exchange.typed ++ n!"q." ++ n!"rest" ∧
    output = xs.flatMap Exchange.shown ++ n!"?- " := by
  have h := run_out
  cases hr : run with
  | error => rw [hr] at h; cases h
  | ok c =>
    rw [hr] at h
    simp only [Except.toOption, Option.map_some, Option.some.injEq, Prod.mk.injEq] at h
    obtain ⟨h1, h2, h3⟩ := h
    have hs : Con.start id args input Org.init0 = ⟨(Con.start id args input Org.init0).org, ⟨input, true⟩, [], Con.greeting, .prompt⟩ := by
      have : ∃ o, Con.loadAll id args Org.init0 = some o := by
        have : (Con.loadAll id args Org.init0).isSome = true := by decide +kernel
        exact Option.isSome_iff_exists.1 this
      obtain ⟨o, ho⟩ := this
      simp only [Con.start, ho]
      rfl
    have hr' := hr
    unfold run at hr'
    rw [hs] at hr'
    have he : Envs (List.replicate 9 ((id : HashOrder), List.replicate 20 false)) := fun e he => by rw [List.eq_of_mem_replicate he]; exact id_ok
    obtain ⟨xs, g1, g2, g3⟩ := (C43_conversation he hr' (by rw [h3])).2 h2
    refine ⟨c, xs, rfl, g1, ?_, ?_⟩
    · rw [h3] at g2; exact g2
    · rw [h1, List.append_assoc] at g3; exact List.append_cancel_left g3

end ConsoleExample
end PBfs
