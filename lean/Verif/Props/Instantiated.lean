import Verif.Props.Builtins
import Verif.Props.Computes
import Verif.Props.Linear

namespace PBfs

open Org SoundExamples

/-! # C84: programs that hand on what they know never run into unbound variables in arithmetic

`is` evaluates its right side, and ends a branch of the search with the message "Arguments are not sufficiently instantiated" if it meets an unbound variable
there (/repo/src/wam/runtime_errors/err_handling.cpp:18-26).  For programs that are well-moded (`WellModed` of Spec/Modes, a property of
the text of the program and the query alone) with a mode that has the right side of `is` among the inputs this never happens. -/

/-- What is wrong with a ground term in arithmetic. -/
theorem OTerm.Bad.of_ground {t : OTerm} {k} (h : t.Bad k) (hg : t.ground = true) : k = .notArithmetic ∨ k = .divByZero := by
  induction h with
  | var => cases hg
  | cons | fn => exact .inl rfl
  | left _ ih => simp only [OTerm.ground, OTerm.grounds, Bool.and_eq_true] at hg; exact ih hg.1
  | right _ ih => simp only [OTerm.ground, OTerm.grounds, Bool.and_eq_true] at hg; exact ih hg.2.1
  | zero => exact .inr rfl

theorem Tame.turn_error {X : Ctx} (ok : X.OK) {M R Q} (hi : M.ins ⟨n!"is", 2⟩ 1 = true) {o o' : Org} (w : Work X o) (t : Tame X M R Q o) {fuel err}
    (ht : o.turn fuel = .ok (o', .error err)) : err.kind = .notArithmetic ∨ err.kind = .divByZero := by
  cases hq : o.queue with
  | nil => simp [Org.turn, hq, pure, Except.pure] at ht
  | cons id q =>
  obtain ⟨e, k, L, hp, hw, hc, hmd, hac⟩ := t id (by simp [hq])
  cases k with
  | res b fr fs =>
    cases hcd : fr.codes with
    | nil =>
      obtain ⟨rfl, o1, e', fr', fs', h1, _⟩ := step_dealloc (fuel := fuel) w.inv w.gen hq hp hcd
      rw [h1] at ht; simp at ht
    | cons c cs =>
      obtain ⟨o1, f, ps, fs', L', h1, _⟩ := step_goal (fuel := fuel) ok w.inv w.st w.gen w.prog hq hp hcd
      rw [h1] at ht; simp at ht
  | head f ps fs r =>
    obtain ⟨hrun, hr, rest, _, C⟩ := hp.exec
    cases hr with
    | @user cl h1 h2 h3 =>
      rcases step_user (fuel := fuel) w.inv w.st w.gen hq hp h1 h2 h3 with ⟨t1, _⟩ | ⟨o1, B, _, h⟩
      · rw [t1] at ht; simp at ht
      · rcases h with ⟨t1, _⟩ | ⟨e', fr', fs', t1, _⟩ | ⟨pre, hp', t1, _⟩
        · rw [t1] at ht; simp at ht
        · rw [t1] at ht; simp at ht
        · rw [t1, bind_ok] at ht
          obtain ⟨bs, _, ht⟩ := ht
          simp at ht
    | @builtin b sub src h1 h2 =>
      subst h1 h2
      have h := builtin_turn (fuel := fuel) ok w.inv w.st w.gen hq hp
      cases hr : runData (preOf o.execs e) fuel X.st (builtinData b) { e with regs := Org.resize 4 e.regs } with
      | error x =>
        rw [hr] at h
        rw [show o.turn fuel = .error x from h] at ht; simp at ht
      | ok e1 =>
        rw [hr] at h
        obtain ⟨o1, B, _, h⟩ := h
        rcases h with ⟨s1, t1, _⟩ | ⟨err', s1, s2, t1, _⟩ | ⟨e', fr', fs', s1, t1, _⟩ | ⟨s1, t1, _⟩
        · rw [t1] at ht; simp at ht
        · rw [t1] at ht
          simp only [Except.ok.injEq, Prod.mk.injEq, Turn.error.injEq] at ht
          obtain ⟨_, rfl⟩ := ht
          by_cases hb : b = .is
          · subst hb
            obtain ⟨p0, p1, v, rfl, l0, l1, hev, hv⟩ := is_cases C hrun hr
            rcases hv with ⟨v, rfl, hs⟩ | ⟨err'', rfl, _, he⟩
            · exact absurd s1 hs
            · rw [s2] at he
              cases he
              obtain ⟨N, hfix⟩ := C.fixed hmd hac
              obtain ⟨u, _, hu⟩ := hfix 1 p1 rfl (by
                have : Builtin.name .is = n!"is" := rfl
                rw [this]
                simp [Modes.at, hi])
              obtain ⟨x, hx, hg, _⟩ := hu.ground C.good l1
              exact OTerm.Bad.of_ground (evalArith_result C.good fuel l1 hx hev) hg
          · obtain ⟨p0, p1, r, rfl, _, _, _, _, hs⟩ := compare_run hb C hrun hr
            rw [s1] at hs
            split at hs <;> cases hs
        · rw [t1] at ht; simp at ht
        · rw [t1, bind_ok] at ht
          obtain ⟨bs, _, ht⟩ := ht
          simp at ht

theorem Tame.iterate_error {X : Ctx} (ok : X.OK) {M R Q} (hT : X.Moded M Q) (hi : M.ins ⟨n!"is", 2⟩ 1 = true) {fuel} : ∀ (k : Nat) {o : Org}, Work X o → Tame X M R Q o →
    ∀ {o' ts}, o.iterate fuel k = .ok (o', ts) → ∀ err, Turn.error err ∈ ts → err.kind = .notArithmetic ∨ err.kind = .divByZero := by
  intro k
  induction k with
  | zero =>
    intro o w t o' ts h err he
    simp only [Org.iterate, pure_ok, Prod.mk.injEq] at h
    rw [← h.2] at he; cases he
  | succ k ih =>
    intro o w t o' ts h err he
    cases hq : o.queue with
    | nil =>
      simp only [Org.iterate, hq, pure_ok, Prod.mk.injEq] at h
      rw [← h.2] at he; cases he
    | cons id q =>
      simp only [Org.iterate, hq, bind_ok, pure_ok] at h
      obtain ⟨⟨o1, t1⟩, h1, ⟨o2, ts2⟩, h2, h3⟩ := h
      cases h3
      rcases List.mem_cons.1 he with rfl | he
      · exact t.turn_error ok hi w h1
      · exact ih (w.next ok h1) (t.next ok hT w h1).1 h2 err he

/-- **C84**: no turn of the search for a query with known inputs ends with the error of unbound variables. -/
theorem C84_turns {o o' : Org} {p atoms M fuel k ts} (h : Asked o p atoms) (hM : WellModed M p atoms) (hi : M.ins ⟨n!"is", 2⟩ 1 = true)
    (hr : o.iterate fuel k = .ok (o', ts)) : ∀ err, Turn.error err ∈ ts → err.kind = .notArithmetic ∨ err.kind = .divByZero :=
  (h.tame hM hM.query).2.iterate_error h.work.1 (h.tame hM hM.query).1 hi k h.work.2 hr

theorem error_of_reports {ts : List Turn} {err} (h : Res.error err ∈ reports ts) : Turn.error err ∈ ts := by
  induction ts with
  | nil => cases h
  | cons t ts ih =>
    cases t with
    | «continue» => exact .tail _ (ih h)
    | answer bs =>
      simp only [reports, List.mem_cons, reduceCtorEq, false_or] at h
      exact .tail _ (ih h)
    | error e =>
      simp only [reports, List.mem_cons, Res.error.injEq] at h
      rcases h with rfl | h
      · exact .head _
      · exact .tail _ (ih h)

/-- **C84, calls**: nor does any call of `get_answer` return it, however the time limit interrupts the search. -/
theorem C84_sessions {o o' : Org} {p atoms M fuel clocks rs} (h : Asked o p atoms) (hM : WellModed M p atoms) (hi : M.ins ⟨n!"is", 2⟩ 1 = true)
    (hs : o.session fuel clocks = .ok (o', rs)) : ∀ err, Res.error err ∈ rs → err.kind = .notArithmetic ∨ err.kind = .divByZero ∨ err.kind = .outOfTime := by
  intro err he
  obtain ⟨ts, h1, h2⟩ := C05_timeouts_transparent h.reach hs
  by_cases ht : err.kind = .outOfTime
  · exact .inr (.inr ht)
  · have : Res.error err ∈ reports ts := by
      rw [← h2]; exact List.mem_filter.2 ⟨he, by simp [Res.isReport, ht]⟩
    exact (C84_turns h hM hi h1 err (error_of_reports this)).imp_right .inl

theorem text_no_hint {r : Res} (h : ∀ e, r = .error e → e.kind ≠ .notInstantiated) : ¬ n!"ERROR: Arguments" <+: r.text := by
  rintro ⟨t, ht⟩
  have hl := C50_texts r
  rw [← ht] at hl
  cases r with
  | noAnswer => simp [LineFor] at hl
  | answer bs =>
    cases bs with
    | nil => simp [LineFor] at hl
    | cons b bs => cases bs <;> simp [LineFor] at hl
  | error e =>
    have := h e rfl
    simp only [LineFor] at hl
    split at hl
    · simp at hl
    · contradiction
    · obtain ⟨post, hl⟩ := hl
      simp at hl
    · simp at hl
    · simp at hl
  | running => simp [LineFor] at hl

/-- **C84, the web page**: no line of a box says that arguments are not sufficiently instantiated, if the goals of program and query are called with known inputs. -/
theorem C84_lines {fuel : Nat} {es : List Event} {s : Site} (ha : Ample es) (ho : ProperRuns es) (h : Site.empty.steps fuel es = .ok s) :
    ∀ p ∈ s.pages, ∃ ord program c, Event.run ord program p.query c ∈ es ∧ ∀ cs q M, Readable program p.query cs q → WellModed M cs q → M.ins ⟨n!"is", 2⟩ 1 = true →
      ∀ l ∈ p.lines, ¬ n!"ERROR: Arguments" <+: l := by
  intro p hp
  obtain ⟨ord, program, c, o0, o, h1, h2, _, ts, k, h3, h4, h5⟩ := C50_lines_show_search ha h p hp
  refine ⟨ord, program, c, h1, fun cs q M hr hM hi l hl => ?_⟩
  obtain ⟨a1, a2⟩ := h2.asked (ho _ _ _ _ h1) hr
  by_cases hs : l = n!"Soft memory limit reached. Please close some results."
  · rw [hs]; decide
  · have : l ∈ p.lines.filter (· ≠ n!"Soft memory limit reached. Please close some results.") := List.mem_filter.2 ⟨hl, by simpa using hs⟩
    rw [h5] at this
    rcases List.mem_append.1 this with g3 | g3
    · obtain ⟨r, hr, rfl⟩ := List.mem_map.1 g3
      refine text_no_hint fun e he => ?_
      subst he
      rcases C84_turns a1 hM hi h3 e (error_of_reports hr) with h | h <;> rw [h] <;> decide
    · rw [List.eq_of_mem_replicate g3]; decide

theorem Talk.no_hint {fuel : Nat} {o xs o' ord cs n M} (h : Talk fuel o xs o') (hs : Serves o ord cs) (ho : ord.OK) (hu : Untangled cs) (hf : FedBy o n)
    (hn : n + (xs.map (·.text.length)).sum ≤ 32765) {x q} (hx : x ∈ xs) (hq : QueryText q (x.text ++ n!".")) (hd : Node.defined [] q = true) (hM : WellModed M cs q)
    (hi : M.ins ⟨n!"is", 2⟩ 1 = true) : ∀ e, Res.error e ∈ x.results → e.kind = .notArithmetic ∨ e.kind = .divByZero ∨ e.kind = .outOfTime := by
  obtain ⟨ys, zs, o1, ord', o2, l, clocks, o3, rfl, h1, h2, h3, h4, h5, h6⟩ := h.split hx
  have hlen : n + (ys.map (·.text.length)).sum + x.text.length ≤ 32765 := by simp at hn; omega
  obtain ⟨a1, a2, _⟩ := asked_of_text (h1.serves hs).1 (h1.fed hf) ho hu h3 h2.text h4 h5 hlen hq hd
  exact C84_sessions a1 hM hi h6

/-- **C84, the console**: what has been typed is a sequence of exchanges, what has been written is what these show, and no exchange about a query whose goals are called with known inputs has the
error of unbound variables. -/
theorem C84_console {fuel : Nat} {ord : HashOrder} (ho : ord.OK) {args : List Name} {input : List Char} {o0 o : Org} (h0 : Org.init = .ok o0) (hl : Con.loadAll ord args o0 = some o)
    {cs} (hc : WorksWith args cs) (hu : Untangled cs) (hlen : (args.map List.length).sum + input.length ≤ 32765) {es c} (he : Envs es)
    (h : (Con.start ord args input o0).steps fuel es = .ok c) (hg : c.cin.good = true) (hp : c.phase = .prompt) :
    ∃ xs : List Exchange, input = xs.flatMap Exchange.typed ++ c.cin.rest ∧ c.out = (Con.start ord args input o0).out ++ xs.flatMap Exchange.shown ∧
      ∀ x ∈ xs, ∀ q M, QueryText q (x.text ++ n!".") → Node.defined [] q = true → WellModed M cs q → M.ins ⟨n!"is", 2⟩ 1 = true →
        ∀ e, Res.error e ∈ x.results → e.kind = .notArithmetic ∨ e.kind = .divByZero ∨ e.kind = .outOfTime := by
  have hst : Con.start ord args input o0 = ⟨o, ⟨input, true⟩, [], (Con.start ord args input o0).out, .prompt⟩ := by
    simp only [Con.start, hl]
  rw [hst] at h
  obtain ⟨xs, e1, e2, e3⟩ := (C43_conversation he h hg).1 hp
  have hf : FedBy o (0 + (args.map List.length).sum) := FedBy.loadAll (.init h0) hl
  have hlen' : (xs.flatMap Exchange.typed).length ≤ input.length := by rw [e2]; simp
  have := typed_lengths xs
  exact ⟨xs, e2, e3, fun x hx q M hq hd hM hi => e1.no_hint (hc.serves ho h0 hl) ho hu hf (by omega) hx hq hd hM hi⟩

/-! ## Concrete cases -/

namespace ComputesExample

/-- The factorial program is such a program. -/
theorem wellModed (n : Nat) : WellModed modes fac (askFac n) :=
  .of [⟨n!"fac", 2⟩, ⟨n!"is", 2⟩, ⟨n!"\\==", 2⟩] (directed n).builtins (fun a ha => by obtain rfl := List.mem_singleton.1 ha; exact .head _) (by decide) (directed n).query

example : Asked (demo fac (askFac 5)) fac (askFac 5) ∧ WellModed modes fac (askFac 5) ∧ modes.ins ⟨n!"is", 2⟩ 1 = true := ⟨asked, wellModed 5, by decide⟩

/-- No factorial is computed with unbound variables. -/
theorem C84_factorial (n : Nat) {o o' : Org} {fuel clocks rs} (h : Asked o fac (askFac n)) (hs : o.session fuel clocks = .ok (o', rs)) :
    ∀ err, Res.error err ∈ rs → err.kind ≠ .notInstantiated := by
  intro err he
  rcases C84_sessions h (wellModed n) (by decide) hs err he with h | h | h <;> rw [h] <;> decide

/-- `fac(a,F)` -/
def askWrong : List Node := [.fn n!"fac" [.cons n!"a", .var n!"F"]]

/-- `fac(N,F)` -/
def askOpen : List Node := [.fn n!"fac" [.var n!"N", .var n!"F"]]

/-- **C84**: the other errors do occur, and without known inputs so does this one. -/
theorem C84_needed : (Asked (demo fac askWrong) fac askWrong ∧ WellModed modes fac askWrong ∧
      ((demo fac askWrong).iterate 20 20).toOption.map (fun r => (reports r.2).map fun | .error e => some e.kind | _ => none) = some [some .notArithmetic]) ∧
    Asked (demo fac askOpen) fac askOpen ∧ ¬ WellModed modes fac askOpen ∧
      ((demo fac askOpen).iterate 20 20).toOption.map (fun r => (reports r.2).map fun | .error e => some e.kind | _ => none) = some [none, some .notInstantiated] := by
  refine ⟨⟨asked_demo (by decide +kernel) (by decide +kernel) (safe_of_b (by decide +kernel)) (by decide) (by simp [askWrong]) (by decide +kernel), ?_, by decide +kernel⟩,
    asked_demo (by decide +kernel) (by decide +kernel) (safe_of_b (by decide +kernel)) (by decide) (by simp [askOpen]) (by decide +kernel), fun h => ?_, by decide +kernel⟩
  · exact .of [⟨n!"fac", 2⟩, ⟨n!"is", 2⟩, ⟨n!"\\==", 2⟩] (directed 0).builtins (fun a ha => by obtain rfl := List.mem_singleton.1 ha; exact .head _) (by decide) (by decide)
  · exact absurd h.query (by decide)

end ComputesExample

end PBfs
