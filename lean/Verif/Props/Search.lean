import Verif.Proof.Search3
import Verif.Spec.Demo
/-!
# Properties of the search: order, time-outs, errors, isolation

C04, C05, C06, C07, C08, C21.  `Reach o` means: `o` is the state of an interpreter after some history of
calls (Spec/History).  `heapAtF execs (j + 1) j` is what alternative `j` sees in its heap.
-/
namespace PBfs
open Org

theorem loadErr_ne_ok (e : CErr) : Load.ofErr e ≠ .ok := by cases e <;> simp [Load.ofErr]

/-! ## C04 -/

/-- **C04**, the queue is first-in first-out: the alternative worked on is the oldest pending one; it is
removed, and what is added goes behind everything else - either the alternative itself (it has only
released an environment) or all alternatives created in this step, in their order of creation. -/
theorem C04_fifo {o o' : Org} {fuel t} (hr : Reach o) (h : o.turn fuel = .ok (o', t)) :
    o.queue = [] ∧ o' = o ∨
    ∃ id rest, o.queue = id :: rest ∧
      ((o'.queue = rest ++ [id] ∧ o'.execs.length = o.execs.length) ∨
       o'.queue = rest ++ List.range' o.execs.length (o'.execs.length - o.execs.length)) := by
  cases hq : o.queue with
  | nil =>
    simp only [turn, hq, pure_ok, Prod.mk.injEq] at h
    exact .inl ⟨rfl, h.1.symm⟩
  | cons id q => exact .inr ⟨id, q, rfl, turn_queue hr.rinv.inv hq h⟩

theorem Runs.rinv {fuel o hist o'} (h : Runs fuel o hist o') (hi : RInv o) : RInv o' := by
  induction h with
  | nil => exact hi
  | snoc _ _ ht ih => exact ih.turn ht

theorem Runs.bfs {fuel o hist o'} (h : Runs fuel o hist o') (hi : RInv o) (hb : Bfs o []) : Bfs o' hist := by
  induction h with
  | nil => exact hb
  | snoc hr hq ht ih => exact Bfs.turn (hr.rinv hi).inv ih hq ht

/-- **C04**: from the moment a query is loaded, work steps happen in non-decreasing order of the length
of their branch.  `hist` lists the work steps with the alternative worked on and what was reported;
`workOn … (hist.take (i+1)) …` is the number of work steps done on the branch of the `i`-th step up to
and including it. -/
theorem C04_breadth_first {o0 o o' : Org} {ord parsed fuel hist} (hr : Reach o0)
    (hl : o0.loadQuery ord parsed = (o, .ok)) (h : Runs fuel o hist o')
    (i j : Nat) (hij : i < j) (hj : j < hist.length) :
    workOn o'.execs (hist.take (i + 1)) (hist[i].1) ≤ workOn o'.execs (hist.take (j + 1)) (hist[j].1) := by
  have ho : Reach o := by have := Reach.query ord parsed hr; rwa [hl] at this
  have hq : o.queue.length ≤ 1 := by
    unfold loadQuery at hl
    simp only at hl
    split at hl
    · cases hl
    · split at hl
      · simp only [Prod.mk.injEq] at hl
        exact absurd hl.2 (loadErr_ne_ok _)
      · cases hl; simp
  have hb : Bfs o [] := by
    refine ⟨by simp, ?_, ?_, by simp, by simp⟩
    · match o.queue, hq with
      | [], _ => simp
      | [x], _ => simp
      | x :: y :: l, h => simp at h
    · intro a _ b _
      simp [workOn]
  have key := (h.bfs ho.rinv hb).mono i j hij hj
  unfold turnWorks at key
  simp only [List.getD_eq_getElem?_getD, List.getElem?_map,
    List.getElem?_eq_getElem (show i < hist.length by omega), List.getElem?_eq_getElem hj, Option.map_some,
    Option.getD_some] at key
  exact key

/-- **C04** for answers: an answer never comes after one with a longer branch. -/
theorem C04_answers_in_order {o0 o o' : Org} {ord parsed fuel hist} (hr : Reach o0)
    (hl : o0.loadQuery ord parsed = (o, .ok)) (h : Runs fuel o hist o')
    (i j : Nat) (hij : i < j) {a b as bs} (hi : hist[i]? = some (a, .answer as)) (hj : hist[j]? = some (b, .answer bs)) :
    workOn o'.execs (hist.take (i + 1)) a ≤ workOn o'.execs (hist.take (j + 1)) b := by
  obtain ⟨hi1, hi2⟩ := List.getElem?_eq_some_iff.1 hi
  obtain ⟨hj1, hj2⟩ := List.getElem?_eq_some_iff.1 hj
  have := C04_breadth_first hr hl h i j hij hj1
  rwa [hi2, hj2] at this

/-! ## C05 -/

/-- **C05**, a call that runs out of time at once changes nothing at all. -/
theorem C05_timeout_no_effect {o : Org} {fuel clock} (h : o.queue ≠ []) :
    o.getAnswer fuel (true :: clock) = .ok (o, .error ⟨.outOfTime, []⟩) := by
  unfold getAnswer
  split
  · contradiction
  · rfl

theorem iterate_add {fuel} (n m : Nat) (o : Org) :
    o.iterate fuel (n + m) = (do
      let r ← o.iterate fuel n
      let s ← r.1.iterate fuel m
      pure (s.1, r.2 ++ s.2)) := by
  induction n generalizing o with
  | zero =>
    simp only [Nat.zero_add, iterate, pure, Except.pure, ok_bind, List.nil_append]
    cases o.iterate fuel m <;> rfl
  | succ n ih =>
    rw [show n + 1 + m = (n + m) + 1 by omega]
    simp only [iterate]
    cases hq : o.queue with
    | nil =>
      simp only [pure, Except.pure, ok_bind, List.nil_append]
      cases m with
      | zero => rfl
      | succ m => simp [iterate, hq, pure, Except.pure]
    | cons =>
      simp only [ih]
      cases o.turn fuel with
      | error => rfl
      | ok r =>
        simp only [ok_bind]
        cases r.1.iterate fuel n with
        | error => rfl
        | ok s =>
          simp only [ok_bind, pure, Except.pure]
          cases s.1.iterate fuel m <;> rfl

theorem reports_append (a b : List Turn) : reports (a ++ b) = reports a ++ reports b := by
  induction a with
  | nil => rfl
  | cons t a ih => cases t <;> simp [reports, ih]

/-- One call of `get_answer` is some number of work steps, and reports what they report. -/
theorem getAnswer_iterate {fuel clock} {o : Org} (hi : RInv o) :
    (∀ f, o.getAnswer fuel clock = .error f → ∃ n, o.iterate fuel n = .error f) ∧
    (∀ o' r, o.getAnswer fuel clock = .ok (o', r) → ∃ ts, o.iterate fuel ts.length = .ok (o', ts) ∧
      [r].filter Res.isReport = reports ts ∧ (r = .noAnswer → o'.queue = [])) := by
  induction clock generalizing o with
  | nil =>
    unfold getAnswer
    split
    · rename_i hq
      refine ⟨by simp [pure, Except.pure], ?_⟩
      intro o' r h
      simp only [pure_ok, Prod.mk.injEq] at h
      obtain ⟨rfl, rfl⟩ := h
      exact ⟨[], rfl, rfl, fun _ => hq⟩
    · refine ⟨by simp [pure, Except.pure], ?_⟩
      intro o' r h
      simp only [pure_ok, Prod.mk.injEq] at h
      obtain ⟨rfl, rfl⟩ := h
      exact ⟨[], rfl, rfl, fun h => by cases h⟩
  | cons b clock ih =>
    unfold getAnswer
    split
    · rename_i hq
      refine ⟨by simp [pure, Except.pure], ?_⟩
      intro o' r h
      simp only [pure_ok, Prod.mk.injEq] at h
      obtain ⟨rfl, rfl⟩ := h
      exact ⟨[], rfl, rfl, fun _ => hq⟩
    · rename_i x q hq
      cases b with
      | true =>
        refine ⟨by simp [pure, Except.pure], ?_⟩
        intro o' r h
        simp only [pure_ok, Prod.mk.injEq] at h
        obtain ⟨rfl, rfl⟩ := h
        exact ⟨[], rfl, rfl, fun h => by cases h⟩
      | false =>
        simp only
        cases ht : o.turn fuel with
        | error f =>
          refine ⟨?_, by simp⟩
          intro f' h
          simp only [error_bind, Except.error.injEq] at h
          subst h
          exact ⟨1, by simp only [iterate, hq, ht]; rfl⟩
        | ok r1 =>
          obtain ⟨o1, t⟩ := r1
          have hi1 := hi.turn ht
          simp only [ok_bind]
          cases t with
          | «continue» =>
            obtain ⟨h1, h2⟩ := ih hi1
            refine ⟨?_, ?_⟩
            · intro f hf
              obtain ⟨n, hn⟩ := h1 f hf
              exact ⟨n + 1, by simp only [iterate, hq, ht, ok_bind, hn]; rfl⟩
            · intro o' r hr
              obtain ⟨ts, hts, hrep, hno⟩ := h2 o' r hr
              refine ⟨.continue :: ts, ?_, hrep, hno⟩
              simp [iterate, hq, ht, hts, pure, Except.pure]
          | answer bs =>
            refine ⟨by simp [pure, Except.pure], ?_⟩
            intro o' r h
            simp only [pure_ok, Prod.mk.injEq] at h
            obtain ⟨rfl, rfl⟩ := h
            exact ⟨[.answer bs], by simp [iterate, hq, ht, pure, Except.pure], rfl, fun h => by cases h⟩
          | error e =>
            refine ⟨by simp [pure, Except.pure], ?_⟩
            intro o' r h
            simp only [pure_ok, Prod.mk.injEq] at h
            obtain ⟨rfl, rfl⟩ := h
            have hk := turn_err_kind hi.inv ht
            refine ⟨[.error e], by simp [iterate, hq, ht, pure, Except.pure], ?_, fun h => by cases h⟩
            simp [reports, Res.isReport, hk]

/-- **C05**: whatever the clocks of any number of `get_answer` calls show, the calls together do some
number of work steps of the one search, end in exactly the state these steps lead to, and report exactly
what these steps report: nothing is lost, repeated or reordered. -/
theorem C05_timeouts_transparent {o o' : Org} {fuel clocks rs} (hr : Reach o)
    (h : o.session fuel clocks = .ok (o', rs)) :
    ∃ ts, o.iterate fuel ts.length = .ok (o', ts) ∧ rs.filter Res.isReport = reports ts := by
  have hi := hr.rinv
  clear hr
  induction clocks generalizing o o' rs with
  | nil =>
    simp only [session, pure_ok, Prod.mk.injEq] at h
    obtain ⟨rfl, rfl⟩ := h
    exact ⟨[], rfl, rfl⟩
  | cons c cs ih =>
    simp only [session, bind_ok, pure_ok, Prod.mk.injEq] at h
    obtain ⟨⟨o1, r⟩, h1, ⟨o2, rs2⟩, h2, rfl, rfl⟩ := h
    obtain ⟨ts, ht, hrep, _⟩ := (getAnswer_iterate hi).2 _ _ h1
    obtain ⟨ts2, ht2, hrep2⟩ := ih h2 (hi.getAnswer h1)
    refine ⟨ts ++ ts2, ?_, ?_⟩
    · rw [List.length_append, iterate_add, ht]
      simp only [ok_bind] at ht2 ⊢
      rw [ht2]
      rfl
    · rw [reports_append, ← hrep, ← hrep2]
      exact List.filter_append [r] rs2

theorem iterate_length {fuel n} {o o' : Org} {ts} (h : o.iterate fuel n = .ok (o', ts)) :
    ts.length ≤ n ∧ (ts.length < n → o'.queue = []) := by
  induction n generalizing o ts with
  | zero =>
    simp only [iterate, pure_ok, Prod.mk.injEq] at h
    obtain ⟨rfl, rfl⟩ := h
    simp
  | succ n ih =>
    unfold iterate at h
    split at h
    · rename_i hq
      simp only [pure_ok, Prod.mk.injEq] at h
      obtain ⟨rfl, rfl⟩ := h
      simp [hq]
    · simp only [bind_ok, pure_ok, Prod.mk.injEq] at h
      obtain ⟨r, _, s, hs, rfl, rfl⟩ := h
      have := ih (show r.1.iterate fuel n = .ok (s.1, s.2) from hs)
      simp only [List.length_cons]
      exact ⟨by omega, fun h => this.2 (by omega)⟩

theorem session_exhausted {fuel clocks} {o o' : Org} {rs} (h : o.session fuel clocks = .ok (o', rs))
    (hl : rs.getLast? = some .noAnswer) (hi : RInv o) : o'.queue = [] := by
  induction clocks generalizing o o' rs with
  | nil =>
    simp only [session, pure_ok, Prod.mk.injEq] at h
    obtain ⟨rfl, rfl⟩ := h
    cases hl
  | cons c cs ih =>
    simp only [session, bind_ok, pure_ok, Prod.mk.injEq] at h
    obtain ⟨⟨o1, r⟩, h1, ⟨o2, rs2⟩, h2, rfl, rfl⟩ := h
    cases cs with
    | nil =>
      simp only [session, pure_ok, Prod.mk.injEq] at h2
      obtain ⟨rfl, rfl⟩ := h2
      simp only [List.getLast?_singleton, Option.some.injEq] at hl
      obtain ⟨ts, _, _, hno⟩ := (getAnswer_iterate hi).2 _ _ h1
      exact hno hl
    | cons c' cs' =>
      refine ih h2 ?_ (hi.getAnswer h1)
      have : rs2 ≠ [] := by
        simp only [session, bind_ok, pure_ok, Prod.mk.injEq] at h2
        obtain ⟨_, _, _, _, _, rfl⟩ := h2
        simp
      rw [← hl]
      cases rs2 with
      | nil => contradiction
      | cons => simp [List.getLast?_cons_cons]

/-- **C05**: any two placements of time-outs under which the search is run to its end (the last call says
that there is no further answer) report the same answers and errors in the same order. -/
theorem C05_schedules_agree {o o1 o2 : Org} {fuel clocks1 clocks2 rs1 rs2} (hr : Reach o)
    (h1 : o.session fuel clocks1 = .ok (o1, rs1)) (h2 : o.session fuel clocks2 = .ok (o2, rs2))
    (e1 : rs1.getLast? = some .noAnswer) (e2 : rs2.getLast? = some .noAnswer) :
    rs1.filter Res.isReport = rs2.filter Res.isReport ∧ o1 = o2 := by
  obtain ⟨ts1, hi1, hr1⟩ := C05_timeouts_transparent hr h1
  obtain ⟨ts2, hi2, hr2⟩ := C05_timeouts_transparent hr h2
  have q1 := session_exhausted h1 e1 hr.rinv
  have q2 := session_exhausted h2 e2 hr.rinv
  have key : ∀ {n m : Nat} {oa ob : Org} {ta tb}, n ≤ m → o.iterate fuel n = .ok (oa, ta) →
      oa.queue = [] → o.iterate fuel m = .ok (ob, tb) → ta = tb ∧ oa = ob := by
    intro n m oa ob ta tb hnm ha hqa hb
    obtain ⟨k, rfl⟩ := Nat.exists_eq_add_of_le hnm
    rw [iterate_add, ha] at hb
    simp only [ok_bind] at hb
    have : oa.iterate fuel k = .ok (oa, []) := by
      cases k with
      | zero => rfl
      | succ k => simp [iterate, hqa, pure, Except.pure]
    rw [this] at hb
    simp only [ok_bind, List.append_nil, pure_ok, Prod.mk.injEq] at hb
    exact ⟨hb.2, hb.1⟩
  have : ts1 = ts2 ∧ o1 = o2 := by
    rcases Nat.le_total ts1.length ts2.length with hle | hle
    · exact key hle hi1 q1 hi2
    · have := key hle hi2 q2 hi1
      exact ⟨this.1.symm, this.2.symm⟩
  exact ⟨by rw [hr1, hr2, this.1], this.2⟩

/-! ## C06 -/

/-- The interpreter in which the alternative `id` has simply failed. -/
def Org.asFailed (o : Org) (id : Nat) : Org :=
  match o.execs[id]? with
  | none => o
  | some e => o.setExec id { e with state := .fail, err := none }

/-- **C06**: after a work step that reported a runtime error, every sequence of further `get_answer` calls
reports exactly the same, and leads to the same state, as if the alternative with the error had simply
failed. -/
theorem C06_error_is_local {o o' : Org} {fuel err} (hr : Reach o) (h : o.turn fuel = .ok (o', .error err)) :
    ∃ id rest, o.queue = id :: rest ∧
      ∀ clocks, (o'.asFailed id).session fuel clocks = (do
        let r ← o'.session fuel clocks
        pure (r.1.asFailed id, r.2)) := by
  have inv := hr.rinv.inv
  cases hq : o.queue with
  | nil => simp [turn, hq, pure, Except.pure] at h
  | cons id q =>
    refine ⟨id, q, rfl, ?_⟩
    intro clocks
    have hdesc := turn_desc inv hq h
    have inv' := inv.turn h
    have hnd := inv.qnd
    rw [hq, List.nodup_cons] at hnd
    cases hdesc with
    | @error e e' _ he hp hs herr =>
      have hlt := (List.getElem?_eq_some_iff.1 he).1
      have hget : (o.execs.set id e')[id]? = some e' := List.getElem?_set_self hlt
      have hu : EqUpTo e' { e' with state := .fail, err := none } := ⟨rfl, rfl, rfl, rfl, rfl⟩
      have key := session_setState (fuel := fuel) (cs := clocks) inv' hnd.1 hget hu
      unfold Org.asFailed
      simp only [hget]
      rw [key]
      cases hs : Org.session fuel clocks { o with queue := q, execs := o.execs.set id e' } with
      | error => rfl
      | ok r =>
        simp only [ok_bind, pure, Except.pure]
        have : r.1.execs[id]? = some e' := by
          have pres : ∀ (cs : List (List Bool)) (o1 : Org) (r : Org × List Res), Inv o1 → id ∉ o1.queue →
              o1.execs[id]? = some e' → o1.session fuel cs = .ok r → r.1.execs[id]? = some e' := by
            intro cs
            induction cs with
            | nil =>
              intro o1 r _ _ h1 h2
              simp only [session, pure_ok] at h2
              rw [← h2]; exact h1
            | cons c cs ih =>
              intro o1 r i1 n1 h1 h2
              simp only [session, bind_ok, pure_ok] at h2
              obtain ⟨x, hx, y, hy, rfl⟩ := h2
              obtain ⟨a1, a2, a3⟩ := (getAnswer_setState (fuel := fuel) (clock := c) i1 n1 h1 hu).2 x hx
              exact ih _ y a3 a2 a1 hy
          exact pres clocks _ r inv' hnd.1 hget hs
        simp only [this]

/-- **C06**, the error is reported once: the alternative is never worked on again. -/
theorem C06_reported_once {o o' o'' : Org} {fuel err hist} (hr : Reach o)
    (h : o.turn fuel = .ok (o', .error err)) (hruns : Runs fuel o' hist o'') :
    ∃ id rest, o.queue = id :: rest ∧ id ∉ hist.map (·.1) := by
  have inv := hr.rinv.inv
  cases hq : o.queue with
  | nil => simp [turn, hq, pure, Except.pure] at h
  | cons id q =>
    refine ⟨id, q, rfl, ?_⟩
    have hdesc := turn_desc inv hq h
    have hi' := hr.rinv.turn h
    have hnd := inv.qnd
    rw [hq, List.nodup_cons] at hnd
    have h0 : id ∉ o'.queue ∧ id < o'.execs.length := by
      cases hdesc with
      | @error e e' _ he hp hs herr => exact ⟨hnd.1, by simpa using (List.getElem?_eq_some_iff.1 he).1⟩
    have : ∀ {hist o''}, Runs fuel o' hist o'' → id ∉ hist.map (·.1) ∧ id ∉ o''.queue ∧ id < o''.execs.length := by
      intro hist o'' hr
      induction hr with
      | nil => exact ⟨by simp, h0⟩
      | snoc hr2 hq2 ht ih =>
        obtain ⟨i1, i2, i3⟩ := ih
        have := turn_not_pending (hr2.rinv hi').inv ht i2 i3
        refine ⟨?_, this⟩
        simp only [List.map_append, List.map_cons, List.map_nil, List.mem_append, List.mem_singleton, not_or]
        refine ⟨i1, ?_⟩
        rintro rfl
        exact i2 (by simp [hq2])
    exact (this hruns).1

/-! ## C07 -/

/-- **C07**: once `get_answer` has reported that there is no answer left, every further sequence of calls
only reports the same, and changes nothing. -/
theorem C07_exhaustion_final {o o' : Org} {fuel clock} (hr : Reach o)
    (h : o.getAnswer fuel clock = .ok (o', .noAnswer)) (clocks : List (List Bool)) :
    o'.session fuel clocks = .ok (o', clocks.map fun _ => .noAnswer) := by
  obtain ⟨_, _, _, hno⟩ := (getAnswer_iterate hr.rinv).2 _ _ h
  have hq := hno rfl
  induction clocks with
  | nil => rfl
  | cons c cs ih =>
    have : o'.getAnswer fuel c = .ok (o', .noAnswer) := by
      unfold getAnswer
      split
      · rfl
      · rename_i hq'; rw [hq] at hq'; cases hq'
    simp only [session, this, ok_bind, ih]
    rfl

/-! ## C08 -/

/-- **C08**: work on one alternative changes no other alternative - neither its registers, environments,
remaining goals and own heap (the whole record is the same), nor what it sees in the heaps of its
ancestors. -/
theorem C08_isolation {o o' : Org} {fuel id rest t} (hr : Reach o) (hq : o.queue = id :: rest)
    (h : o.turn fuel = .ok (o', t)) (j : Nat) (hj : j ≠ id) (hlt : j < o.execs.length) :
    o'.execs[j]? = o.execs[j]? ∧ ∀ a, heapAtF o'.execs (j + 1) j a = heapAtF o.execs (j + 1) j a := by
  have inv := hr.rinv.inv
  have fr := turn_frame inv hq h
  refine ⟨fr.same j hj hlt, fun a => ?_⟩
  exact heapAtF_isolated inv.parLt (fun k e he => inv.no_child (by simp [hq]) he) fr.same _ j a hj hlt

/-- **C08** over any stretch of the search: as long as it is not an alternative's own turn, nothing
changes for it. -/
theorem C08_isolation_run {o o' : Org} {fuel hist} (hr : Reach o) (h : Runs fuel o hist o')
    (j : Nat) (hj : j ∉ hist.map (·.1)) (hlt : j < o.execs.length) :
    o'.execs[j]? = o.execs[j]? ∧ ∀ a, heapAtF o'.execs (j + 1) j a = heapAtF o.execs (j + 1) j a := by
  have : ∀ {hist o'}, Runs fuel o hist o' → j ∉ hist.map (·.1) → (o'.execs[j]? = o.execs[j]? ∧
      ∀ a, heapAtF o'.execs (j + 1) j a = heapAtF o.execs (j + 1) j a) ∧ j < o'.execs.length := by
    intro hist o' h
    induction h with
    | nil => intro _; exact ⟨⟨rfl, fun _ => rfl⟩, hlt⟩
    | @snoc hist o1 o2 id q t hr2 hq ht ih =>
      intro hj
      simp only [List.map_append, List.map_cons, List.map_nil, List.mem_append, List.mem_singleton, not_or] at hj
      obtain ⟨⟨i1, i2⟩, i3⟩ := ih hj.1
      have inv := (hr2.rinv hr.rinv).inv
      have fr := turn_frame inv hq ht
      refine ⟨⟨(fr.same j hj.2 i3).trans i1, fun a => ?_⟩, Nat.lt_of_lt_of_le i3 fr.len⟩
      rw [← i2 a]
      exact heapAtF_isolated inv.parLt (fun k e he => inv.no_child (by simp [hq]) he) fr.same _ j a hj.2 i3
  exact (this h hj).1

/-! ## C21 -/

/-- **C21**: what a `load_query` does depends on the loaded program and the symbol table only, not on
pending alternatives, statistics or anything else left from earlier queries; and the program is kept. -/
theorem C21_fresh {o1 o2 : Org} {ord parsed} (hp : o1.program = o2.program) (hb : o1.builtins = o2.builtins)
    (hs : o1.st = o2.st) (hg : o1.gen = o2.gen)
    (hok : (o1.loadQuery ord parsed).2 = .ok) :
    o1.loadQuery ord parsed = o2.loadQuery ord parsed ∧
    (o1.loadQuery ord parsed).1.calls = 0 ∧ (o1.loadQuery ord parsed).1.program = o1.program := by
  unfold loadQuery at hok ⊢
  simp only [← hs] at hok ⊢
  split
  · simp at hok
  · split
    · rename_i h1
      simp only [h1] at hok
      exact absurd hok (loadErr_ne_ok _)
    · simp [hp, hb, hg]

/-- **C21**: a rejected query leaves no pending alternative and resets the statistics: `get_answer` says
that there is no answer, and the loaded program is unaffected. -/
theorem C21_rejected {o : Org} {ord parsed} (h : (o.loadQuery ord parsed).2 ≠ .ok) (fuel clock) :
    let o' := (o.loadQuery ord parsed).1
    o'.getAnswer fuel clock = .ok (o', .noAnswer) ∧ o'.program = o.program ∧ o'.builtins = o.builtins ∧
      o'.calls = 0 := by
  unfold loadQuery at h ⊢
  simp only at h ⊢
  split
  · refine ⟨?_, rfl, rfl, rfl⟩
    unfold getAnswer; rfl
  · split
    · refine ⟨?_, rfl, rfl, rfl⟩
      unfold getAnswer; rfl
    · simp_all

/-! ## The hypotheses can be met -/
namespace SearchExamples
open Demo

/-- `p(a). p(b). …`, query `r(X)`: a search with branches of different lengths. -/
def o1 : Org := demo prog [.fn n!"r" [.var n!"X"]]
/-- a search in which one of two alternatives raises an error -/
def oE : Org := demo progE [.fn n!"e" [.var n!"X"]]

/-- C04: the order of the work steps of a search with 9 steps on 4 branches. -/
example : ∃ hist o', Runs 20 o1 hist o' ∧ hist.map (·.1) = [0, 1, 2, 3, 4, 5, 6, 7, 8] ∧
    (List.range hist.length).map (fun i => workOn o'.execs (hist.take (i + 1)) ((hist.map (·.1)).getD i 0))
      = [1, 2, 3, 4, 4, 5, 5, 6, 6] := by
  cases h : Org.history 20 30 o1 [] with
  | error =>
    have : (Org.history 20 30 o1 []).isOk = true := by decide +kernel
    rw [h] at this; cases this
  | ok r =>
    refine ⟨r.2, r.1, Org.history_runs .nil h, ?_⟩
    have : (match Org.history 20 30 o1 [] with
      | .ok r => decide (r.2.map (·.1) = [0, 1, 2, 3, 4, 5, 6, 7, 8] ∧ (List.range r.2.length).map
          (fun i => workOn r.1.execs (r.2.take (i + 1)) ((r.2.map (·.1)).getD i 0)) = [1, 2, 3, 4, 4, 5, 5, 6, 6])
      | .error _ => false) = true := by decide +kernel
    rw [h] at this
    simpa using this

/-- C05: two quite different placements of time-outs run the same search to its end. -/
example : (match oE.session 20 [[false, true], [true], [false, false, false], [false, false, false, false], List.replicate 20 false, []],
      oE.session 20 [List.replicate 20 false, List.replicate 20 false, List.replicate 20 false] with
    | .ok r1, .ok r2 => decide (r1.2 = [.error ⟨.outOfTime, []⟩, .error ⟨.outOfTime, []⟩, .answer [⟨n!"X", n!"1"⟩],
          .error ⟨.divByZero, []⟩, .noAnswer, .noAnswer] ∧
        r2.2 = [.answer [⟨n!"X", n!"1"⟩], .error ⟨.divByZero, []⟩, .noAnswer])
    | _, _ => false) = true := by decide +kernel

end SearchExamples

end PBfs
