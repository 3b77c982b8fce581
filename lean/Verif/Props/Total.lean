import Verif.Spec.Total
import Verif.Props.Acceptable
import Verif.Props.Instantiated
import Verif.Props.Undefined
import Verif.Props.Ends

namespace PBfs

open Org SoundExamples

/-! # C85: programs that compute, and come to an end -/

section
variable {P : List Clause} {lev : GAtom ITree → Nat → Prop} {I : GAtom ITree → Prop}

theorem Callable.weaken {I' : GAtom ITree → Prop} (h : ∀ g, I' g → I g) {k} : ∀ {gs}, Callable lev I k gs → Callable lev I' k gs
  | [], _ => trivial
  | _ :: _, hc => ⟨hc.1, fun hg => (hc.2 (h _ hg)).weaken h⟩

theorem Callable.below {k} : ∀ {gs}, Callable lev I k gs → BelowLevel lev I k gs
  | [], _ => trivial
  | _ :: _, hc => ⟨.inr hc.1, fun hg => (hc.2 hg).below⟩

/-- What was demanded holds with truth itself in place of a property of the results. -/
theorem Contract.truth (h : Contract P lev I) : Contract P lev (Truth itreeAlg P) :=
  ⟨fun _ h => h, fun c hc ρ k hl => (h.body c hc ρ k hl).weaken h.results, h.defined⟩

theorem Contract.acceptable (h : Contract P lev I) : Acceptable P lev (Truth itreeAlg P) := fun c hc ρ k hl => (h.truth.body c hc ρ k hl).below

/-- Each of the goals may be called, if those before are true. -/
def Clear (P : List Clause) (lev : GAtom ITree → Nat → Prop) : List (GAtom ITree) → Prop
  | [] => True
  | g :: gs => (∃ j, lev g j) ∧ (Truth itreeAlg P g → Clear P lev gs)

theorem Clear.goals {k} {rest : List (GAtom ITree)} : ∀ {gs}, Callable lev (Truth itreeAlg P) k gs → ((∀ g ∈ gs, Truth itreeAlg P g) → Clear P lev rest) → Clear P lev (gs ++ rest)
  | [], _, h => h (by simp)
  | g :: gs, hc, h => by
    obtain ⟨⟨j, _, h1⟩, h2⟩ := hc
    refine ⟨⟨j, h1⟩, fun hg => Clear.goals (h2 hg) fun hs => h fun x hx => ?_⟩
    rcases List.mem_cons.1 hx with rfl | hx
    · exact hg
    · exact hs x hx

def SItem.insts : SItem → Insts
  | .goals _ S => S
  | .clause _ _ S => S
  | .own _ _ S => S

/-- In all instances of the item the goals may be called. -/
def SItem.Clear (P : List Clause) (lev : GAtom ITree → Nat → Prop) (i : SItem) : Prop := ∀ ρ gs, i.insts ρ gs → PBfs.Clear P lev gs

end

section
variable {p : List Clause} {atoms : List Node} {M : Modes} {lev : GAtom ITree → Nat → Prop} {I : GAtom ITree → Prop}

theorem STurn.clear (hM : Directed M p atoms) (hC : Contract (inForce p) lev I) {i news r} (t : STurn (inForce p) i news r) (hm : i.Moded M p atoms) (hi : i.Clear (inForce p) lev) :
    ∀ j ∈ news, j.Clear (inForce p) lev := by
  cases t with
  | leave => exact fun j hj => by rw [List.mem_singleton.1 hj]; exact hi
  | call =>
    intro j hj
    obtain ⟨c, hc, rfl⟩ := List.mem_map.1 hj
    exact hi
  | callOwn => exact fun j hj => by rw [List.mem_singleton.1 hj]; exact hi
  | @enter c ts S =>
    intro j hj
    rw [List.mem_singleton.1 hj]
    rintro ρ gs ⟨σ, rest, hs, rfl⟩
    obtain ⟨⟨k, h1⟩, h2⟩ := hi ρ _ hs
    exact .goals (hC.truth.body c hm.1 σ k h1) fun hall => h2 (.clause hm.1 fun b hb => hall _ (List.mem_map_of_mem hb))
  | ownPass ho =>
    intro j hj
    rw [List.mem_singleton.1 hj]
    intro ρ gs hs
    obtain ⟨g, h1, h2⟩ := Steady.true hM hm ho ρ gs hs
    exact (hi ρ _ h1).2 h2
  | reject | answer | ownFail | ownAnswer | error => intro j hj; cases hj

theorem SRun.clear (hM : Directed M p atoms) (hC : Contract (inForce p) lev I) {q rs q'} (hr : SRun (inForce p) q rs q')
    (hm : ∀ i ∈ q, i.Moded M p atoms ∧ i.Clear (inForce p) lev) : ∀ i ∈ q', i.Moded M p atoms ∧ i.Clear (inForce p) lev := by
  induction hr with
  | nil => exact hm
  | cons t _ ih =>
    obtain ⟨h1, h2⟩ := hm _ List.mem_cons_self
    refine ih fun i hi => ?_
    rcases List.mem_append.1 hi with hi | hi
    · exact hm i (List.mem_cons_of_mem _ hi)
    · exact ⟨t.moded hM h1 i hi, t.clear hM hC h1 h2 i hi⟩

/-- The query may be asked. -/
theorem query_clear (hM : Directed M p atoms) (hC : Contract (inForce p) lev I) {n} (hq : ∀ ρ, Callable lev I n (atoms.map (Node.inst itreeAlg ρ))) :
    ∀ i ∈ [SItem.goals (atoms.map (.goal ·.fv)) (Insts.query atoms)], i.Moded M p atoms ∧ i.Clear (inForce p) lev := by
  intro i hi
  rw [List.mem_singleton.1 hi]
  refine ⟨?_, ?_⟩
  · simp only [SItem.Moded, calls_goals]; exact .query hM
  · rintro ρ gs rfl
    simpa using Clear.goals (rest := []) ((hq ρ).weaken hC.results) fun _ => trivial

/-- Breadth-first resolution ends. -/
theorem C85_resolution (hM : Directed M p atoms) (hC : Contract (inForce p) lev I) {b m n} (hb : AtMost b (inForce p)) (hm : ∀ c ∈ inForce p, c.body.length ≤ m)
    (hq : ∀ ρ, Callable lev I n (atoms.map (Node.inst itreeAlg ρ))) {rs q'} (h : SRun (inForce p) [.goals (atoms.map (.goal ·.fv)) (Insts.query atoms)] rs q') :
    rs.length ≤ enough b m n atoms.length := by
  have := h.length_le_of (I := Truth itreeAlg (inForce p)) (fun c hc ρ h => .clause hc h) hC.acceptable hm (b := b) (by have := hb.two; omega) hb (J := fun i => i.Moded M p atoms)
    (fun _ _ _ t hi => t.moded hM hi) (fun f ts S S' hS ho _ => Steady.true hM hS ho) [(_, 3 * atoms.length * (m + 1) ^ n)] rfl (fun x hx => by
      simp only [List.mem_singleton] at hx
      subst hx
      exact ⟨query_fit fun ρ => ((hq ρ).weaken hC.results).below, (query_clear hM hC hq _ (by simp)).1⟩)
  simpa [SItem.cost, enough] using this

/-- Nothing that is undefined is met. -/
theorem Contract.no_fault (hM : Directed M p atoms) (hC : Contract (inForce p) lev I) {n} (hq : ∀ ρ, Callable lev I n (atoms.map (Node.inst itreeAlg ρ))) {rs td S items x}
    (h : SRun (inForce p) [.goals (atoms.map (.goal ·.fv)) (Insts.query atoms)] rs (.own ⟨n!"is", 2⟩ td S :: items)) (hS : S.Always fun _ e => Undefined x e) : False := by
  obtain ⟨hm, hc⟩ := h.clear hM hC (query_clear hM hC hq) _ List.mem_cons_self
  obtain ⟨⟨ρ, n', d, e, gs, hs, _⟩, hall⟩ := hS
  have := hall _ _ _ _ _ hs
  obtain ⟨_, _, he⟩ := Steady.args (show Steady _ _ _ _ _ from hm) hs
  obtain rfl := congrArg GAtom.name he
  obtain ⟨⟨k, hl⟩, _⟩ := hc ρ _ hs
  exact hC.defined _ _ _ hl x this

/-- Errors are neither about terms that are not arithmetic nor, where all expressions that may be evaluated have values, about anything else. -/
theorem STurn.error_kind (hC : Contract (inForce p) lev I) {i news k} (t : STurn (inForce p) i news (some (.error k))) (hm : i.Moded M p atoms)
    (hi : i.Clear (inForce p) lev) : k = .notInstantiated ∨ k ≠ .notArithmetic ∧ ¬ HasResults lev := by
  cases t with
  | error ho =>
    cases ho with
    | «open» => exact .inl rfl
    | other hS =>
      obtain ⟨⟨ρ, n', d, e, gs, hs, _⟩, hall⟩ := hS
      have ho := hall _ _ _ _ _ hs
      obtain ⟨_, _, he⟩ := Steady.args (show Steady _ _ _ _ _ from hm) hs
      obtain rfl := congrArg GAtom.name he
      obtain ⟨⟨j, hl⟩, _⟩ := hi ρ _ hs
      refine .inr ⟨?_, fun hv => ?_⟩
      · rintro rfl
        exact hC.defined _ _ _ hl _ (.message ho)
      · obtain ⟨v, hv⟩ := hv _ _ _ hl
        exact ho.no_value itreeAlg_sharp rfl hv

theorem SRun.error_kind (hM : Directed M p atoms) (hC : Contract (inForce p) lev I) {q rs q'} (hr : SRun (inForce p) q rs q')
    (hm : ∀ i ∈ q, i.Moded M p atoms ∧ i.Clear (inForce p) lev) {k} (hk : some (.error k) ∈ rs) :
    k = .notInstantiated ∨ k ≠ .notArithmetic ∧ ¬ HasResults lev := by
  induction hr with
  | nil => cases hk
  | cons t _ ih =>
    obtain ⟨h1, h2⟩ := hm _ List.mem_cons_self
    rcases List.mem_cons.1 hk with rfl | hk
    · exact t.error_kind hC h1 h2
    · refine ih (fun i hi => ?_) hk
      rcases List.mem_append.1 hi with hi | hi
      · exact hm i (List.mem_cons_of_mem _ hi)
      · exact ⟨t.moded hM h1 i hi, t.clear hM hC h1 h2 i hi⟩

end

/-! ## The interpreter -/

section
variable {o : Org} {p : List Clause} {atoms : List Node} {M : Modes} {lev : GAtom ITree → Nat → Prop} {I : GAtom ITree → Prop} {n : Nat}

/-- **C85, nothing goes wrong**: in programs that keep to a contract, the iterations of the main loop end normally, whatever their number. -/
theorem C85_iterates (h : Asked o p atoms) (hpr : Printable o.st) (hl : WellModed M p atoms) (ht : M.Tests) (hC : Contract (inForce p) lev I)
    (hq : ∀ ρ, Callable lev I n (atoms.map (Node.inst itreeAlg ρ))) (k : Nat) :
    ∃ fuel0 o' ts, ∀ fuel, fuel0 ≤ fuel → o.iterate fuel k = .ok (o', ts) := by
  obtain ⟨N, hN⟩ := (h.tame hl hl.query).2.iterates h.work.1 hpr (h.tame hl hl.query).1 k h.work.2
  have h0 := hN N (Nat.le_refl _)
  cases hr : o.iterate N k with
  | ok r => exact ⟨N, r.1, r.2, fun fuel hf => by rw [Org.iterate_fuel hf _ _ h0, hr]⟩
  | error x =>
    exfalso
    rcases h.work.2.iterate_fault h.work.1 hpr h.queued hr with rfl | ⟨j, o', ts, rs, td, S, is', _, r1, r2, r3, r4⟩
    · exact h0 hr
    · exact hC.no_fault (hl.directed ht) hq r2 r4

/-- **C85, calls**: nor does anything go wrong in calls of `get_answer`, however many and whatever the clock does. -/
theorem C85_calls (h : Asked o p atoms) (hpr : Printable o.st) (hl : WellModed M p atoms) (ht : M.Tests) (hC : Contract (inForce p) lev I)
    (hq : ∀ ρ, Callable lev I n (atoms.map (Node.inst itreeAlg ρ))) (clocks : List (List Bool)) :
    ∃ fuel0 r, ∀ fuel, fuel0 ≤ fuel → o.session fuel clocks = .ok r := by
  obtain ⟨N, hN⟩ := C57_calls_end h hpr hl clocks
  have h0 := hN N (Nat.le_refl _)
  cases hr : o.session N clocks with
  | ok r => exact ⟨N, r, fun fuel hf => by rw [Org.session_fuel hf h0, hr]⟩
  | error x =>
    exfalso
    rcases C34_defined_is_partial h hpr N clocks with h1 | ⟨r, h1⟩ | ⟨x', _, j, o', ts, rs, td, S, items, _, h1, _, h2⟩
    · exact h0 h1
    · rw [hr] at h1; cases h1
    · exact hC.no_fault (hl.directed ht) hq h1 h2

/-- **C85, errors**: the only run-time error is the division by zero. -/
theorem C85_errors (h : Asked o p atoms) (hl : WellModed M p atoms) (ht : M.Tests) (hC : Contract (inForce p) lev I)
    (hq : ∀ ρ, Callable lev I n (atoms.map (Node.inst itreeAlg ρ))) {fuel k o' ts} (hr : o.iterate fuel k = .ok (o', ts)) {err} (he : Turn.error err ∈ ts) :
    err.kind = .divByZero ∧ ¬ HasResults lev := by
  have h1 := C84_turns h hl ht.1 hr err he
  obtain ⟨items, rs, b1, b2, _⟩ := C42_breadth_first_resolution_partial h hr
  obtain ⟨r, hr, hs⟩ := forall₂_of_mem b2 he
  cases hs with
  | error =>
    rcases b1.error_kind (hl.directed ht) hC (query_clear (hl.directed ht) hC hq) hr with h2 | ⟨h2, h3⟩
    · rw [h2] at h1; rcases h1 with h1 | h1 <;> cases h1
    · exact ⟨h1.resolve_left h2, h3⟩

/-- Where expressions have values, there are no errors at all, in whatever calls, apart from the one that says that time has run out. -/
theorem C85_no_error (h : Asked o p atoms) (hl : WellModed M p atoms) (ht : M.Tests) (hC : Contract (inForce p) lev I) (hv : HasResults lev)
    (hq : ∀ ρ, Callable lev I n (atoms.map (Node.inst itreeAlg ρ))) {fuel clocks o' rs} (hs : o.session fuel clocks = .ok (o', rs)) {err} (he : Res.error err ∈ rs) : err.kind = .outOfTime := by
  by_cases ho : err.kind = .outOfTime
  · exact ho
  obtain ⟨ts, h1, h2⟩ := C05_timeouts_transparent h.reach hs
  have : Res.error err ∈ reports ts := by rw [← h2]; exact List.mem_filter.2 ⟨he, by simp [Res.isReport, ho]⟩
  exact absurd hv (C85_errors h hl ht hC hq h1 (error_of_reports this)).2

/-- **C85**: the search ends, after no more than `enough` iterations, with calls of `get_answer` that return one report after the other and then say that there are no more; and what is
reported are exactly the solutions of the query. -/
theorem C85_total (h : Asked o p atoms) (hpr : Printable o.st) (hl : WellModed M p atoms) (ht : M.Tests) (hC : Contract (inForce p) lev I)
    (hq : ∀ ρ, Callable lev I n (atoms.map (Node.inst itreeAlg ρ))) {b m} (hb : AtMost b (inForce p)) (hm : ∀ c ∈ inForce p, c.body.length ≤ m) :
    ∃ fuel0 oe ans reps, ans.length ≤ enough b m n atoms.length ∧
      (∀ fuel, fuel0 ≤ fuel → ∀ t, enough b m n atoms.length ≤ t →
        o.session fuel (List.replicate (ans.length + 1) (List.replicate t false)) = .ok (oe, ans ++ [.noAnswer])) ∧
      List.Forall₂ (Meets o.st atoms fuel0) ans reps ∧ (∀ ρ, Gives reps ρ ↔ Fulfils (inForce p) atoms ρ) ∧ ∀ err, Res.error err ∈ ans → err.kind = .divByZero := by
  obtain ⟨N, oe, ts, hN⟩ := C85_iterates h hpr hl ht hC hq (enough b m n atoms.length + 1)
  have hr := hN N (Nat.le_refl _)
  obtain ⟨items, rs, b1, b2, b3⟩ := C42_breadth_first_resolution_partial h hr
  have hlen : ts.length ≤ enough b m n atoms.length := by
    rw [b2.length_eq]; exact C85_resolution (hl.directed ht) hC hb hm hq b1
  have hqe : oe.queue = [] := (iterate_length hr).2 (by omega)
  have hrep : (reports ts).length ≤ ts.length := reports_length ts
  obtain ⟨reps, c1, c2⟩ := C83_solutions h (hl.directed ht) hr hqe
  refine ⟨N, oe, reports ts, reps, by omega, fun fuel hf t htt => ?_, c1, c2, fun err he => (C85_errors h hl ht hC hq hr (error_of_reports he)).1⟩
  have hfin : Finished fuel o ts oe := .of (hN fuel hf) hqe
  exact hfin.calls rfl (by omega)

/-- **C85, the web page**: in every open box, after whatever has happened on the page, clicking "Next" leads to "false" after no more than `enough` + 1 clicks, if there is time for `enough` + 1
iterations each time; then "Next" cannot be clicked any more, and there is a line for every solution. -/
theorem C85_clicks {fuel : Nat} {es : List Event} {s : Site} (ha : Ample es) (ho : ProperRuns es) (h : Site.empty.steps fuel es = .ok s) {i p} (hp : s.pages[i]? = some p)
    (hopen : p.org ≠ none) :
    ∃ ord program c, Event.run ord program p.query c ∈ es ∧ ∀ cs q M b m n lev I, Readable program p.query cs q → WellModed M cs q → M.Tests → Contract (inForce cs) lev I →
      HasResults lev → (∀ ρ, Callable lev I n (q.map (Node.inst itreeAlg ρ))) → AtMost b (inForce cs) → (∀ c ∈ inForce cs, c.body.length ≤ m) →
      ∃ fuel0, ∀ fuel', fuel0 ≤ fuel' → ∀ calls : List Call, enough b m n q.length < calls.length → (∀ c ∈ calls, List.replicate (enough b m n q.length + 1) false <+: c.clock) →
        ∃ s' p', s.steps fuel' (clicks i p calls) = .ok s' ∧ s'.pages[i]? = some p' ∧ p.lines <+: p'.lines ∧ n!"false" ∈ p'.lines ∧ p'.nextOn = false ∧
          (HasValues (inForce cs) q → ∀ ρ, Fulfils (inForce cs) q ρ → ∃ l ∈ p'.lines, Line q ρ l) := by
  obtain ⟨ord, program, c, o0, o, h1, h2, h2', ts, k, h3, h4, h5⟩ := C50_lines_show_search ha h p (List.mem_of_getElem? hp)
  have horg : p.org = some o := h2'.resolve_left hopen
  refine ⟨ord, program, c, h1, fun cs q M b m n lev I hr hM ht hC hv hq hbb hm => ?_⟩
  obtain ⟨a1, a2⟩ := h2.asked (ho _ _ _ _ h1) hr
  obtain ⟨f0, oE, tsE, e1⟩ := C85_iterates a1 a2 hM ht hC hq (ts.length + (enough b m n q.length + 1))
  obtain ⟨items, rs, b1, b2, b3⟩ := C42_breadth_first_resolution_partial a1 (e1 f0 (Nat.le_refl _))
  have hbound : tsE.length ≤ enough b m n q.length := by
    rw [b2.length_eq]; exact C85_resolution (hM.directed ht) hC hbb hm hq b1
  have hqE : oE.queue = [] := (iterate_length (e1 f0 (Nat.le_refl _))).2 (by omega)
  obtain rfl : items = [] := by rw [hqE] at b3; exact List.length_eq_zero_iff.1 b3
  have only : ∀ r ∈ reports tsE, ∃ bs, r = .answer bs := by
    intro r hr
    obtain ⟨rep, _, g5⟩ := forall₂_of_mem (Says.meets b2) hr
    cases g5 with
    | answer => exact ⟨_, rfl⟩
    | error => exact absurd hv (C85_errors a1 hM ht hC hq (e1 f0 (Nat.le_refl _)) (error_of_reports hr)).2
  have hfuel : ∀ fuel', max fuel f0 ≤ fuel' → ∃ ts2, o.iterate fuel' (enough b m n q.length + 1) = .ok (oE, ts2) ∧ tsE = ts ++ ts2 := by
    intro fuel' hf
    have x1 := e1 fuel' (by omega)
    have x2 : o0.iterate fuel' ts.length = .ok (o, ts) := by
      rw [Org.iterate_fuel (n := fuel) (by omega) _ _ (by rw [h3]; simp), h3]
    rw [iterate_add, x2, ok_bind, bind_ok] at x1
    obtain ⟨⟨o2, ts2⟩, y1, y2⟩ := x1
    simp only [pure_ok, Prod.mk.injEq] at y2
    exact ⟨ts2, by rw [y1, y2.1], y2.2.symm⟩
  obtain ⟨ts2, -, hts⟩ := hfuel _ (Nat.le_refl _)
  subst hts
  have found : HasValues (inForce cs) q → ∀ ρ, Fulfils (inForce cs) q ρ → ∃ r ∈ reports ts ++ reports ts2, Line q ρ r.text := by
    intro hw ρ hs
    obtain ⟨N, hN⟩ := SRun.computes (hM.directed ht) hs
    obtain ⟨S, gs, hS, hg⟩ := hN _ _ b1 (.inr rfl)
    obtain ⟨r, hr, g5⟩ := forall₂_of_mem' (Says.meets b2) (y := .answer S) (by simpa using hS)
    rw [reports_append] at hr
    cases g5 with
    | @answer bs S g5 => exact ⟨_, hr, g5.line a2 a1.stOK (fun ρ gs hg => hw ρ (b1.fulfils (hM.directed ht) hS hg)) hg⟩
  have hlen : (reports ts2).length ≤ enough b m n q.length := by
    have := reports_length ts2
    simp only [List.length_append] at *
    omega
  rw [reports_append] at only
  refine ⟨max fuel f0, fun fuel' hf calls hl hc => ?_⟩
  obtain ⟨ts3, g1, g2⟩ := hfuel fuel' hf
  obtain rfl := List.append_cancel_left g2
  obtain ⟨s', p', x1, x2, x3, x4, x5, x6⟩ := clicks_end h hp horg h4 h5 only g1 hqE hlen hl hc
  refine ⟨s', p', x1, x2, x3, x4, x5, fun hw ρ hs => ?_⟩
  obtain ⟨r, c1, c2⟩ := found hw ρ hs
  exact ⟨_, x6 r c1, c2⟩

end

/-! ## A concrete case -/

namespace TotalExample
open ComputesExample SoundExamples CompleteExamples EffortExamples

/-- `fac` may be called with numbers up to 12. -/
inductive lev : GAtom ITree → Nat → Prop
  | fac {n : Nat} {y} : n ≤ 12 → lev ⟨n!"fac", [itreeAlg.int n, y]⟩ (n + 1)
  | is {d e} : (∀ x, ¬ Undefined x e) → (∃ v, Evals itreeAlg e v) → lev ⟨n!"is", [d, e]⟩ 0
  | neq {x y} : lev ⟨n!"\\==", [x, y]⟩ 0

theorem no_tooBig {v : Int} : ¬ TooBig itreeAlg (itreeAlg.int v) := by
  intro h
  generalize hy : itreeAlg.int v = y at h
  cases h <;> exact itreeAlg_sharp.int_efn hy

/-- Operations on numbers with small results. -/
theorem defined {f a b v} (hv : ArithSpec f a b v) (h1 : -2147483648 ≤ v) (h2 : v ≤ 2147483647) (x) : ¬ Undefined x (itreeAlg.efn f [itreeAlg.int a, itreeAlg.int b]) := by
  have S := itreeAlg_sharp
  intro h
  cases h with
  | message h => exact h.no_value S rfl (.op .int .int hv)
  | overflow h =>
    generalize hx : itreeAlg.efn f [itreeAlg.int a, itreeAlg.int b] = x at h
    cases h with
    | left h =>
      have := S.efn_inj hx
      simp only [List.cons.injEq] at this
      obtain ⟨rfl, rfl, rfl, _⟩ := this
      exact no_tooBig h
    | right _ h =>
      have := S.efn_inj hx
      simp only [List.cons.injEq] at this
      obtain ⟨rfl, rfl, rfl, _⟩ := this
      exact no_tooBig h
    | op c1 c2 _ _ c3 =>
      have := S.efn_inj hx
      simp only [List.cons.injEq] at this
      obtain ⟨rfl, rfl, rfl, _⟩ := this
      cases c1.int_inv S
      cases c2.int_inv S
      have := c3 _ hv
      omega

theorem small : ∀ m, m < 12 → (m + 1) * fact m ≤ 2147483647 := by decide

theorem contract : Contract (inForce fac) lev (Truth itreeAlg (inForce fac)) where
  results _ h := h
  defined d e k h := by
    generalize hg : (⟨n!"is", [d, e]⟩ : GAtom ITree) = g at h
    cases h <;> simp only [GAtom.mk.injEq, List.cons.injEq, and_true] at hg
    · exact absurd hg.1 (by decide)
    · obtain ⟨_, rfl, rfl⟩ := hg; assumption
    · exact absurd hg.1 (by decide)
  body c hc ρ k h := by
    have e : inForce fac = fac ++ appendClauses := rfl
    rw [e] at hc
    simp only [fac, appendClauses, List.cons_append, List.nil_append, List.mem_cons, List.not_mem_nil, or_false] at hc
    rcases hc with rfl | rfl | rfl | rfl
    · trivial
    · generalize hg : (Clause.head ⟨.fn n!"fac" [.var n!"N", .var n!"F"], _⟩).inst itreeAlg ρ = g at h
      simp only [Node.inst, Node.name, Node.children, Node.evals, Node.eval] at hg
      cases h <;> simp only [GAtom.mk.injEq, List.cons.injEq, and_true] at hg
      case is => exact absurd hg.1 (by decide)
      case neq => exact absurd hg.1 (by decide)
      rename_i n y hn
      obtain ⟨_, hN, rfl⟩ := hg
      refine ⟨⟨0, by omega, .neq⟩, fun t1 => ?_⟩
      have t1 := t1.neq_inv
      simp only [Node.eval] at t1
      rw [hN] at t1
      cases n with
      | zero => exact absurd rfl t1
      | succ m =>
        have ev1 : ArithSpec n!"-" ((m + 1 : Nat) : Int) 1 (m : Int) := by
          have : ArithSpec n!"-" ((m + 1 : Nat) : Int) 1 (((m + 1 : Nat) : Int) - 1) := .sub
          rwa [show ((m + 1 : Nat) : Int) - 1 = m by omega] at this
        refine ⟨⟨0, by omega, .is ?_ ?_⟩, fun t2 => ?_⟩
        · simp only [Node.eval, Node.evals]; rw [hN]; exact defined ev1 (by omega) (by omega)
        · simp only [Node.eval, Node.evals]; rw [hN]; exact ⟨_, .op .int .int ev1⟩
        obtain ⟨v, h2, h3⟩ := t2.is_inv
        simp only [Node.eval, Node.evals] at h2 h3
        rw [hN] at h3
        obtain rfl : v = m := h3.det itreeAlg_sharp (.op .int .int ev1)
        refine ⟨⟨m + 1, by omega, ?_⟩, fun t3 => ?_⟩
        · have : lev ⟨n!"fac", [itreeAlg.int m, ρ n!"G"]⟩ (m + 1) := .fac (by omega)
          rw [← h2] at this
          exact this
        have h4 := truth_only t3 rfl m _ (by simp only [Node.inst, Node.children, Node.evals, Node.eval]; rw [h2])
        have ev2 : ArithSpec n!"*" ((m + 1 : Nat) : Int) (fact m : Int) ((m + 1) * fact m : Nat) := by
          have : ArithSpec n!"*" ((m + 1 : Nat) : Int) (fact m : Int) (((m + 1 : Nat) : Int) * (fact m : Int)) := .mul
          rwa [show ((m + 1 : Nat) : Int) * (fact m : Int) = ((m + 1) * fact m : Nat) by simp] at this
        have := small m (by omega)
        refine ⟨⟨0, by omega, .is ?_ ?_⟩, fun _ => trivial⟩
        · simp only [Node.eval, Node.evals]; rw [hN, h4]; exact defined ev2 (by omega) (by omega)
        · simp only [Node.eval, Node.evals]; rw [hN, h4]; exact ⟨_, .op .int .int ev2⟩
    · trivial
    · generalize hg : Node.inst itreeAlg ρ _ = g at h
      simp only [Node.inst, Node.name] at hg
      cases h <;> simp only [GAtom.mk.injEq] at hg <;> exact absurd hg.1 (by decide)

theorem hasResults : HasResults lev := by
  intro d e k h
  generalize hg : (⟨n!"is", [d, e]⟩ : GAtom ITree) = g at h
  cases h <;> simp only [GAtom.mk.injEq, List.cons.injEq, and_true] at hg
  · exact absurd hg.1 (by decide)
  · obtain ⟨_, rfl, rfl⟩ := hg; assumption
  · exact absurd hg.1 (by decide)

theorem callable {n : Nat} (h : n ≤ 12) (ρ) : Callable lev (Truth itreeAlg (inForce fac)) (n + 2) ((askFac n).map (Node.inst itreeAlg ρ)) :=
  ⟨⟨n + 1, by omega, .fac h⟩, fun _ => trivial⟩

theorem tests : modes.Tests := ⟨by decide, by decide, by decide, by decide, by decide⟩

/-- The hypotheses of `C85_total` are met. -/
example : Asked (demo fac (askFac 5)) fac (askFac 5) ∧ Printable (demo fac (askFac 5)).st ∧ WellModed modes fac (askFac 5) ∧ modes.Tests ∧
    Contract (inForce fac) lev (Truth itreeAlg (inForce fac)) ∧ HasResults lev ∧ (∀ ρ, Callable lev (Truth itreeAlg (inForce fac)) 7 ((askFac 5).map (Node.inst itreeAlg ρ))) ∧
    AtMost 2 (inForce fac) ∧ (∀ c ∈ inForce fac, c.body.length ≤ 4) :=
  ⟨asked, ⟨by decide +kernel, by decide +kernel, by decide +kernel, by decide +kernel⟩, wellModed 5, tests, contract, hasResults, callable (by decide), atMost_of (by decide +kernel), by decide⟩

/-- **C85**, an example: for every number up to 12, the search for its factorial comes to an end without anything going wrong, and it finds the factorial and nothing else. -/
theorem C85_factorial {n : Nat} (hn : n ≤ 12) {o : Org} (h : Asked o fac (askFac n)) (hpr : Printable o.st) :
    ∃ fuel0 oe s k, IntText (fact n) s ∧ 0 < k ∧ ∀ fuel, fuel0 ≤ fuel → ∀ t, enough 2 4 (n + 2) 1 ≤ t →
      o.session fuel (List.replicate (k + 1) (List.replicate t false)) = .ok (oe, List.replicate k (.answer [⟨n!"F", s⟩]) ++ [.noAnswer]) := by
  obtain ⟨fuel0, oe, ans, reps, h1, h2, h3, h4, h5⟩ := C85_total h hpr (wellModed n) tests contract (callable hn) (b := 2) (m := 4) (atMost_of (by decide +kernel)) (by decide)
  have h2' := h2 fuel0 (Nat.le_refl _) _ (Nat.le_refl _)
  obtain ⟨s, g1, g2, g3⟩ := C83_factorial n h hpr h2'
  have g3 := g3 (by simp)
  have hall : ans = List.replicate ans.length (.answer [⟨n!"F", s⟩]) := by
    refine List.eq_replicate_iff.2 ⟨rfl, fun r hr => ?_⟩
    obtain ⟨rep, _, g5⟩ := forall₂_of_mem h3 hr
    cases g5 with
    | answer => rw [g2 _ (List.mem_append_left _ hr)]
    | @error e =>
      exact absurd ((h5 _ hr).symm.trans (C85_no_error h (wellModed n) tests contract hasResults (callable hn) h2' (List.mem_append_left _ hr))) (by decide)
  refine ⟨fuel0, oe, s, ans.length, g1, ?_, fun fuel hf t ht => by rw [h2 fuel hf t ht, ← hall]⟩
  cases ans with
  | nil => simp at g3
  | cons => simp

/-- Why the numbers are bounded: the factorial of 13 is too big, and there is something undefined. -/
theorem C85_needed : Asked (demo fac (askFac 13)) fac (askFac 13) ∧ ¬ (∃ k, lev ⟨n!"fac", [itreeAlg.int 13, itreeAlg.int 0]⟩ k) ∧
    faultOf ((demo fac (askFac 13)).session 60 [List.replicate 200 false]) = some .overflow := by
  refine ⟨asked_demo (by decide +kernel) (by decide +kernel) (safe_of_b (by decide +kernel)) (by decide) (by simp [askFac]) (by decide +kernel), ?_, by decide +kernel⟩
  rintro ⟨k, h⟩
  generalize hg : (⟨n!"fac", [itreeAlg.int 13, itreeAlg.int 0]⟩ : GAtom ITree) = g at h
  cases h <;> simp only [GAtom.mk.injEq, List.cons.injEq, and_true] at hg
  · have := itreeAlg_sharp.int_inj hg.2.1
    omega
  · exact absurd hg.1 (by decide)
  · exact absurd hg.1 (by decide)

end TotalExample

end PBfs
