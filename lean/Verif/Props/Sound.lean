import Verif.Proof.Work
import Verif.Proof.Solve
import Verif.Spec.Demo
import Verif.Spec.Asked
import Verif.Proof.Untangled
import Verif.Props.Search
import Verif.Props.Unify
/-! # C01, C35: answers are sound and complete lists of bindings -/
namespace PBfs


theorem Asked.work {o p atoms} (h : Asked o p atoms) :
    (ctxOf o (interpOf o.st) p atoms).OK ∧ Work (ctxOf o (interpOf o.st) p atoms) o := by
  obtain ⟨o0, ord, ord', h1, h2, h3, h4, h5⟩ := h.loaded
  obtain ⟨k1, k2, _⟩ := Work.init h1 h2 (untangled_safe h2 h3) h4 h5 h.wf h.ne h.small
  exact ⟨k1, k2⟩

theorem Asked.reach {o p atoms} (h : Asked o p atoms) : Reach o := by
  obtain ⟨o0, ord, ord', h1, h2, h3, h4, h5⟩ := h.loaded
  have := Reach.query ord' (some atoms) h1.reach
  rwa [h5] at this

theorem Asked.stOK {o p atoms} (h : Asked o p atoms) : StOK o.st := h.work.1.st

theorem renderSubs_prints {text : Nat → R Name} : ∀ {L L0 : List (Name × Nat)} {acc bs : List Binding}, Prints text L0 acc →
    Org.renderSubs text L acc = .ok bs → Prints text (L0 ++ L) bs := by
  intro L
  induction L with
  | nil =>
    intro L0 acc bs h hr
    simp only [Org.renderSubs, pure_ok] at hr
    subst hr
    simpa using h
  | cons p L ih =>
    intro L0 acc bs h hr
    obtain ⟨v, a⟩ := p
    rw [Org.renderSubs] at hr
    rw [← List.singleton_append, ← List.append_assoc]
    split at hr
    · rename_i hany
      refine ih ⟨h.once, fun b hb => ?_, fun p hp => ?_⟩ hr
      · obtain ⟨a, h1, h2⟩ := h.value b hb
        exact ⟨a, by simp [h1], h2⟩
      · rcases List.mem_append.1 hp with hp | hp
        · exact h.all p hp
        · simp only [List.mem_singleton] at hp
          subst hp
          simpa [List.any_eq_true] using hany
    · rename_i hany
      simp only [bind_ok] at hr
      obtain ⟨s, hs, hr⟩ := hr
      refine ih ⟨?_, fun b hb => ?_, fun p hp => ?_⟩ hr
      · rw [List.map_append, List.nodup_append]
        refine ⟨h.once, by simp, ?_⟩
        intro x hx y hy
        simp only [List.map_cons, List.map_nil, List.mem_singleton] at hy
        subst hy
        rintro rfl
        apply hany
        simpa [List.any_eq_true] using hx
      · rcases List.mem_append.1 hb with hb | hb
        · obtain ⟨a, h1, h2⟩ := h.value b hb
          exact ⟨a, by simp [h1], h2⟩
        · simp only [List.mem_singleton] at hb
          subst hb
          exact ⟨a, by simp, hs⟩
      · rcases List.mem_append.1 hp with hp | hp
        · have := h.all p hp
          simp only [List.map_append, List.mem_append]
          exact .inl this
        · simp only [List.mem_singleton] at hp
          subst hp
          simp

theorem Reported.prints {X fuel bs pre hp L} (h : Reported X fuel bs pre hp L) : Prints (stringRep pre hp X.st L fuel false) L bs :=
  renderSubs_prints (L0 := []) ⟨by simp, by simp, by simp⟩ h.1

theorem iterate_runs {fuel : Nat} {o0 : Org} : ∀ {n : Nat} {o o' : Org} {hist ts}, Runs fuel o0 hist o → o.iterate fuel n = .ok (o', ts) →
    ∃ hist', Runs fuel o0 (hist ++ hist') o' ∧ hist'.map (·.2) = ts := by
  intro n
  induction n with
  | zero =>
    intro o o' hist ts hr h
    simp only [Org.iterate, pure_ok, Prod.mk.injEq] at h
    obtain ⟨rfl, rfl⟩ := h
    exact ⟨[], by simpa using hr, rfl⟩
  | succ n ih =>
    intro o o' hist ts hr h
    unfold Org.iterate at h
    split at h
    · simp only [pure_ok, Prod.mk.injEq] at h
      obtain ⟨rfl, rfl⟩ := h
      exact ⟨[], by simpa using hr, rfl⟩
    · rename_i id q hq
      simp only [bind_ok, pure_ok, Prod.mk.injEq] at h
      obtain ⟨⟨o1, t⟩, h1, ⟨o2, ts2⟩, h2, rfl, rfl⟩ := h
      obtain ⟨hist', r1, r2⟩ := ih (.snoc hr hq h1) h2
      refine ⟨(id, t) :: hist', by simpa using r1, by simp [r2]⟩

theorem mem_reports {ts : List Org.Turn} {bs} (h : Org.Res.answer bs ∈ reports ts) : Org.Turn.answer bs ∈ ts := by
  induction ts with
  | nil => cases h
  | cons t ts ih =>
    cases t with
    | «continue» => exact List.mem_cons_of_mem _ (ih h)
    | answer bs' =>
      simp only [reports, List.mem_cons, Org.Res.answer.injEq] at h
      rcases h with rfl | h
      · simp
      · exact List.mem_cons_of_mem _ (ih h)
    | error e =>
      simp only [reports, List.mem_cons, reduceCtorEq, false_or] at h
      exact List.mem_cons_of_mem _ (ih h)

/-- The answers of a session are answers of the run behind it. -/
theorem session_reported {o o' : Org} {p atoms fuel clocks rs bs} (h : Asked o p atoms) (hs : o.session fuel clocks = .ok (o', rs))
    (hb : Org.Res.answer bs ∈ rs) : ∃ pre hp L, Reported (ctxOf o (interpOf o.st) p atoms) fuel bs pre hp L := by
  obtain ⟨ts, h1, h2⟩ := C05_timeouts_transparent h.reach hs
  have hm : Org.Turn.answer bs ∈ ts := by
    apply mem_reports
    rw [← h2]
    exact List.mem_filter.2 ⟨hb, rfl⟩
  obtain ⟨hist, h3, h4⟩ := iterate_runs (hist := []) .nil h1
  rw [← h4] at hm
  obtain ⟨⟨id, t⟩, h5, h6⟩ := List.mem_map.1 hm
  cases h6
  exact h3.answered h.work.1 h.work.2 (List.mem_append_right _ h5)

/-- **C01 (part that holds).** Take any number of `get_answer` calls, interrupted by time-outs anywhere.
For every answer `bs` there is a heap and for every query variable an address such that `bs` shows the
terms at these addresses, and every solution of the heap, in any algebra, makes the whole query provable
from the clauses in force.

In particular (second part), whatever (finite or infinite) trees are put for the open variables, the query
with the answer's terms is provable over trees; and (third part) if the heap contains no cyclic term, it is
provable over finite trees, whatever finite trees are put for the open variables.

Missing: programs with clauses that are compiled wrongly (`Asked.loaded` demands `Untangled`), for which C01 is
false (`C01_unsound_registers`), and finite-tree provability when the missing occurs check has built
cyclic terms, which is false (`C01_unsound_occurs_check`). -/
theorem C01_answers_sound_partial {o o' : Org} {p atoms fuel clocks rs bs} (h : Asked o p atoms)
    (hs : o.session fuel clocks = .ok (o', rs)) (hb : Org.Res.answer bs ∈ rs) :
    ∃ pre hp L, WF o.st pre hp ∧ Prints (stringRep pre hp o.st L fuel false) L bs ∧
      (∀ v, v ∈ L.map (·.1) ↔ ∃ a ∈ atoms, v ∈ Node.varss a.children) ∧
      (∀ (D : Type) (A : Alg D) (σ : Nat → D), Mod (toIAlg A (interpOf o.st)) (hp.at? pre) σ →
        ∃ ρ : Name → D, (∀ x ∈ L, ρ x.1 = σ x.2) ∧ ∀ a ∈ atoms, Proves A (inForce p) (a.inst A ρ)) ∧
      (∀ ω : Nat → ITree, ∃ ρ : Name → ITree,
        (∀ x ∈ L, ∀ t, Reads (hp.at? pre) x.2 t → ρ x.1 = t.eval itreeAlg (interpOf o.st) ω) ∧
        ∀ a ∈ atoms, Proves itreeAlg (inForce p) (a.inst itreeAlg ρ)) ∧
      ((∀ a, a < hp.size → ∃ t, Reads (hp.at? pre) a t) → ∀ ω : Nat → Tree, ∃ ρ : Name → Tree,
        (∀ x ∈ L, ∃ t, Reads (hp.at? pre) x.2 t ∧ ρ x.1 = t.eval treeAlg (interpOf o.st) ω) ∧
        ∀ a ∈ atoms, Proves treeAlg (inForce p) (a.inst treeAlg ρ)) := by
  obtain ⟨pre, hp, L, hr⟩ := session_reported h hs hb
  have F := hr.2
  have key : ∀ (D : Type) (A : Alg D) (σ : Nat → D), Mod (toIAlg A (interpOf o.st)) (hp.at? pre) σ →
      ∃ ρ : Name → D, (∀ x ∈ L, ρ x.1 = σ x.2) ∧ ∀ a ∈ atoms, Proves A (inForce p) (a.inst A ρ) := by
    intro D A σ m
    obtain ⟨ρ, hρ⟩ := F.agree D A σ m
    exact ⟨ρ, fun x hx => (hρ x hx).symm, F.sound D A σ ρ m hρ⟩
  refine ⟨pre, hp, L, F.good, hr.prints, F.names, key, fun ω => ?_, fun hfin ω => ?_⟩
  · obtain ⟨σ, m, hω⟩ := F.good.solve_itree (interpOf o.st) ω
    obtain ⟨ρ, h1, h2⟩ := key _ _ σ m
    exact ⟨ρ, fun x hx t ht => by rw [h1 x hx]; exact ht.eval m hω, h2⟩
  · obtain ⟨σ, m, hω⟩ := solve_finite treeAlg (interpOf o.st) F.good.dom hfin ω
    obtain ⟨ρ, h1, h2⟩ := key _ _ σ m
    refine ⟨ρ, fun x hx => ?_, h2⟩
    obtain ⟨t, ht⟩ := hfin x.2 (F.lt x hx)
    exact ⟨t, ht, by rw [h1 x hx]; exact ht.eval m hω⟩

/-- **C35 (part that holds)**: the variables of an answer are exactly the variables of the query, each once.
Missing: programs with clauses that are compiled wrongly. -/
theorem C35_each_variable_once_partial {o o' : Org} {p atoms fuel clocks rs bs} (h : Asked o p atoms)
    (hs : o.session fuel clocks = .ok (o', rs)) (hb : Org.Res.answer bs ∈ rs) :
    (bs.map (·.name)).Nodup ∧ ∀ v, v ∈ bs.map (·.name) ↔ ∃ a ∈ atoms, v ∈ Node.varss a.children := by
  obtain ⟨pre, hp, L, hr⟩ := session_reported h hs hb
  have P := hr.prints
  refine ⟨P.once, fun v => ⟨fun hv => ?_, fun hv => ?_⟩⟩
  · obtain ⟨b, hb, rfl⟩ := List.mem_map.1 hv
    obtain ⟨a, h1, _⟩ := P.value b hb
    exact (hr.2.names _).1 (List.mem_map.2 ⟨_, h1, rfl⟩)
  · obtain ⟨x, hx, rfl⟩ := List.mem_map.1 ((hr.2.names v).2 hv)
    exact P.all x hx

/-! ## Concrete cases -/

namespace SoundExamples

theorem asked_demo {p q} (h1 : (Org.init0.loadProgram id (some p)).2 = .ok) (h2 : ((Org.init0.loadProgram id (some p)).1.loadQuery id (some q)).2 = .ok)
    (hs : Untangled p) (hq : ∀ a ∈ q, Node.goal a = true ∧ a.wf = true) (hne : q ≠ []) (hl : (demo p q).st.functors.length ≤ 65536) :
    Asked (demo p q) p q := by
  have h : Serves (Org.init0.loadProgram id (some p)).1 id p :=
    .program (o := Org.init0) (ord := id) (.init Org.init_eq) (Prod.ext rfl h1)
  exact ⟨⟨_, id, id, h, HashOrder.id_ok, hs, HashOrder.id_ok, Prod.ext rfl h2⟩, hq, hne, hl⟩

/-- `Untangled`, decided. -/
def safeB (p : List Clause) : Bool :=
  p.all fun cl => ((cl.head :: cl.body).all fun a => Node.goal a && a.wf) && cl.untangled

theorem safe_of_b {p} (h : safeB p = true) : Untangled p := by
  intro cl hcl
  have := List.all_eq_true.1 h cl hcl
  simp only [Bool.and_eq_true, List.all_eq_true] at this
  exact ⟨this.1, this.2⟩

/-- The hypotheses of C01 and C35 are met: `p(a). p(b). r(X) :- p(X), q(X). q(b).` and `r(X)`, which has the
answer `b`; the heap is free of cycles. -/
theorem asked_example : Asked (demo Demo.prog [.fn n!"r" [.var n!"X"]]) Demo.prog [.fn n!"r" [.var n!"X"]] :=
  asked_demo (by decide +kernel) (by decide +kernel) (safe_of_b (by decide +kernel)) (by decide) (by simp) (by decide +kernel)

example : ∃ o' rs, (demo Demo.prog [.fn n!"r" [.var n!"X"]]).session 20 [List.replicate 20 false] = .ok (o', rs) ∧
    Org.Res.answer [⟨n!"X", n!"b"⟩] ∈ rs := by
  have h : ((demo Demo.prog [.fn n!"r" [.var n!"X"]]).session 20 [List.replicate 20 false]).toOption.map (·.2) =
    some [Org.Res.answer [⟨n!"X", n!"b"⟩]] := by decide +kernel
  cases hs : (demo Demo.prog [.fn n!"r" [.var n!"X"]]).session 20 [List.replicate 20 false] with
  | error e => rw [hs] at h; cases h
  | ok r =>
    rw [hs] at h
    simp only [Except.toOption, Option.map_some, Option.some.injEq] at h
    exact ⟨r.1, r.2, rfl, by rw [h]; simp⟩

/-- `p(X) :- q(a,b,X).  q(a,b,b).` -/
def clobber : List Clause :=
  [⟨.fn n!"p" [.var n!"X"], [.fn n!"q" [.cons n!"a", .cons n!"b", .var n!"X"]]⟩,
   ⟨.fn n!"q" [.cons n!"a", .cons n!"b", .cons n!"b"], []⟩]

/-- `p :- q(Y,f(Y)).  q(Z,Z).` -/
def occurs : List Clause :=
  [⟨.cons n!"p", [.fn n!"q" [.var n!"Y", .fn n!"f" [.var n!"Y"]]]⟩, ⟨.fn n!"q" [.var n!"Z", .var n!"Z"], []⟩]

theorem clobber_force : inForce clobber = clobber ++ appendClauses := rfl
theorem occurs_force : inForce occurs = occurs ++ appendClauses := rfl

theorem clobber_q {g} (h : Proves treeAlg (inForce clobber) g) : g ≠ ⟨n!"q", [.cons n!"a", .cons n!"b", .cons n!"z"]⟩ := by
  rw [clobber_force] at h
  intro hg
  cases h with
  | @clause c ρ hc hb =>
    simp only [clobber, appendClauses, List.cons_append, List.nil_append, List.mem_cons, List.not_mem_nil, or_false] at hc
    rcases hc with rfl | rfl | rfl | rfl <;> simp [Node.inst, Node.name, Node.children, Node.evals, Node.eval, treeAlg] at hg
  | _ => simp at hg

theorem clobber_p : ¬ Proves treeAlg (inForce clobber) ⟨n!"p", [.cons n!"z"]⟩ := by
  intro h
  generalize hg : (⟨n!"p", [.cons n!"z"]⟩ : GAtom Tree) = g at h
  cases h with
  | @clause c ρ hc hb =>
    rw [clobber_force] at hc
    simp only [clobber, appendClauses, List.cons_append, List.nil_append, List.mem_cons, List.not_mem_nil, or_false] at hc
    rcases hc with rfl | rfl | rfl | rfl
    · have := clobber_q (hb _ (List.mem_singleton.2 rfl))
      simp [Node.inst, Node.name, Node.children, Node.evals, Node.eval, treeAlg] at hg this
      exact this hg.symm
    all_goals simp [Node.inst, Node.name, Node.children, Node.evals, Node.eval, treeAlg] at hg
  | _ => simp at hg

theorem occurs_q {g} (h : Proves treeAlg (inForce occurs) g) : ∀ y, g ≠ ⟨n!"q", [y, .fn n!"f" [y]]⟩ := by
  rw [occurs_force] at h
  intro y hg
  cases h with
  | @clause c ρ hc hb =>
    simp only [occurs, appendClauses, List.cons_append, List.nil_append, List.mem_cons, List.not_mem_nil, or_false] at hc
    rcases hc with rfl | rfl | rfl | rfl
    · simp [Node.inst, Node.name] at hg
    · simp [Node.inst, Node.name, Node.children, Node.evals, Node.eval, treeAlg] at hg
      have := hg.1.symm.trans hg.2
      have := congrArg sizeOf this
      simp at this
      omega
    all_goals simp [Node.inst, Node.name] at hg
  | _ => simp at hg

theorem occurs_p : ¬ Proves treeAlg (inForce occurs) ⟨n!"p", []⟩ := by
  intro h
  generalize hg : (⟨n!"p", []⟩ : GAtom Tree) = g at h
  cases h with
  | @clause c ρ hc hb =>
    rw [occurs_force] at hc
    simp only [occurs, appendClauses, List.cons_append, List.nil_append, List.mem_cons, List.not_mem_nil, or_false] at hc
    rcases hc with rfl | rfl | rfl | rfl
    · exact occurs_q (hb _ (List.mem_singleton.2 rfl)) (ρ n!"Y") rfl
    all_goals simp [Node.inst, Node.name] at hg
  | _ => simp at hg

end SoundExamples

open SoundExamples in
/-- **C01 is false in general**: the compiled first body atom of `p(X) :- q(a,b,X).` overwrites the register
of `X`.  With `q(a,b,b).` the query `p(z)` is answered "true", although it is not provable. -/
theorem C01_unsound_registers : (demo clobber [.fn n!"p" [.cons n!"z"]]).reportsOf 20 20 = some [.answer []] ∧
    ¬ Proves treeAlg (inForce clobber) ⟨n!"p", [.cons n!"z"]⟩ :=
  ⟨by decide +kernel, clobber_p⟩

open SoundExamples in
/-- **C01 is false in general**: there is no occurs check.  `p :- q(Y,f(Y)).  q(Z,Z).` answers `p` with
"true", although no finite tree `Y` makes `q(Y,f(Y))` true. -/
theorem C01_unsound_occurs_check : (demo occurs [.cons n!"p"]).reportsOf 20 20 = some [.answer []] ∧
    ¬ Proves treeAlg (inForce occurs) ⟨n!"p", []⟩ ∧ Untangled occurs :=
  ⟨by decide +kernel, occurs_p, safe_of_b (by decide +kernel)⟩

end PBfs
