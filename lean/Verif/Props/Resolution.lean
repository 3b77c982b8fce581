import Verif.Proof.Resolution
import Verif.Props.Complete
/-! # The interpreter performs breadth-first resolution -/
namespace PBfs

/-- The answer `bs` shows the instances `S`: the heap of the executor that has found it gives every variable of
the query a term, which is what is printed; and the solutions of the heap, over finite and infinite trees, are the
values that `S` gives to the variables of the query. -/
def ShowsInsts (st : Storage) (atoms : List Node) (fuel : Nat) (bs : List Binding) (S : Insts) : Prop :=
  ∃ pre hp L, WF st pre hp ∧ Prints (stringRep pre hp st L fuel false) L bs ∧
    (∀ v, v ∈ L.map (·.1) ↔ ∃ a ∈ atoms, v ∈ Node.varss a.children) ∧
    (∀ σ : Nat → ITree, Mod (toIAlg itreeAlg (interpOf st)) (hp.at? pre) σ → ∃ ρ : Name → ITree, ∀ x ∈ L, σ x.2 = ρ x.1) ∧
    ∀ ρ : Name → ITree, (∃ ρ' gs, S ρ' gs ∧ ∀ x ∈ L, ρ' x.1 = ρ x.1) ↔
      ∃ σ : Nat → ITree, Mod (toIAlg itreeAlg (interpOf st)) (hp.at? pre) σ ∧ ∀ x ∈ L, σ x.2 = ρ x.1

/-- What an iteration of the main loop does, and what the turn of the search reports. -/
inductive Says (st : Storage) (atoms : List Node) (fuel : Nat) : Org.Turn → Option Rep → Prop
  | continue : Says st atoms fuel .continue none
  | answer {bs S} : ShowsInsts st atoms fuel bs S → Says st atoms fuel (.answer bs) (some (.answer S))
  | error {err} : Says st atoms fuel (.error err) (some (.error err.kind))

theorem Tells.says {o : Org} {p atoms fuel t r} (h : Tells (ctxOf o (interpOf o.st) p atoms) fuel t r) : Says o.st atoms fuel t r := by
  cases h with
  | «continue» => exact .continue
  | error => exact .error
  | answer h =>
    obtain ⟨pre, hp, L, h1, h2⟩ := h
    exact .answer ⟨pre, hp, L, h1.2.good, h1.prints, h1.2.names, h1.2.agree _ _, h2⟩

theorem Work.srun {X : Ctx} (ok : X.OK) {fuel : Nat} : ∀ {k : Nat} {o o' : Org} {ts is}, Work X o → Queued X o is →
    o.iterate fuel k = .ok (o', ts) → ∃ is' rs, SRun X.P is rs is' ∧ List.Forall₂ (Tells X fuel) ts rs ∧ Queued X o' is' := by
  intro k
  induction k with
  | zero =>
    intro o o' ts is w hs h
    simp only [Org.iterate, pure_ok, Prod.mk.injEq] at h
    obtain ⟨rfl, rfl⟩ := h
    exact ⟨is, [], .nil, .nil, hs⟩
  | succ k ih =>
    intro o o' ts is w hs h
    unfold Org.iterate at h
    split at h
    · simp only [pure_ok, Prod.mk.injEq] at h
      obtain ⟨rfl, rfl⟩ := h
      exact ⟨is, [], .nil, .nil, hs⟩
    · rename_i id q hq
      simp only [bind_ok, pure_ok, Prod.mk.injEq] at h
      obtain ⟨⟨o1, t⟩, h1, ⟨o2, ts2⟩, h2, rfl, rfl⟩ := h
      cases is with
      | nil => unfold Queued at hs; rw [hq] at hs; cases hs
      | cons i is =>
        obtain ⟨news, r, s1, s2, s3⟩ := w.resolves ok hq hs h1
        obtain ⟨is', rs, r1, r2, r3⟩ := ih (w.next ok h1) s3 h2
        exact ⟨is', r :: rs, .cons s1 r1, .cons s2 r2, r3⟩

theorem Asked.queued {o : Org} {p atoms} (h : Asked o p atoms) :
    Queued (ctxOf o (interpOf o.st) p atoms) o [.goals (atoms.map (.goal ·.fv)) (Insts.query atoms)] := by
  obtain ⟨o0, ord, ord', h1, h2, h3, h4, h5⟩ := h.loaded
  obtain ⟨ok, w, e, k, hp0, hq, ⟨fr, rfl, f1, f2, f3⟩, hv⟩ := Work.init h1 h2 (untangled_safe h2 h3) h4 h5 h.wf h.ne h.small
  unfold Queued
  rw [hq]
  refine .cons ⟨e, _, [], hp0, ?_, ?_⟩ .nil
  · intro f hf a ha
    simp only [List.mem_singleton] at hf
    subst hf
    rw [f2] at ha
    exact .inl ha
  · have hS : Insts.query atoms = instsOf (ctxOf o (interpOf o.st) p atoms) (e.hp.at? (preOf o.execs e)) (.res true fr []) := by
      funext ρq gs
      refine propext ⟨?_, ?_⟩
      · rintro rfl
        have hm : Mod (toIAlg itreeAlg (interpOf o.st)) (e.hp.at? (preOf o.execs e)) fun _ => mark 0 := by
          rw [hv]; intro a c hc; cases hc
        refine ⟨fun _ => mark 0, hm, ?_⟩
        have := Goals.cons (A := itreeAlg) (σ := fun _ => mark 0) (ρq := ρq) (fr := fr) ρq (fun n k hk => by rw [f3] at hk; cases hk) (fun _ => rfl) .nil
        rwa [f2, List.append_nil] at this
      · rintro ⟨σ, _, hg⟩
        cases hg with
        | cons ρ _ hq hg =>
          cases hg
          cases hq f1
          rw [f2, List.append_nil]; rfl
    have := Stands.res (X := ctxOf o (interpOf o.st) p atoms) (H := e.hp.at? (preOf o.execs e)) (b := true) (fr := fr) (fs := [])
    rw [← hS] at this
    simpa [Fr.todo, f1, f2] using this

theorem Insts.Always.det {S : Insts} {R R' : ITree → ITree → Prop} (h : S.Always R) (h' : S.Always R') : ∃ d e, R d e ∧ R' d e := by
  obtain ⟨ρq, n, d, e, gs, hS, hR⟩ := h.1
  exact ⟨d, e, hR, h'.2 _ _ _ _ _ hS⟩

theorem Insts.Always.once {S : Insts} {R : ITree → ITree → Prop} (h : S.Always R) (h' : S.Once fun d e => ¬ R d e) : False := by
  obtain ⟨ρq, n, d, e, gs, hS, hR⟩ := h'
  exact hR (h.2 _ _ _ _ _ hS)

theorem Insts.Always.outcome {S : Insts} {x y} (h : S.Always fun _ e => Outcome itreeAlg e x) (h' : S.Always fun _ e => Outcome itreeAlg e y) : x = y := by
  obtain ⟨d, e, h1, h2⟩ := h.det h'
  exact h1.det itreeAlg_sharp h2

theorem Own.det {f S x y} (h : Own f S x) (h' : Own f S y) : x = y := by
  cases h with
  | eq_pass h => cases h' with
    | eq_pass => rfl
    | eq_fail h' => exact (h.once h').elim
  | eq_fail h => cases h' with
    | eq_pass h' => exact (h'.once h).elim
    | eq_fail => rfl
  | neq_pass h => cases h' with
    | neq_pass => rfl
    | neq_fail h' => exact (h'.once h).elim
  | neq_fail h => cases h' with
    | neq_pass h' => exact (h.once h').elim
    | neq_fail => rfl
  | is_pass h hE => cases h' with
    | is_pass h' => cases h.outcome h'; rfl
    | is_fail h' hE' => cases h.outcome h'; exact absurd hE' hE
  | is_fail h hE => cases h' with
    | is_pass h' hE' => cases h.outcome h'; exact absurd hE hE'
    | is_fail => rfl

theorem Own.no_err {f S x k} (h : Own f S x) (h' : OwnErr f S k) : False := by
  cases h' with
  | «open» h' => cases h with
    | is_pass h => exact h' ⟨_, h⟩
    | is_fail h => exact h' ⟨_, h⟩
  | other h' => cases h with
    | is_pass h => cases h.outcome h'
    | is_fail h => cases h.outcome h'

theorem OwnErr.det {f S k k'} (h : OwnErr f S k) (h' : OwnErr f S k') : k = k' := by
  cases h with
  | «open» h => cases h' with
    | «open» => rfl
    | other h' => exact absurd ⟨_, h'⟩ h
  | other h => cases h' with
    | «open» h' => exact absurd ⟨_, h⟩ h'
    | other h' => cases h.outcome h'; rfl

/-- A turn of the search leaves no choice. -/
theorem STurn.det {P i ns ns' r r'} (h : STurn P i ns r) (h' : STurn P i ns' r') : ns = ns' ∧ r = r' := by
  cases h with
  | leave => cases h'; exact ⟨rfl, rfl⟩
  | call h => cases h' with
    | call => exact ⟨rfl, rfl⟩
    | callOwn h' => exact absurd h' h
  | callOwn h => cases h' with
    | call h' => exact absurd h h'
    | callOwn => exact ⟨rfl, rfl⟩
  | reject h => cases h' with
    | reject => exact ⟨rfl, rfl⟩
    | enter h' => exact absurd h h'
    | answer h' => exact absurd h h'
  | enter h1 h2 => cases h' with
    | reject h' => exact absurd h' h1
    | enter => exact ⟨rfl, rfl⟩
    | answer _ h' => exact absurd h' h2
  | answer h1 h2 => cases h' with
    | reject h' => exact absurd h' h1
    | enter _ h' => exact absurd h2 h'
    | answer => exact ⟨rfl, rfl⟩
  | ownFail h => cases h' with
    | ownFail => exact ⟨rfl, rfl⟩
    | ownPass h' => cases h.det h'
    | ownAnswer h' => cases h.det h'
    | error h' => exact (h.no_err h').elim
  | ownPass h h2 => cases h' with
    | ownFail h' => cases h.det h'
    | ownPass h' => cases h.det h'; exact ⟨rfl, rfl⟩
    | ownAnswer _ h' => exact absurd h' h2
    | error h' => exact (h.no_err h').elim
  | ownAnswer h h2 => cases h' with
    | ownFail h' => cases h.det h'
    | ownPass _ h' => exact absurd h2 h'
    | ownAnswer h' => cases h.det h'; exact ⟨rfl, rfl⟩
    | error h' => exact (h.no_err h').elim
  | error h => cases h' with
    | ownFail h' => exact (h'.no_err h).elim
    | ownPass h' => exact (h'.no_err h).elim
    | ownAnswer h' => exact (h'.no_err h).elim
    | error h' => cases h.det h'; exact ⟨rfl, rfl⟩

/-- **C42**: the search leaves no choice: in a given number of turns it can only report one thing, and can only leave one queue. -/
theorem C42_determined {P q rs rs' q1 q2} (h : SRun P q rs q1) (h' : SRun P q rs' q2) (hl : rs.length = rs'.length) : rs = rs' ∧ q1 = q2 := by
  induction h generalizing rs' q2 with
  | nil => cases h' with
    | nil => exact ⟨rfl, rfl⟩
    | cons => simp at hl
  | cons t h ih => cases h' with
    | nil => simp at hl
    | cons t' h' =>
      obtain ⟨rfl, rfl⟩ := t.det t'
      obtain ⟨rfl, rfl⟩ := ih h' (by simpa using hl)
      exact ⟨rfl, rfl⟩

/-- **C42 (part that holds)**: as long as nothing undefined happens, the main loop is breadth-first resolution
over finite and infinite trees.  After any number of iterations there is a run of the abstract search with as many
turns: it reports the same in every turn (nothing, an answer, or an error of the same kind), and as many goal lists
are left in its queue.  The run is the only one with as many turns (`C42_determined`), so the search fixes the answers, their order and the
number of iterations between them.
Missing: programs with clauses that are compiled wrongly (`Asked.loaded` demands `Untangled`). -/
theorem C42_breadth_first_resolution_partial {o o' : Org} {p atoms fuel k ts} (h : Asked o p atoms) (hr : o.iterate fuel k = .ok (o', ts)) :
    ∃ items rs, SRun (inForce p) [.goals (atoms.map (.goal ·.fv)) (Insts.query atoms)] rs items ∧
      List.Forall₂ (Says o.st atoms fuel) ts rs ∧ items.length = o'.queue.length := by
  obtain ⟨is', rs, r1, r2, r3⟩ := h.work.2.srun h.work.1 h.queued hr
  exact ⟨is', rs, r1, r2.imp fun _ _ => Tells.says, r3.length_eq.symm⟩

/-- What is printed for an answer is nothing but what the search has found: if a variable of the query has
the same value in all instances, then in all solutions of the heap the printed term has this value. -/
theorem ShowsInsts.value {st atoms fuel bs S} (h : ShowsInsts st atoms fuel bs S) {x : Name} {d : ITree}
    (hx : ∀ ρ gs, S ρ gs → ρ x = d) {b : Binding} (hb : b ∈ bs) (hn : b.name = x) :
    ∃ pre hp L a, stringRep pre hp st L fuel false a = .ok b.value ∧
      ∀ ω : Nat → ITree, ∀ t, Reads (hp.at? pre) a t → t.eval itreeAlg (interpOf st) ω = d := by
  obtain ⟨pre, hp, L, g, P, _, ag, h⟩ := h
  obtain ⟨a, ha, hs⟩ := P.value b hb
  refine ⟨pre, hp, L, a, hs, fun ω t ht => ?_⟩
  obtain ⟨σ, m, hω⟩ := Good.solve_itree g (interpOf st) ω
  obtain ⟨ρ, hρ⟩ := ag σ m
  obtain ⟨ρ', gs, hS, hL⟩ := (h ρ).2 ⟨σ, m, hρ⟩
  rw [← ht.eval m hω, hρ _ ha, ← hL _ ha]
  exact hn ▸ hx ρ' gs hS

theorem SRun.take {P q rs q'} (h : SRun P q rs q') (n : Nat) : ∃ q'', SRun P q (rs.take n) q'' := by
  induction h generalizing n with
  | nil => exact ⟨_, by rw [List.take_nil]; exact .nil⟩
  | cons t _ ih =>
    cases n with
    | zero => exact ⟨_, .nil⟩
    | succ n =>
      obtain ⟨q'', h⟩ := ih n
      exact ⟨q'', .cons t h⟩

namespace ResolutionExamples
open SoundExamples CompleteExamples

/-- `p(X) :- q(Y), X is 7-Y, X \== Y.  q(2).  q(Z) :- q(Z).` -/
def diff : List Clause :=
  [⟨.fn n!"p" [.var n!"X"], [.fn n!"q" [.var n!"Y"], .fn n!"is" [.var n!"X", .efn n!"-" [.int 7, .var n!"Y"]],
      .fn n!"\\==" [.var n!"X", .var n!"Y"]]⟩,
   ⟨.fn n!"q" [.int 2], []⟩, ⟨.fn n!"q" [.var n!"Z"], [.fn n!"q" [.var n!"Z"]]⟩]

/-- The hypotheses of C42 are met by a program with a search that does not end. -/
example : Asked (demo diff askLoop) diff askLoop ∧
    ((demo diff askLoop).iterate 20 16).toOption.map (fun r => (r.2, r.1.queue.length)) =
      some (List.replicate 13 .continue ++ [.answer [⟨n!"X", n!"5"⟩], .continue, .continue], 3) :=
  ⟨asked_demo (by decide +kernel) (by decide +kernel) (safe_of_b (by decide +kernel)) (by decide) (by simp [askLoop]) (by decide +kernel),
    by decide +kernel⟩

/-- `X is 7-2` -/
def askDiff : List Node := [.fn n!"is" [.var n!"X", .efn n!"-" [.int 7, .int 2]]]

/-- In two turns the search finds the answer `X = 5`, and nothing is left. -/
theorem diff_forced {P rs items} (h : SRun P [.goals (askDiff.map (.goal ·.fv)) (Insts.query askDiff)] rs items) (hl : rs.length = 2) :
    items = [] ∧ ∃ S, rs = [none, some (.answer S)] ∧ ∀ ρ gs, S ρ gs → ρ n!"X" = itreeAlg.int 5 := by
  have val : ∀ ρ, Evals itreeAlg ((Node.efn n!"-" [.int 7, .int 2]).eval itreeAlg ρ) 5 := fun ρ =>
    Evals.op .int .int (ArithSpec.sub (a := 7) (b := 2))
  have run : SRun P [.goals (askDiff.map (.goal ·.fv)) (Insts.query askDiff)] [none, some (.answer ((Insts.query askDiff).is 5))] [] := by
    refine .cons (.callOwn (by decide)) (.cons (.ownAnswer (.is_pass ⟨⟨fun _ => itreeAlg.int 5, _, _, _, [], rfl, .value (val _)⟩, ?_⟩ ?_) (by simp [NoGoal])) .nil)
    · intro ρq n d e gs h
      cases h
      exact .value (val ρq)
    · intro hE
      exact hE (fun _ => itreeAlg.int 5) [] ⟨_, rfl⟩
  obtain ⟨rfl, rfl⟩ := C42_determined h run hl
  refine ⟨rfl, _, rfl, ?_⟩
  rintro ρ gs ⟨d, h⟩
  have h := (List.cons.inj h).1
  have h := (GAtom.mk.inj h).2
  exact (List.cons.inj h).1.symm

/-- The operands are evaluated from left to right: `X is a+Y` is a type error, `X is Y+a` is not instantiated. -/
example {S : Insts} (f : FV) (hf : f = ⟨n!"is", 2⟩) {k} (h : OwnErr f S k)
    (hS : ∀ ρq gs, S ρq gs ↔ ∃ x y, gs = [⟨n!"is", [x, itreeAlg.efn n!"+" [itreeAlg.cons n!"a", y]]⟩]) : k = .notArithmetic := by
  subst hf
  refine h.det (.other ⟨⟨fun _ => mark 0, _, mark 0, _, [], (hS _ _).2 ⟨_, mark 0, rfl⟩, .left .cons⟩, ?_⟩)
  intro ρq n d e gs h
  obtain ⟨x, y, h⟩ := (hS _ _).1 h
  cases h
  exact .left .cons

example {S : Insts} (f : FV) (hf : f = ⟨n!"is", 2⟩) {k} (h : OwnErr f S k)
    (hS : ∀ ρq gs, S ρq gs ↔ ∃ x y, gs = [⟨n!"is", [x, itreeAlg.efn n!"+" [y, itreeAlg.cons n!"a"]]⟩]) : k = .notInstantiated := by
  subst hf
  refine h.det (.open ?_)
  rintro ⟨x, hx⟩
  have h0 := hx.2 (fun _ => mark 0) _ (mark 0) _ [] ((hS _ _).2 ⟨_, mark 0, rfl⟩)
  cases x with
  | inr v =>
    obtain ⟨_, _, _, _, e, _, h2, _⟩ := h0.value_inv.efn_inv itreeAlg_sharp
    simp only [List.cons.injEq, and_true] at e
    obtain ⟨rfl, rfl⟩ := e
    exact h2.cons_inv itreeAlg_sharp
  | inl k =>
    rcases h0.efn_inv itreeAlg_sharp with h | ⟨_, h, _⟩ | ⟨_, h, _⟩
    · exact mark_outcome h
    · exact mark_evals h
    · exact mark_evals h

/-- With `p(X,Y) :- q(Z,W).  q(a,b).` and the query `p(c,d)` the search answers in its fourth turn. -/
theorem lost_forced {rs items} (h : SRun (inForce lost) [.goals (askLost.map (.goal ·.fv)) (Insts.query askLost)] rs items) (hl : 4 ≤ rs.length) :
    ∃ S, rs[3]? = some (some (.answer S)) := by
  have f1 : (inForce lost).filter (fun c => c.head.fv = ⟨n!"p", 2⟩) = [⟨.fn n!"p" [.var n!"X", .var n!"Y"], [.fn n!"q" [.var n!"Z", .var n!"W"]]⟩] := by rw [lost_force]; rfl
  have f2 : (inForce lost).filter (fun c => c.head.fv = ⟨n!"q", 2⟩) = [⟨.fn n!"q" [.cons n!"a", .cons n!"b"], []⟩] := by rw [lost_force]; rfl
  let c1 : Clause := ⟨.fn n!"p" [.var n!"X", .var n!"Y"], [.fn n!"q" [.var n!"Z", .var n!"W"]]⟩
  let c2 : Clause := ⟨.fn n!"q" [.cons n!"a", .cons n!"b"], []⟩
  let S := Insts.query askLost
  have t1 : STurn (inForce lost) (.goals [.goal ⟨n!"p", 2⟩] S) [.clause c1 [] S] none := by
    have := STurn.call (P := inForce lost) (f := ⟨n!"p", 2⟩) (ts := []) (S := S) (by decide)
    rwa [f1] at this
  have t2 : STurn (inForce lost) (.clause c1 [] S) [.goals [.goal ⟨n!"q", 2⟩] (S.enter c1)] none := by
    refine .enter (fun hE => ?_) (fun hn => hn ⟨n!"q", 2⟩ (.head _))
    exact hE (fun _ => itreeAlg.int 0) _ ⟨fun v => if v = n!"X" then itreeAlg.cons n!"c" else itreeAlg.cons n!"d", [], rfl, rfl⟩
  have t3 : STurn (inForce lost) (.goals [.goal ⟨n!"q", 2⟩] (S.enter c1)) [.clause c2 [] (S.enter c1)] none := by
    have := STurn.call (P := inForce lost) (f := ⟨n!"q", 2⟩) (ts := []) (S := S.enter c1) (by decide)
    rwa [f2] at this
  have t4 : STurn (inForce lost) (.clause c2 [] (S.enter c1)) [] (some (.answer ((S.enter c1).enter c2))) := by
    refine .answer (fun hE => ?_) (fun f hf => by cases hf)
    exact hE (fun _ => itreeAlg.int 0) _ ⟨fun _ => itreeAlg.int 0, [], ⟨fun v => if v = n!"X" then itreeAlg.cons n!"c" else
      if v = n!"Y" then itreeAlg.cons n!"d" else if v = n!"Z" then itreeAlg.cons n!"a" else itreeAlg.cons n!"b", [], rfl, rfl⟩, rfl⟩
  have run : SRun (inForce lost) [.goals (askLost.map (.goal ·.fv)) S] _ _ := .cons t1 (.cons t2 (.cons t3 (.cons t4 .nil)))
  obtain ⟨q', h'⟩ := h.take 4
  obtain ⟨e, _⟩ := C42_determined h' run (by simp; omega)
  refine ⟨(S.enter c1).enter c2, ?_⟩
  rw [← List.getElem?_take_of_lt (by omega : 3 < 4), e]; rfl

end ResolutionExamples

open ResolutionExamples CompleteExamples in
/-- **C42 is false in general**: with `p(X,Y) :- q(Z,W).  q(a,b).`, whose clauses compete for registers, the
query `p(c,d)` is worked on without any report, and no run of the search agrees with this. -/
theorem C42_lost_registers : ∃ o' ts, (demo lost askLost).iterate 20 20 = .ok (o', ts) ∧ ts = List.replicate ts.length .continue ∧
    ¬ ∃ items rs, SRun (inForce lost) [.goals (askLost.map (.goal ·.fv)) (Insts.query askLost)] rs items ∧
      List.Forall₂ (Says (demo lost askLost).st askLost 20) ts rs := by
  have h : ((demo lost askLost).iterate 20 20).toOption.map (·.2) = some (List.replicate 4 .continue) := by decide +kernel
  cases hr : (demo lost askLost).iterate 20 20 with
  | error x => rw [hr] at h; cases h
  | ok r =>
    rw [hr] at h
    obtain ⟨o', ts⟩ := r
    obtain rfl : ts = List.replicate 4 .continue := by simpa [Except.toOption] using h
    refine ⟨o', _, rfl, by simp, ?_⟩
    rintro ⟨items, rs, h1, h2⟩
    obtain ⟨S, hS⟩ := lost_forced h1 (by rw [← h2.length_eq]; simp)
    obtain ⟨a, ha, hs⟩ := forall₂_find h2 hS
    have : a = .continue := by simpa using List.mem_of_getElem? ha
    subst this
    cases hs

end PBfs
