import Verif.Spec.Doubling
import Verif.Props.Splits
import Verif.Props.Table
import Verif.Props.Memory
import Verif.Props.Reading
import Verif.Props.Defined
import Verif.Props.Page
/-! # C74: answers can be exponentially longer than the texts -/
namespace PBfs
open Org

/-- The program. -/
def doublingProg : List Clause := [tBase, tStep]

theorem doubling_parsed : parseProgram doublingText = .ok doublingProg := by rfl

/-! ## The query -/

/-- `s(s(…o…))` -/
def numeral : Nat → Node
  | 0 => .cons n!"o"
  | n + 1 => .fn n!"s" [numeral n]

/-- The query. -/
def doublingQuery (n : Nat) : List Node := [.fn n!"t" [numeral n, .cons n!"a", .var n!"X"]]

def numeralToks : Nat → List Tok
  | 0 => [.name n!"o"]
  | n + 1 => .opening n!"s" :: numeralToks n ++ [.sym [')']]

theorem numeral_syn : ∀ n, Syn .elem [numeral n] (numeralToks n)
  | 0 => .cons
  | n + 1 => .fn (.one (numeral_syn n))

theorem numeral_spell : ∀ n {ts : List Tok} {s : List Char}, Spell ts s → (∀ c, s.head? = some c → isWord c = false ∧ c ≠ '(') →
    Spell (numeralToks n ++ ts) (numeralText n ++ s)
  | 0, ts, s, h, hs => Spell.cons (ws := []) (t := .name n!"o") (by simp) ⟨'o', [], rfl, by decide, by simp⟩ hs h
  | n + 1, ts, s, h, hs => by
    have h1 : Spell (.sym [')'] :: ts) (')' :: s) := Spell.cons (ws := []) (t := .sym [')']) (by simp) ⟨')', [], rfl, by decide⟩ trivial h
    have h2 := numeral_spell n h1 (by intro c hc; cases hc; decide)
    have h3 := Spell.cons (ws := []) (t := .opening n!"s") (by simp) ⟨'s', [], rfl, by decide, by simp⟩ trivial h2
    simpa [numeralToks, numeralText, Tok.text] using h3

theorem doublingAsk_dot (n : Nat) : appendDot (doublingAsk n) = doublingAsk n ++ n!"." := by
  have : (doublingAsk n).reverse = ')' :: (n!"t(" ++ numeralText n ++ n!",a,X").reverse := by simp [doublingAsk]
  unfold appendDot
  rw [this, appendDotRev, if_neg (by decide), if_neg (by decide)]
  simp [doublingAsk]

theorem doublingAsk_parsed (n : Nat) : parseQuery (appendDot (doublingAsk n)) = .ok (doublingQuery n) := by
  rw [C41_query_text, doublingAsk_dot]
  refine ⟨.opening n!"t" :: (numeralToks n ++ .sym [','] :: ([.name n!"a"] ++ .sym [','] :: [.var n!"X"])) ++ [.sym [')']], .one (.head (.fn ?_)), ?_⟩
  · exact .more (numeral_syn n) (.more .cons (.one (.esum (.sum1 (.product1 (.power1 .var))))))
  · have e : Spell [.sym [','], .name n!"a", .sym [','], .var n!"X", .sym [')'], .sym ['.']] n!",a,X)." := by
      refine Spell.cons (ws := []) (t := .sym [',']) (s := n!"a,X).") (by simp) ⟨',', [], rfl, by decide⟩ trivial ?_
      refine Spell.cons (ws := []) (t := .name n!"a") (s := n!",X).") (by simp) ⟨'a', [], rfl, by decide, by simp⟩ (by intro c hc; cases hc; decide) ?_
      refine Spell.cons (ws := []) (t := .sym [',']) (s := n!"X).") (by simp) ⟨',', [], rfl, by decide⟩ trivial ?_
      refine Spell.cons (ws := []) (t := .var n!"X") (s := n!").") (by simp) ⟨'X', [], rfl, by decide, by simp⟩ (by intro c hc; cases hc; decide) ?_
      refine Spell.cons (ws := []) (t := .sym [')']) (s := n!".") (by simp) ⟨')', [], rfl, by decide⟩ trivial ?_
      exact Spell.cons (ws := []) (t := .sym ['.']) (s := []) (by simp) ⟨'.', [], rfl, by decide⟩ trivial (.nil (by simp))
    have h2 := numeral_spell n e (by intro c hc; cases hc; decide)
    have h3 := Spell.cons (ws := []) (t := .opening n!"t") (by simp) ⟨'t', [], rfl, by decide, by simp⟩ trivial h2
    simpa [doublingAsk, Tok.text] using h3

theorem numeralText_length : ∀ n, (numeralText n).length = 3 * n + 1
  | 0 => rfl
  | n + 1 => by simp [numeralText, numeralText_length n]; omega

theorem doublingAsk_length (n : Nat) : (doublingAsk n).length = 3 * n + 8 := by
  simp [doublingAsk, numeralText_length]

theorem doubledText_length : ∀ n, (doubledText n).length + 4 = 5 * 2 ^ n
  | 0 => rfl
  | n + 1 => by
    have := doubledText_length n
    simp only [doubledText, List.length_append, List.length_cons, List.length_nil, Nat.pow_succ]; omega

theorem numeral_vars : ∀ n, (numeral n).vars = []
  | 0 => rfl
  | n + 1 => by simp [numeral, Node.vars, Node.varss, numeral_vars n]

theorem numeral_readable : ∀ n, (numeral n).readable = true
  | 0 => rfl
  | n + 1 => by simp [numeral, Node.readable, Node.readables, numeral_readable n]

theorem numeral_exprs : ∀ n, (numeral n).exprVars = []
  | 0 => rfl
  | n + 1 => by simp [numeral, Node.exprVars, Node.exprVarss, numeral_exprs n]

theorem numeral_size : ∀ n, (numeral n).size = n + 1
  | 0 => rfl
  | n + 1 => by simp [numeral, Node.size, Node.sizes, numeral_size n]; omega

theorem numeral_syms : ∀ n, ∀ x ∈ (numeral n).syms, x = ⟨n!"o", 0⟩ ∨ x = ⟨n!"s", 1⟩
  | 0, x, h => by simp [numeral, Node.syms] at h; exact .inl h
  | n + 1, x, h => by
    simp only [numeral, Node.syms, Node.symss, List.append_nil, List.length_cons, List.length_nil, List.mem_cons] at h
    exact h.elim .inr (numeral_syms n x)

/-! ## Resolution -/

/-- The numeral as a value. -/
def numI : Nat → ITree
  | 0 => itreeAlg.cons n!"o"
  | n + 1 => itreeAlg.fn n!"s" [numI n]

theorem numeral_eval (ρ : Name → ITree) : ∀ n, (numeral n).eval itreeAlg ρ = numI n
  | 0 => rfl
  | n + 1 => by simp [numeral, numI, Node.eval, Node.evals, numeral_eval ρ n]

/-- The doubled term. -/
def doubled : Nat → Tree
  | 0 => .cons n!"a"
  | n + 1 => .fn n!"g" [doubled n, doubled n]

theorem doubled_text : ∀ n, Text (doubled n) (doubledText n)
  | 0 => .cons
  | n + 1 => by
    have h := Text.fn (f := n!"g") (ts := [doubled n, doubled n]) (ss := [doubledText n, doubledText n]) (by decide) (by simp) rfl fun i t s h1 h2 => by
      match i with
      | 0 => cases h1; cases h2; exact doubled_text n
      | 1 => cases h1; cases h2; exact doubled_text n
      | _ + 2 => cases h1
    simpa [commas, doubled, doubledText] using h

/-- The same as a value. -/
def dblI (n : Nat) : ITree := (doubled n).fold itreeAlg

theorem dblI_succ (n : Nat) : dblI (n + 1) = itreeAlg.fn n!"g" [dblI n, dblI n] := by
  simp [dblI, doubled, Tree.fold, Tree.folds]

/-- The values of the goal `t(k,d,X)`. -/
def tAt (k j : Nat) : Insts := fun ρq gs => gs = [⟨n!"t", [numI k, dblI j, ρq n!"X"]⟩]

theorem tAt_query (n : Nat) : Insts.query (doublingQuery n) = tAt n 0 := by
  funext ρq gs
  simp [Insts.query, doublingQuery, tAt, Node.inst, Node.name, Node.children, Node.evals, Node.eval, numeral_eval, dblI, doubled, Tree.fold]

theorem tAt_base_empty {k j : Nat} : ((tAt (k + 1) j).enter tBase).Empty := by
  rintro ρq gs ⟨ρ, rest, h2, rfl⟩
  simp only [tAt, tBase, Node.inst, Node.name, Node.children, Node.evals, Node.eval, List.cons.injEq, GAtom.mk.injEq, true_and, and_true] at h2
  exact itreeAlg_sharp.cons_fn h2.1.1

theorem tAt_step_empty {j : Nat} : ((tAt 0 j).enter tStep).Empty := by
  rintro ρq gs ⟨ρ, rest, h2, rfl⟩
  simp only [tAt, tStep, Node.inst, Node.name, Node.children, Node.evals, Node.eval, List.cons.injEq, GAtom.mk.injEq, true_and, and_true] at h2
  exact itreeAlg_sharp.cons_fn h2.1.1.symm

theorem tAt_base {j : Nat} {ρq gs} : (tAt 0 j).enter tBase ρq gs ↔ ρq n!"X" = dblI j ∧ gs = [] := by
  constructor
  · rintro ⟨ρ, rest, h2, rfl⟩
    simp only [tAt, tBase, Node.inst, Node.name, Node.children, Node.evals, Node.eval, List.cons.injEq, GAtom.mk.injEq, true_and, and_true] at h2
    obtain ⟨⟨_, h3, h4⟩, rfl⟩ := h2
    exact ⟨by rw [← h4, h3], rfl⟩
  · rintro ⟨h1, rfl⟩
    refine ⟨fun _ => dblI j, [], ?_, rfl⟩
    simp [tAt, h1, tBase, Node.inst, Node.name, Node.children, Node.evals, Node.eval, numI]

theorem tAt_step {k j : Nat} : (tAt (k + 1) j).enter tStep = tAt k (j + 1) := by
  funext ρq gs
  refine propext ⟨?_, fun h => ?_⟩
  · rintro ⟨ρ, rest, h2, rfl⟩
    simp only [tAt, tStep, Node.inst, Node.name, Node.children, Node.evals, Node.eval, List.cons.injEq, GAtom.mk.injEq, true_and, and_true] at h2
    obtain ⟨⟨h4, h3, h5⟩, rfl⟩ := h2
    have h6 := (itreeAlg_sharp.fn_inj h4).2
    simp only [List.cons.injEq, and_true] at h6
    simp [tAt, tStep, Node.inst, Node.name, Node.children, Node.evals, Node.eval, h3, h5, h6, dblI_succ]
  · refine ⟨fun v => if v = n!"N" then numI k else if v = n!"A" then dblI j else ρq n!"X", [], ?_, ?_⟩
    · simp [tAt, tStep, Node.inst, Node.name, Node.children, Node.evals, Node.eval, numI]
    · rw [h]
      simp [tStep, Node.inst, Node.name, Node.children, Node.evals, Node.eval, dblI_succ]

/-- What the search reports. -/
def tReps : Nat → Nat → List (Option Rep)
  | 0, j => [none, some (.answer ((tAt 0 j).enter tBase)), none]
  | k + 1, j => none :: none :: none :: tReps k (j + 1)

theorem t_clauses : (inForce doublingProg).filter (·.head.fv = ⟨n!"t", 3⟩) = [tBase, tStep] := rfl

theorem tReps_run : ∀ k j, SRun (inForce doublingProg) [.goals [.goal ⟨n!"t", 3⟩] (tAt k j)] (tReps k j) [] := by
  have t1 : ∀ S, STurn (inForce doublingProg) (.goals [.goal ⟨n!"t", 3⟩] S) [.clause tBase [] S, .clause tStep [] S] none := by
    intro S
    have := STurn.call (P := inForce doublingProg) (f := ⟨n!"t", 3⟩) (ts := []) (S := S) (by decide)
    rwa [t_clauses] at this
  intro k
  induction k with
  | zero =>
    intro j
    refine .cons (t1 _) (.cons (.answer (fun hE => ?_) (fun f hf => by cases hf)) (.cons (.reject tAt_step_empty) .nil))
    exact hE (fun _ => dblI j) [] (tAt_base.2 ⟨rfl, rfl⟩)
  | succ k ih =>
    intro j
    have t3 : STurn (inForce doublingProg) (.clause tStep [] (tAt (k + 1) j)) [.goals [.goal ⟨n!"t", 3⟩] (tAt k (j + 1))] none := by
      rw [← tAt_step]
      refine STurn.enter (c := tStep) (ts := []) (fun hE => ?_) (fun hn => hn ⟨n!"t", 3⟩ (.head _))
      rw [tAt_step] at hE
      exact hE (fun _ => dblI j) _ rfl
    exact .cons (t1 _) (.cons (.reject tAt_base_empty) (.cons t3 (ih _)))

theorem tReps_reports : ∀ k j, (tReps k j).filterMap id = [.answer ((tAt 0 (j + k)).enter tBase)]
  | 0, j => rfl
  | k + 1, j => by
    have := tReps_reports k (j + 1)
    rw [show j + (k + 1) = j + 1 + k by omega, ← this]; rfl

theorem tReps_length : ∀ k j, (tReps k j).length = 3 * (k + 1)
  | 0, j => rfl
  | k + 1, j => by simp only [tReps, List.length_cons, tReps_length k]; omega

/-- From the first two arguments to the third. -/
def tModes : Modes := ⟨fun f i => f == ⟨n!"t", 3⟩ && (i == 0 || i == 1), fun f i => f == ⟨n!"t", 3⟩ && i == 2⟩

theorem t_wellModed (n : Nat) : WellModed tModes doublingProg (doublingQuery n) := by
  refine .of [⟨n!"t", 3⟩] ⟨fun _ => rfl, fun _ => rfl, fun _ _ => rfl⟩ ?_ ?_ ⟨fun v hv => ?_, fun v hv => by cases hv⟩
  · intro a ha
    rw [doublingQuery, List.mem_singleton] at ha
    subst ha; simp [Node.fv, Node.name, Node.children]
  · intro c hc hf
    have : c ∈ (inForce doublingProg).filter (·.head.fv = ⟨n!"t", 3⟩) := List.mem_filter.2 ⟨hc, by simpa using hf⟩
    rw [t_clauses] at this
    simp only [List.mem_cons, List.not_mem_nil, or_false] at this
    rcases this with rfl | rfl
    · exact ⟨by decide, by decide⟩
    · exact ⟨by decide, by decide⟩
  · have : tModes.inVars (.fn n!"t" [numeral n, .cons n!"a", .var n!"X"]) = (numeral n).vars ++ ([] ++ []) := rfl
    rw [this, numeral_vars] at hv
    cases hv

theorem t_calls (n : Nat) : ¬ MayCall doublingProg (doublingQuery n) ⟨n!"is", 2⟩ := by
  intro hm
  have := hm.of (Q := fun f => f = ⟨n!"t", 3⟩) (fun a ha => ?_) fun c hc hf b hb => ?_
  · cases this
  · rw [doublingQuery, List.mem_singleton] at ha
    subst ha; rfl
  · have : c ∈ (inForce doublingProg).filter (·.head.fv = ⟨n!"t", 3⟩) := List.mem_filter.2 ⟨hc, by simp [hf]⟩
    rw [t_clauses] at this
    simp only [List.mem_cons, List.not_mem_nil, or_false] at this
    rcases this with rfl | rfl
    · cases hb
    · simp only [tStep, List.mem_singleton] at hb
      subst hb; rfl

/-! ## The interpreter -/

/-- A new interpreter with this program. -/
def doublingServed (ord : HashOrder) : Org := (Org.init0.loadProgramText ord doublingText).1

/-- The same after it was asked the query. -/
def doublingAsked (ord : HashOrder) (n : Nat) : Org := ((doublingServed ord).loadQueryText ord (doublingAsk n)).1

theorem doublingServed_eq (ord : HashOrder) : Org.init0.loadProgramText ord doublingText = Org.init0.loadProgram ord (some doublingProg) := by
  unfold Org.loadProgramText; rw [doubling_parsed]

theorem doublingAsked_eq (ord : HashOrder) (n : Nat) : (doublingServed ord).loadQueryText ord (doublingAsk n) = (doublingServed ord).loadQuery ord (some (doublingQuery n)) := by
  unfold Org.loadQueryText; rw [doublingAsk_parsed]

variable {ord : HashOrder} (ho : ord.OK)
include ho

theorem doubling_program : Org.init0.loadProgram ord (some doublingProg) = (doublingServed ord, .ok) := by
  refine Prod.ext (by rw [doublingServed, doublingServed_eq]) (C61_accepted ho ?_ (by decide))
  simp only [doublingProg, tBase, tStep]
  decide

theorem doubling_query (n : Nat) : (doublingServed ord).loadQuery ord (some (doublingQuery n)) = (doublingAsked ord n, .ok) := by
  refine Prod.ext (by rw [doublingAsked, doublingAsked_eq]) ?_
  rw [C61_query ho]
  · rw [if_pos]
    refine Node.defined_of fun pre g post e v hv => ?_
    have hg : g ∈ doublingQuery n := by rw [e]; simp
    rw [doublingQuery, List.mem_singleton] at hg
    subst hg
    simp [Node.exprVarss, Node.exprVars, Node.children, numeral_exprs] at hv
  · intro a ha
    rw [doublingQuery, List.mem_singleton] at ha
    subst ha
    simp [Node.readable, Node.readables, numeral_readable]

theorem doubling_serves : Serves (doublingServed ord) ord doublingProg := .program (ord := ord) (.init Org.init_eq) (doubling_program ho)

theorem doubling_printable (n : Nat) : Printable (doublingAsked ord n).st := by
  obtain ⟨-, a1, -, -, a2⟩ := C73_program (doubling_program ho)
  obtain ⟨-, b1, -, -, b2⟩ := C73_query (doubling_query ho n)
  have hf : ∀ x ∈ (doublingAsked ord n).st.functors, x ∈ ([⟨n!"[", 0⟩, ⟨n!"[", 2⟩, ⟨n!"o", 0⟩, ⟨n!"s", 1⟩, ⟨n!"g", 2⟩, ⟨n!"a", 0⟩] : List FV) := by
    intro x hx
    rcases b1 x hx with hx | hx
    · rcases a1 x hx with hx | hx
      · exact (show ∀ x ∈ Org.init0.st.functors, x ∈ ([⟨n!"[", 0⟩, ⟨n!"[", 2⟩, ⟨n!"o", 0⟩, ⟨n!"s", 1⟩, ⟨n!"g", 2⟩, ⟨n!"a", 0⟩] : List FV) by decide +kernel) x hx
      · exact (show ∀ x ∈ doublingProg.flatMap Clause.syms, x ∈ ([⟨n!"[", 0⟩, ⟨n!"[", 2⟩, ⟨n!"o", 0⟩, ⟨n!"s", 1⟩, ⟨n!"g", 2⟩, ⟨n!"a", 0⟩] : List FV) by decide +kernel) x hx
    · simp only [querySyms, doublingQuery, List.flatMap_cons, List.flatMap_nil, List.append_nil, Node.atomSyms, Node.children, Node.symss, Node.syms, List.mem_append, List.mem_singleton] at hx
      rcases hx with hx | hx
      · rcases numeral_syms n x hx with rfl | rfl <;> decide
      · subst hx; decide
  have hr : Reach (doublingAsked ord n) := by
    have := Reach.query ord (some (doublingQuery n)) (doubling_serves ho).reach
    rwa [doubling_query ho n] at this
  have h6 := nodup_length hr.nodup (b := []) fun x hx => .inl (hf x hx)
  have hi : Org.init0.st.vars.length = 3 := by decide +kernel
  have hp : (doublingProg.map fun c => c.head.size + (Node.varss c.body).length).sum = 13 := by decide +kernel
  have hq : (Node.varss (doublingQuery n)).length = 1 := by simp [doublingQuery, Node.varss, Node.vars, numeral_vars]
  simp only [List.length_cons, List.length_nil] at h6
  exact ⟨by omega, by omega, fun f hm => (show ∀ x ∈ ([⟨n!"[", 0⟩, ⟨n!"[", 2⟩, ⟨n!"o", 0⟩, ⟨n!"s", 1⟩, ⟨n!"g", 2⟩, ⟨n!"a", 0⟩] : List FV), x.name ≠ n!"|" by decide) f (hf f hm),
    fun f hm => (show ∀ x ∈ ([⟨n!"[", 0⟩, ⟨n!"[", 2⟩, ⟨n!"o", 0⟩, ⟨n!"s", 1⟩, ⟨n!"g", 2⟩, ⟨n!"a", 0⟩] : List FV), x.name = n!"[" → x.arity = 0 ∨ x.arity = 2 by decide) f (hf f hm)⟩

theorem doubling_asked (n : Nat) : Asked (doublingAsked ord n) doublingProg (doublingQuery n) := by
  refine ⟨⟨_, ord, ord, doubling_serves ho, ho, SoundExamples.safe_of_b (by decide +kernel), ho, doubling_query ho n⟩, ?_, by simp [doublingQuery], by have := (doubling_printable ho n).functors; omega⟩
  exact (C41_well_formed.2 _ (doublingAsk_parsed n)).2

/-- **C74**: to a new interpreter that is given the program `t(o, A, A). t(s(N), A, B) :- t(N, g(A, A), B).` and the query `t(s(…s(o)…),a,X)` with `n` times `s`, a text of `3 * n + 8`
characters, both are acceptable; the first call of `get_answer`, for which `3 * (n + 1)` iterations are enough, returns for `X` a text with `5 * 2 ^ n - 4` characters, and the
second one says that there are no more answers. -/
theorem C74_doubling (n : Nat) : Org.init0.loadProgramText ord doublingText = (doublingServed ord, .ok) ∧
    (doublingServed ord).loadQueryText ord (doublingAsk n) = (doublingAsked ord n, .ok) ∧ (doublingAsk n).length = 3 * n + 8 ∧ (doubledText n).length = 5 * 2 ^ n - 4 ∧
    ∃ fuel0 oe, ∀ fuel, fuel0 ≤ fuel → ∀ m, 3 * (n + 1) ≤ m →
      (doublingAsked ord n).session fuel [List.replicate m false, List.replicate m false] = .ok (oe, [.answer [⟨n!"X", doubledText n⟩], .noAnswer]) := by
  refine ⟨by rw [doublingServed_eq, doubling_program ho], by rw [doublingAsked_eq, doubling_query ho n], doublingAsk_length n, by have := doubledText_length n; omega, ?_⟩
  have h := doubling_asked ho n
  have hpr := doubling_printable ho n
  have hrun := tReps_run n 0
  rw [← tAt_query] at hrun
  obtain ⟨fuel0, oe, ans, h1, h2⟩ := C58_exact h hpr (t_wellModed n) (t_calls n) hrun
  rw [tReps_reports, Nat.zero_add] at h1
  cases h1 with
  | cons h3 h4 =>
    cases h4
    cases h3 with
    | @answer bs _ hS =>
      have hvars : Node.varss [numeral n, .cons n!"a", Node.var n!"X"] = [n!"X"] := by simp [Node.varss, Node.vars, numeral_vars]
      obtain rfl := hS.one (x := n!"X") (s := doubledText n) (fun v => by simp only [doublingQuery, List.mem_singleton, exists_eq_left, Node.children, hvars]) fun b hb hn => by
        refine hS.text hpr h.stOK (u := doubled n) (fun ρ gs hS => ?_) (doubled_text n) hb hn
        exact (tAt_base.1 hS).1
      rw [tReps_length] at h2
      exact ⟨fuel0, oe, fun fuel hf m hm => (h2 fuel hf).1 m hm⟩

/-- While searching, little memory is needed: the two arguments of `g` are the same cells.  After `k` iterations there are at most `24 * n + 318` cells and pointers, times `(k + 1) ^ 2`; the search takes no
more than `3 * (n + 1)` iterations. -/
theorem C74_memory (n : Nat) {fuel hist o'} (h : Runs fuel (doublingAsked ord n) hist o') : o'.room ≤ (24 * n + 318) * ((hist.length + 1) * (hist.length + 1)) := by
  have h1 := (C70_text (T := n + 12) (b := 2) (doubling_serves ho) ho ho (doubling_query ho n) (EffortExamples.atMost_of (by decide +kernel)) (fun c hc => ?_) ?_ h).2.2
  · refine Nat.le_trans h1 (Nat.mul_le_mul_right _ (by omega))
  · have : (inForce doublingProg).all fun c => decide (Node.symbolss (c.head :: c.body) ≤ 12) := by decide +kernel
    have := of_decide_eq_true (List.all_eq_true.1 this c hc)
    omega
  · rw [symbolss_sizes]
    simp only [doublingQuery, Node.sizes, Node.size, numeral_size]
    omega

omit ho in
/-- **C74**: so no polynomial bounds the length of an answer by the lengths of program and query and the number of iterations. -/
theorem C74_no_polynomial : ¬ ∃ c d : Nat, ∀ program query o, Opened program query o → ∀ fuel m o' bs, o.getAnswer fuel (List.replicate m false) = .ok (o', .answer bs) →
    ∀ b ∈ bs, b.value.length ≤ c * (program.length + query.length + m) ^ d := by
  intro ⟨c, d, h⟩
  obtain ⟨n, hn⟩ := beats (c * 60 ^ d) d
  obtain ⟨h1, h2, h3, h4, fuel0, oe, h5⟩ := C74_doubling HashOrder.id_ok n
  have h6 := h5 fuel0 (Nat.le_refl _) _ (Nat.le_refl _)
  simp only [Org.session, bind_ok] at h6
  obtain ⟨⟨o', r⟩, h7, ⟨o2, rs⟩, -, h8⟩ := h6
  simp only [pure_ok, Prod.mk.injEq, List.cons.injEq] at h8
  obtain ⟨-, rfl, -⟩ := h8
  have h9 := h _ _ _ ⟨id, _, _, Org.init_eq, h1, h2⟩ _ _ _ _ h7 _ (List.mem_singleton.2 rfl)
  rw [h3] at h9
  have h10 : c * (doublingText.length + (3 * n + 8) + 3 * (n + 1)) ^ d ≤ c * (60 ^ d * (4 * n + 6) ^ d) := by
    rw [← Nat.mul_pow]
    refine Nat.mul_le_mul_left _ (Nat.pow_le_pow_left ?_ d)
    have : doublingText.length ≤ 60 := by decide
    omega
  rw [← Nat.mul_assoc] at h10
  have h11 : 1 ≤ 2 ^ n := Nat.one_le_two_pow
  simp only at h9
  omega

omit ho in
/-- The first four of these queries, run. -/
theorem C74_sample : [0, 1, 2, 3].map (fun n => ((doublingAsked id n).session 200 [List.replicate 12 false, List.replicate 12 false]).toOption.map (·.2)) =
      [n!"a", n!"g(a,a)", n!"g(g(a,a),g(a,a))", n!"g(g(g(a,a),g(a,a)),g(g(a,a),g(a,a)))"].map fun s => some [.answer [⟨n!"X", s⟩], .noAnswer] := by
  decide +kernel

end PBfs
