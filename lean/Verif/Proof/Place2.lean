import Verif.Proof.Place
import Verif.Spec.Place
import Verif.Props.Tree
import Verif.Props.Goals
/-! # The goals of the executors with their positions -/
namespace PBfs
open Org

/-- A goal or (`none`) a head of a clause, with its position. -/
abbrev PItem := Option Node × Info

def CAtom.item (a : CAtom) (i : Info) : Option PItem :=
  match a.goal? with
  | some g => some (some g, i)
  | none => a.head?.map fun _ => (none, i)

/-- The goals and heads among pieces of code. -/
def live (cs : List CAtom) (is : List Info) : List PItem := (cs.zip is).filterMap fun x => x.1.item x.2

def tlive (cs : List TCode) (is : List Info) : List PItem := live (cs.map (·.atom)) is

def lift (l : List (Node × Info)) : List PItem := l.map fun x => (some x.1, x.2)

def Where.stack (w : Where) : List PItem := (none, w.head) :: lift w.body

theorem item_goal {a : CAtom} {i g} (h : a.goal? = some g) : a.item i = some (some g, i) := by simp [CAtom.item, h]

theorem item_head {a : CAtom} {i g} (h : a.head? = some g) : a.item i = some (none, i) := by
  have : a.goal? = none := by
    unfold CAtom.head? at h
    unfold CAtom.goal?
    split at h
    · rename_i h'; rw [h']
    · cases h
  simp [CAtom.item, this, h]

theorem item_dealloc {i} : deallocAtom.item i = none := rfl

theorem live_cons {a : CAtom} {cs i is} : live (a :: cs) (i :: is) = (a.item i).toList ++ live cs is := by
  unfold live
  simp only [List.zip_cons_cons, List.filterMap_cons]
  cases a.item i <;> simp

theorem live_append {cs cs' : List CAtom} {is is'} (h : cs.length = is.length) : live (cs ++ cs') (is ++ is') = live cs is ++ live cs' is' := by
  unfold live
  rw [List.zip_append h, List.filterMap_append]

/-! ## The rules -/

/-- The code of the clause at `w`. -/
def RuleAt (w : Where) (r : Rule) (is : List Info) : Prop := r.length = is.length ∧ live r is = w.stack

theorem live_goals {n : Nat} : ∀ {gs : List (CAtom × Info)}, (∀ g ∈ gs, GoalForm n g.1) →
    live (gs.map (·.1)) (gs.map (·.2)) = lift (gs.map fun x => (x.1.parsed, x.2)) := by
  intro gs
  induction gs with
  | nil => intro _; rfl
  | cons g gs ih =>
    intro h
    obtain ⟨ds, k1, _⟩ := h g (by simp)
    rw [List.map_cons, List.map_cons, live_cons, item_goal (goal?_of_call k1).1, ih (fun g hg => h g (by simp [hg]))]
    rfl

theorem live_deallocs {n : Nat} {is} : live (deallocAtoms n) is = [] := by
  unfold deallocAtoms
  split
  · rfl
  · cases is <;> rfl

theorem ruleAt_of {head : Node × Info} {body : List (Node × Info)} {r : List (CAtom × Info)} {k}
    (hf : RuleForm head.1 (body.map (·.1)) (r.map (·.1)))
    (hp : r.map (fun x => (x.1.parsed, x.2)) = head :: body ++ (deallocAtoms k).map (·.parsed, noInfo)) :
    RuleAt ⟨head.2, body⟩ (r.map (·.1)) (r.map (·.2)) := by
  obtain ⟨n, hd, gs, h1, ⟨ds, h2, _⟩, h3, h4, h5⟩ := hf
  refine ⟨by simp, ?_⟩
  cases r with
  | nil => cases h1
  | cons x r =>
    simp only [List.map_cons, List.cons.injEq, List.cons_append] at h1 hp
    obtain ⟨rfl, h1⟩ := h1
    obtain ⟨rfl, hp⟩ := hp
    have hl : gs.length = body.length := by rw [← List.length_map (f := (·.parsed)), h5, List.length_map]
    have e1 : (r.take gs.length).map (·.1) = gs := by rw [List.map_take, h1]; simp
    have e2 : (r.drop gs.length).map (·.1) = deallocAtoms n := by rw [List.map_drop, h1]; simp
    have e3 : (r.take gs.length).map (fun x => (x.1.parsed, x.2)) = body := by rw [List.map_take, hp, hl]; simp
    have e0 := List.take_append_drop gs.length r
    rw [List.map_cons, List.map_cons, live_cons, item_head (head?_of_proceed (ds := allocInstrs n ++ ds) (by rw [h2, List.append_assoc])).1]
    rw [← e0, List.map_append, List.map_append, live_append (by simp), e2, live_deallocs, live_goals (n := n), e3]
    · simp [Where.stack]
    · intro g hg
      exact h3 _ (by rw [← e1]; exact List.mem_map_of_mem hg)

theorem unlocated_of_ok {m : CRAt α} {a} (h : m = .ok a) : unlocated m = .ok a := by rw [h]; rfl

theorem compileProgramAt_rules {ord : HashOrder} : ∀ {p : List ClauseAt} {st rs}, compileProgramAt ord p st = .ok rs →
    List.Forall₂ (fun c r => r.1 = c.head.1.fv ∧ RuleAt c.place (r.2.2.map (·.1)) (r.2.2.map (·.2))) p rs.1 := by
  intro p
  induction p with
  | nil => intro st rs h; cases h; exact .nil
  | cons c p ih =>
    intro st rs h
    have hc := C62_compiled h
    simp only [compileProgramAt, bind_ok, pure_ok] at h
    obtain ⟨⟨f, r, st1⟩, h1, ⟨rs', st2⟩, h2, rfl⟩ := h
    cases hc with
    | cons h3 _ =>
      refine .cons ⟨h3.1, ?_⟩ (ih h2)
      obtain ⟨k, h4⟩ := h3.2.2
      have hu := compileClauseAt_unlocated ord c st
      rw [unlocated_of_ok h1] at hu
      simp only [ok_bind] at hu
      exact ruleAt_of (compileClause_form hu.symm) h4

/-! ## Collecting them -/

theorem lookup_addRule (p : Places) (f : FV) (r : List Info) (g : FV) :
    (List.lookup g (p.addRule f r)).getD [] = (List.lookup g p).getD [] ++ (if g = f then [r] else []) := by
  induction p with
  | nil =>
    simp only [Places.addRule, List.lookup_cons, List.lookup_nil]
    by_cases h : g = f
    · simp [h]
    · have : (g == f) = false := by simpa using h
      simp [this, h]
  | cons x p ih =>
    obtain ⟨k, v⟩ := x
    simp only [Places.addRule]
    split
    · rename_i hk
      subst hk
      simp only [List.lookup_cons]
      by_cases h : g = f
      · simp [h]
      · have : (g == f) = false := by simpa using h
        simp [this, h]
    · rename_i hk
      simp only [List.lookup_cons]
      by_cases h : g = k
      · subst h
        simp [Ne.symm hk]
      · have : (g == k) = false := by simpa using h
        simp [this, ih]

theorem lookup_assign (p : Places) (f : FV) (rs : List (List Info)) (g : FV) :
    List.lookup g (p.assign f rs) = if g = f then some rs else List.lookup g p := by
  induction p with
  | nil =>
    simp only [Places.assign, List.lookup_cons, List.lookup_nil]
    by_cases h : g = f
    · simp [h]
    · have : (g == f) = false := by simpa using h
      simp [this, h]
  | cons x p ih =>
    obtain ⟨k, v⟩ := x
    simp only [Places.assign]
    split
    · rename_i hk
      subst hk
      simp only [List.lookup_cons]
      by_cases h : g = f
      · simp [h]
      · have : (g == f) = false := by simpa using h
        simp [this, h]
    · rename_i hk
      simp only [List.lookup_cons]
      by_cases h : g = k
      · subst h
        simp [Ne.symm hk]
      · have : (g == k) = false := by simpa using h
        simp [this, ih]

/-- Clauses with their code and its positions. -/
abbrev Coded := List (Where × Rule × List Info)

theorem collect_rules {ord : HashOrder} (f : FV) {p : List ClauseAt} {st rs} (h : compileProgramAt ord p st = .ok rs) :
    ∃ L : Coded, L.map (·.1) = (p.filter (fun c => c.head.1.fv = f)).map (·.place) ∧ (∀ x ∈ L, RuleAt x.1 x.2.1 x.2.2) ∧
      ∀ (q : Program) (pl : Places),
        ((rs.1.foldl (fun p r => p.addRule r.1 (r.2.2.map (·.1))) q).rules? f).getD [] = (q.rules? f).getD [] ++ L.map (·.2.1) ∧
        (List.lookup f (rs.1.foldl (fun p r => Places.addRule p r.1 (r.2.2.map (·.2))) pl)).getD [] = (List.lookup f pl).getD [] ++ L.map (·.2.2) := by
  replace h := compileProgramAt_rules h
  obtain ⟨rs, st'⟩ := rs
  simp only at h ⊢
  induction h with
  | nil => exact ⟨[], rfl, by simp, fun q pl => by simp⟩
  | @cons c r cs rs h1 _ ih =>
    obtain ⟨L, k1, k2, k3⟩ := ih
    by_cases hf : c.head.1.fv = f
    · refine ⟨(c.place, r.2.2.map (·.1), r.2.2.map (·.2)) :: L, ?_, ?_, fun q pl => ?_⟩
      · rw [List.filter_cons_of_pos (by simpa using hf)]; simp [k1]
      · intro x hx
        rcases List.mem_cons.1 hx with rfl | hx
        · exact h1.2
        · exact k2 x hx
      · obtain ⟨j1, j2⟩ := k3 (q.addRule r.1 (r.2.2.map (·.1))) (Places.addRule pl r.1 (r.2.2.map (·.2)))
        rw [List.foldl_cons, List.foldl_cons, j1, j2, lookup_addRule, Program.rules?_addRule, h1.1, hf]
        simp
    · refine ⟨L, ?_, k2, fun q pl => ?_⟩
      · rw [List.filter_cons_of_neg (by simpa using hf)]; exact k1
      · obtain ⟨j1, j2⟩ := k3 (q.addRule r.1 (r.2.2.map (·.1))) (Places.addRule pl r.1 (r.2.2.map (·.2)))
        rw [List.foldl_cons, List.foldl_cons, j1, j2, lookup_addRule, Program.rules?_addRule, h1.1, if_neg (Ne.symm hf), if_neg (Ne.symm hf)]
        simp

/-- What is known of the program in an interpreter with positions. -/
structure FitsAt (a : Placed) (p : List ClauseAt) : Prop where
  bi : a.org.builtins = Org.init0.builtins
  pl : a.builtins = builtinPlaces
  rules : ∀ f, ∃ L : Coded, L.map (·.1) = clausesAt p f ∧ (a.org.program.rules? f).getD [] = L.map (·.2.1) ∧
    (List.lookup f a.program).getD [] = L.map (·.2.2) ∧ ∀ x ∈ L, RuleAt x.1 x.2.1 x.2.2

theorem FitsAt.congr {a a' : Placed} {p} (h : FitsAt a p) (h1 : a'.org.builtins = a.org.builtins) (h2 : a'.builtins = a.builtins)
    (h3 : a'.org.program = a.org.program) (h4 : a'.program = a.program) : FitsAt a' p :=
  ⟨h1.trans h.bi, h2.trans h.pl, by rw [h3, h4]; exact h.rules⟩

/-- The built-in predicates, with positions. -/
def builtinCoded (f : FV) : Coded := ((builtinWhere f).getD []).zip (((Org.init0.builtins.rules? f).getD []).zip ((List.lookup f builtinPlaces).getD []))

theorem builtin_coded {f} (hf : f ∈ builtinFVs) : builtinWhere f = some ((builtinCoded f).map (·.1)) ∧
    Org.init0.builtins.rules? f = some ((builtinCoded f).map (·.2.1)) ∧ List.lookup f builtinPlaces = some ((builtinCoded f).map (·.2.2)) ∧
    ∀ x ∈ builtinCoded f, RuleAt x.1 x.2.1 x.2.2 := by
  unfold builtinFVs at hf
  simp only [List.mem_cons, List.not_mem_nil, or_false] at hf
  rcases hf with rfl | rfl | rfl | rfl
  · refine ⟨rfl, rfl, rfl, ?_⟩
    intro x hx
    rcases List.mem_singleton.1 hx with rfl
    exact ⟨rfl, rfl⟩
  · refine ⟨rfl, rfl, rfl, ?_⟩
    intro x hx
    rcases List.mem_singleton.1 hx with rfl
    exact ⟨rfl, rfl⟩
  · refine ⟨rfl, rfl, rfl, ?_⟩
    intro x hx
    rcases List.mem_singleton.1 hx with rfl
    exact ⟨rfl, rfl⟩
  · refine ⟨rfl, rfl, rfl, ?_⟩
    intro x hx
    rcases List.mem_cons.1 hx with rfl | hx
    · exact ⟨rfl, rfl⟩
    rcases List.mem_singleton.1 hx with rfl
    exact ⟨rfl, rfl⟩

theorem builtin_none {f} (hf : f ∉ builtinFVs) : builtinWhere f = none ∧ Org.init0.builtins.rules? f = none ∧ List.lookup f builtinPlaces = none := by
  have hk : Org.init0.builtins.map (·.1) = builtinFVs := by rfl
  have hl : builtinPlaces.map (·.1) = builtinFVs := by rfl
  refine ⟨?_, ?_, ?_⟩
  · unfold builtinFVs at hf
    simp only [List.mem_cons, List.not_mem_nil, or_false, not_or] at hf
    unfold builtinWhere
    rw [if_neg hf.1, if_neg hf.2.1, if_neg hf.2.2.1, if_neg hf.2.2.2]
  · unfold Program.rules?
    rw [List.lookup_eq_none_iff]
    intro x hx
    have : f ≠ x.1 := by
      rintro rfl
      exact hf (hk ▸ List.mem_map_of_mem hx)
    simp [this]
  · rw [List.lookup_eq_none_iff]
    intro x hx
    have : f ≠ x.1 := by
      rintro rfl
      exact hf (hl ▸ List.mem_map_of_mem hx)
    simp [this]

theorem lookup_merge (f : FV) : ∀ (b p : Places), (b.map (·.1)).Nodup →
    List.lookup f (b.foldl (fun p e => Places.assign p e.1 e.2) p) = match List.lookup f b with
      | some rs => some rs
      | none => List.lookup f p := by
  intro b
  induction b with
  | nil => intro p _; rfl
  | cons e b ih =>
    intro p hn
    simp only [List.map_cons, List.nodup_cons] at hn
    rw [List.foldl_cons, ih _ hn.2, lookup_assign, List.lookup_cons]
    by_cases h : f = e.1
    · subst h
      have : List.lookup e.1 b = none := by
        rw [List.lookup_eq_none_iff]
        intro x hx
        have : e.1 ≠ x.1 := fun he => hn.1 (by rw [he]; exact List.mem_map_of_mem hx)
        simp [this]
      simp [this]
    · have : (f == e.1) = false := by simpa using h
      simp [this, h]

theorem FitsAt.own {a : Placed} {p} {f} (hf : f ∈ builtinFVs) (h1 : a.org.program.rules? f = Org.init0.builtins.rules? f)
    (h2 : List.lookup f a.program = List.lookup f builtinPlaces) : ∃ L : Coded, L.map (·.1) = clausesAt p f ∧
    (a.org.program.rules? f).getD [] = L.map (·.2.1) ∧ (List.lookup f a.program).getD [] = L.map (·.2.2) ∧ ∀ x ∈ L, RuleAt x.1 x.2.1 x.2.2 := by
  obtain ⟨k1, k2, k3, k4⟩ := builtin_coded hf
  exact ⟨builtinCoded f, by simp only [clausesAt, k1], by rw [h1, k2]; rfl, by rw [h2, k3]; rfl, k4⟩

theorem FitsAt.init {a} (h : Placed.init = .ok a) : FitsAt a [] := by
  simp only [Placed.init, Org.init_eq, ok_bind, pure_ok] at h
  subst h
  refine ⟨rfl, rfl, fun f => ?_⟩
  by_cases hf : f ∈ builtinFVs
  · exact FitsAt.own hf (by rw [Org.init0_program]) rfl
  · obtain ⟨k1, k2, k3⟩ := builtin_none hf
    refine ⟨[], by simp [clausesAt, k1], ?_, ?_, by simp⟩
    · simp only [Org.init0_program, k2]; rfl
    · simp only [k3]; rfl

theorem builtinPlaces_nodup : (builtinPlaces.map (·.1)).Nodup := by decide

theorem FitsAt.load {a a' : Placed} {p ord text p'} (h : FitsAt a p) (hl : a.loadProgram ord text = (a', .ok)) (hp : parseProgramAt text = .ok p') :
    FitsAt a' p' := by
  unfold Placed.loadProgram at hl
  simp only [hp] at hl
  have ht : a.org.loadProgramText ord text = a.org.loadProgram ord (some (p'.map ClauseAt.clause)) := by
    unfold Org.loadProgramText
    rw [← parseProgramAt_erase, hp]; rfl
  have hu := compileProgramAt_unlocated ord p' [] a.org.st
  cases hc : compileProgramAt ord p' a.org.st with
  | error x =>
    rw [hc] at hl hu
    simp only [Prod.mk.injEq] at hl
    obtain ⟨_, hl⟩ := hl
    obtain ⟨e, i, st⟩ := x
    rw [ht] at hl
    unfold Org.loadProgram at hl
    simp only [← hu] at hl
    simp only [unlocated, error_bind] at hl
    cases e <;> simp [Org.Load.ofErr] at hl
  | ok x =>
    obtain ⟨rs, st⟩ := x
    rw [hc] at hl
    simp only [Prod.mk.injEq] at hl
    obtain ⟨rfl, hl⟩ := hl
    have hlo : a.org.loadProgram ord (some (p'.map ClauseAt.clause)) = ((a.org.loadProgramText ord text).1, .ok) := by
      rw [← ht, ← hl]
    obtain ⟨q, h1, h2⟩ := loadProgram_ok hlo
    rw [hc, unlocated_of_ok rfl] at hu
    simp only [ok_bind] at hu
    rw [h1] at hu
    simp only [pure, Except.pure, Except.ok.injEq, Prod.mk.injEq] at hu
    have hb : (a.org.loadProgramText ord text).1.builtins = a.org.builtins := by rw [h2]
    have hpr : (a.org.loadProgramText ord text).1.program = Org.mergeBuiltins a.org.builtins q := by rw [h2]
    refine ⟨hb.trans h.bi, h.pl, fun f => ?_⟩
    have hm := mergeBuiltins_rules q f a.org.builtins (by rw [h.bi]; exact builtinFVs_nodup)
    have hm2 := lookup_merge f a.builtins (Placed.collect rs) (by rw [h.pl]; exact builtinPlaces_nodup)
    rw [h.bi] at hm
    rw [h.pl] at hm2
    by_cases hf : f ∈ builtinFVs
    · obtain ⟨k1, k2, k3, k4⟩ := builtin_coded hf
      refine FitsAt.own hf ?_ ?_
      · simp only [hpr, h.bi, hm, k2]
      · simp only [h.pl, hm2, k3]
    · obtain ⟨k1, k2, k3⟩ := builtin_none hf
      obtain ⟨L, j1, j2, j3⟩ := collect_rules f hc
      obtain ⟨j3, j4⟩ := j3 [] []
      refine ⟨L, by simp only [clausesAt, k1]; exact j1, ?_, ?_, j2⟩
      · simp only [hpr, h.bi, hm, k2]
        rw [← hu.1]
        exact j3
      · simp only [h.pl, hm2, k3]
        exact j4

theorem FitsAt.rejected {a a' : Placed} {p ord text l} (h : FitsAt a p) (hl : a.loadProgram ord text = (a', l)) (hne : l ≠ .ok) : FitsAt a' p := by
  have key : (a.org.loadProgramText ord text).2 ≠ .ok → (a.org.loadProgramText ord text).1.builtins = a.org.builtins ∧
      (a.org.loadProgramText ord text).1.program = a.org.program := by
    intro hne
    unfold Org.loadProgramText at hne ⊢
    cases hp : parseProgram text with
    | ok q =>
      rw [hp] at hne
      obtain ⟨_, h2⟩ := loadProgram_rejected (ord := ord) (o := a.org) (parsed := some q) (l := (a.org.loadProgram ord (some q)).2) (Prod.eta _).symm hne
      have e1 := congrArg Org.builtins h2
      have e2 := congrArg Org.program h2
      exact ⟨e1, e2⟩
    | error => exact ⟨rfl, rfl⟩
    | blank => exact ⟨rfl, rfl⟩
  unfold Placed.loadProgram at hl
  simp only at hl
  split at hl
  · rename_i q hq
    split at hl
    · rename_i rs st hc
      simp only [Prod.mk.injEq] at hl
      obtain ⟨_, rfl⟩ := hl
      exfalso
      apply hne
      have ht : a.org.loadProgramText ord text = a.org.loadProgram ord (some (q.map ClauseAt.clause)) := by
        unfold Org.loadProgramText
        rw [← parseProgramAt_erase, hq]; rfl
      have hu := compileProgramAt_unlocated ord q [] a.org.st
      rw [hc, unlocated_of_ok rfl] at hu
      simp only [ok_bind] at hu
      rw [ht]
      unfold Org.loadProgram
      simp only [← hu]
      rfl
    · simp only [Prod.mk.injEq] at hl
      obtain ⟨rfl, rfl⟩ := hl
      exact h.congr (key hne).1 rfl (key hne).2 rfl
  · simp only [Prod.mk.injEq] at hl
    obtain ⟨rfl, rfl⟩ := hl
    exact h.congr (key hne).1 rfl (key hne).2 rfl

/-! ## The executors -/

/-- What holds of the executors: `G` tells what there was to do at the start of each. -/
structure GInv (a : Placed) (cl : FV → List Where) (qs : List PItem) (G : Nat → List PItem) : Prop where
  len : a.places.length = a.org.execs.length
  par : ∀ (j : Nat) (e : Exec), a.org.execs[j]? = some e → e.codes.length = (a.own j).length
  code : ∀ (j : Nat) (e : Exec), a.org.execs[j]? = some e → tlive e.codes (a.own j) = if e.state = .running then G j else (G j).take 1
  fresh : ∀ (j : Nat) (e : Exec), a.org.execs[j]? = some e → ∀ t ∈ e.codes, a.org.stale t = false
  queued : ∀ (j : Nat) (e : Exec), a.org.execs[j]? = some e → e.state = .running → j ∈ a.org.queue
  busy : ∀ (j : Nat) (e : Exec), a.org.execs[j]? = some e → e.state = .running → G j ≠ []
  root : G 0 = qs
  alt : ∀ (j : Nat) (e : Exec) (t : CAtom) (g : Node), a.org.execs[j]? = some e → e.state ≠ .running → e.top = some t → t.goal? = some g →
    (createdBy a.org.execs j).map G = (cl g.fv).map fun w => w.stack ++ (G j).tail
  next : ∀ (j : Nat) (e : Exec) (t : CAtom) (g : Node), a.org.execs[j]? = some e → e.top = some t → t.head? = some g →
    ∀ k ∈ createdBy a.org.execs j, G k = (G j).tail

theorem GInv.step {a a' : Placed} {cl qs G} (h : GInv a cl qs G) {id : Nat} {e x : Exec} {news : List Exec} {y : List Info} {ys : List (List Info)}
    (hpl : ParLt a.org.execs) (he : a.org.execs[id]? = some e) (hrun : e.state = .running) (hnc : createdBy a.org.execs id = []) (hx : a'.org.execs = a.org.execs.set id x ++ news)
    (hy : a'.places = a.places.set id y ++ ys) (hgen : a'.org.gen = a.org.gen) (hp : x.parent = e.parent) (hpn : ∀ n ∈ news, n.parent = some id)
    (hnr : ∀ n ∈ news, n.state = .running) (hl : List.Forall₂ (fun n y => n.codes.length = y.length) news ys)
    (hxl : x.codes.length = y.length) (hlive : tlive x.codes y = if x.state = .running then G id else (G id).take 1)
    (hfx : ∀ t ∈ x.codes, a.org.stale t = false) (hfn : ∀ n ∈ news, ∀ t ∈ n.codes, a.org.stale t = false)
    (hq1 : ∀ j ∈ a.org.queue, j ≠ id → j ∈ a'.org.queue) (hq2 : x.state = .running → id ∈ a'.org.queue)
    (hq3 : ∀ i, i < news.length → a.org.execs.length + i ∈ a'.org.queue)
    (hbn : ∀ z ∈ news.zip ys, tlive z.1.codes z.2 ≠ [])
    (hg : ∀ t g, x.state ≠ .running → x.top = some t → t.goal? = some g →
      (news.zip ys).map (fun z => tlive z.1.codes z.2) = (cl g.fv).map fun w => w.stack ++ (G id).tail)
    (hh : ∀ t g, x.top = some t → t.head? = some g → ∀ z ∈ news.zip ys, tlive z.1.codes z.2 = (G id).tail) :
    ∃ G', GInv a' cl qs G' := by
  have hlt : id < a.org.execs.length := (List.getElem?_eq_some_iff.1 he).1
  have hlen := h.len
  have hnl : news.length = ys.length := by
    clear hx hy hpn hnr hfn hq3 hg hh hbn
    induction hl with
    | nil => rfl
    | cons _ _ ih => simp [ih]
  -- the executors now
  have exid : a'.org.execs[id]? = some x := by
    rw [hx, List.getElem?_append_left (by simpa using hlt), List.getElem?_set_self hlt]
  have exold : ∀ j, j ≠ id → j < a.org.execs.length → a'.org.execs[j]? = a.org.execs[j]? := by
    intro j hj hjl
    rw [hx, List.getElem?_append_left (by simpa using hjl), List.getElem?_set_ne (Ne.symm hj)]
  have exnew : ∀ i, a'.org.execs[a.org.execs.length + i]? = news[i]? := by
    intro i
    rw [hx, List.getElem?_append_right (by simp)]
    simp
  have owid : a'.own id = y := by
    rw [Placed.own, hy, List.getElem?_append_left (by simpa [hlen] using hlt), List.getElem?_set_self (by omega)]; rfl
  have owold : ∀ j, j ≠ id → j < a.org.execs.length → a'.own j = a.own j := by
    intro j hj hjl
    rw [Placed.own, hy, List.getElem?_append_left (by simpa [hlen] using hjl), List.getElem?_set_ne (Ne.symm hj), Placed.own]
  have ownew : ∀ i, a'.own (a.org.execs.length + i) = (ys[i]?).getD [] := by
    intro i
    rw [Placed.own, hy, List.getElem?_append_right (by simp [hlen])]
    simp [hlen]
  have hlnew : ∀ (i : Nat) (n : Exec), news[i]? = some n → ∃ z : List Info, ys[i]? = some z ∧ n.codes.length = z.length := by
    clear hx hy hpn hnr hfn hq3 hg hh hnl exnew ownew hbn
    induction hl with
    | nil => intro i n h; simp at h
    | @cons n0 y0 ns ys hc _ ih =>
      intro i n h
      cases i with
      | zero => simp at h; subst h; exact ⟨y0, rfl, hc⟩
      | succ i => simpa using ih i n (by simpa using h)
  -- which one it is
  have cases3 : ∀ (j : Nat) (z : Exec), a'.org.execs[j]? = some z → (j = id ∧ z = x) ∨ (j ≠ id ∧ j < a.org.execs.length ∧ a.org.execs[j]? = some z) ∨
      ∃ i w, j = a.org.execs.length + i ∧ news[i]? = some z ∧ ys[i]? = some w ∧ z.codes.length = w.length := by
    intro j z hz
    by_cases hj : j = id
    · subst hj; rw [exid] at hz; cases hz; exact .inl ⟨rfl, rfl⟩
    · rcases Nat.lt_or_ge j a.org.execs.length with hjl | hjl
      · exact .inr (.inl ⟨hj, hjl, by rw [← exold j hj hjl]; exact hz⟩)
      · obtain ⟨i, rfl⟩ := Nat.exists_eq_add_of_le hjl
        rw [exnew] at hz
        obtain ⟨w, k1, k2⟩ := hlnew i z hz
        exact .inr (.inr ⟨i, w, rfl, hz, k1, k2⟩)
  have cbold : ∀ j, j ≠ id → createdBy a'.org.execs j = createdBy a.org.execs j := by
    intro j hj
    rw [hx, createdBy_append hpn, createdBy_set he hp, if_neg hj, List.append_nil]
  have cbid : createdBy a'.org.execs id = List.range' a.org.execs.length news.length := by
    rw [hx, createdBy_append hpn, createdBy_set he hp, if_pos rfl, hnc, List.length_set, List.nil_append]
  have cblt : ∀ j k, k ∈ createdBy a.org.execs j → k < a.org.execs.length := by
    intro j k hk
    obtain ⟨_, k1, _⟩ := mem_createdBy.1 hk
    exact (List.getElem?_eq_some_iff.1 k1).1
  -- what there is to do
  let G' : Nat → List PItem := fun j => if j < a.org.execs.length then G j else
    tlive ((news[j - a.org.execs.length]?).map (·.codes) |>.getD []) ((ys[j - a.org.execs.length]?).getD [])
  have g1 : ∀ j, j < a.org.execs.length → G' j = G j := fun j hj => if_pos hj
  have g2 : ∀ (i : Nat) (n : Exec) (w : List Info), news[i]? = some n → ys[i]? = some w → G' (a.org.execs.length + i) = tlive n.codes w := by
    intro i n w h1 h2
    simp only [G']
    rw [if_neg (by omega)]
    simp [h1, h2]
  have g3 : (List.range' a.org.execs.length news.length).map G' = (news.zip ys).map fun z => tlive z.1.codes z.2 := by
    apply List.ext_getElem?
    intro i
    rcases Nat.lt_or_ge i news.length with hi | hi
    · have h1 : news[i]? = some news[i] := List.getElem?_eq_getElem hi
      have h2 : ys[i]? = some (ys[i]'(hnl ▸ hi)) := List.getElem?_eq_getElem _
      rw [List.getElem?_map, List.getElem?_map, List.getElem?_range' hi]
      have h3 : (news.zip ys)[i]? = some (news[i], ys[i]'(hnl ▸ hi)) := by
        rw [List.getElem?_zip_eq_some]; exact ⟨h1, h2⟩
      rw [h3]
      simp only [Option.map_some, Nat.one_mul, g2 i _ _ h1 h2]
    · rw [List.getElem?_eq_none (by simpa using hi), List.getElem?_eq_none (by simp; omega)]
  have hst : ∀ t, a'.org.stale t = a.org.stale t := fun t => by simp [Org.stale, hgen]
  refine ⟨G', ?_, ?_, ?_, ?_, ?_, ?_, ?_, ?_, ?_⟩
  · rw [hy, hx]; simp [hlen, hnl]
  · intro j z hz
    rcases cases3 j z hz with ⟨rfl, rfl⟩ | ⟨hj, hjl, hz⟩ | ⟨i, w, rfl, h1, h2, h3⟩
    · rw [owid]; exact hxl
    · rw [owold j hj hjl]; exact h.par j z hz
    · rw [ownew, h2]; exact h3
  · intro j z hz
    rcases cases3 j z hz with ⟨rfl, rfl⟩ | ⟨hj, hjl, hz⟩ | ⟨i, w, rfl, h1, h2, h3⟩
    · rw [owid, g1 _ hlt]; exact hlive
    · rw [owold j hj hjl, g1 _ hjl]; exact h.code j z hz
    · rw [ownew, h2, if_pos (hnr z (List.mem_of_getElem? h1)), g2 i z w h1 h2]; rfl
  · intro j z hz t ht
    rw [hst]
    rcases cases3 j z hz with ⟨rfl, rfl⟩ | ⟨hj, hjl, hz⟩ | ⟨i, w, rfl, h1, h2, h3⟩
    · exact hfx t ht
    · exact h.fresh j z hz t ht
    · exact hfn z (List.mem_of_getElem? h1) t ht
  · intro j z hz hr
    rcases cases3 j z hz with ⟨rfl, rfl⟩ | ⟨hj, hjl, hz⟩ | ⟨i, w, rfl, h1, h2, h3⟩
    · exact hq2 hr
    · exact hq1 j (h.queued j z hz hr) hj
    · exact hq3 i (List.getElem?_eq_some_iff.1 h1).1
  · intro j z hz hr
    rcases cases3 j z hz with ⟨rfl, rfl⟩ | ⟨hj, hjl, hz⟩ | ⟨i, w, rfl, h1, h2, h3⟩
    · rw [g1 _ hlt]; exact h.busy _ e he hrun
    · rw [g1 _ hjl]; exact h.busy j z hz hr
    · rw [g2 i z w h1 h2]
      exact hbn (z, w) (List.mem_of_getElem? (List.getElem?_zip_eq_some.2 ⟨h1, h2⟩))
  · rw [g1 0 (by omega)]; exact h.root
  · intro j z t g hz hr ht hgg
    rcases cases3 j z hz with ⟨rfl, rfl⟩ | ⟨hj, hjl, hz⟩ | ⟨i, w, rfl, h1, h2, h3⟩
    · rw [cbid, g3, g1 _ hlt]; exact hg t g hr ht hgg
    · rw [cbold j hj, g1 _ hjl, ← h.alt j z t g hz hr ht hgg]
      exact List.map_congr_left fun k hk => g1 k (cblt j k hk)
    · exact absurd (hnr z (List.mem_of_getElem? h1)) hr
  · intro j z t g hz ht hgg k hk
    rcases cases3 j z hz with ⟨rfl, rfl⟩ | ⟨hj, hjl, hz⟩ | ⟨i, w, rfl, h1, h2, h3⟩
    · rw [cbid] at hk
      have := List.mem_map_of_mem (f := G') hk
      rw [g3] at this
      obtain ⟨z, k1, k2⟩ := List.mem_map.1 this
      rw [← k2, g1 _ hlt]
      exact hh t g ht hgg z k1
    · rw [cbold j hj] at hk
      rw [g1 _ hjl, g1 _ (cblt j k hk)]
      exact h.next j z t g hz ht hgg k hk
    · exfalso
      rw [cbold _ (by omega)] at hk
      obtain ⟨e', k1, k2⟩ := mem_createdBy.1 hk
      have := hpl k e' _ k1 k2
      have := cblt _ _ hk
      omega

theorem FitsAt.query {a : Placed} {p ord text} (h : FitsAt a p) : FitsAt (a.loadQuery ord text).1 p := by
  have key : (a.org.loadQueryText ord text).1.builtins = a.org.builtins ∧ (a.org.loadQueryText ord text).1.program = a.org.program := by
    unfold Org.loadQueryText
    split
    · exact ⟨loadQuery_st.2.1, loadQuery_st.2.2.1⟩
    · exact ⟨loadQuery_st.2.1, loadQuery_st.2.2.1⟩
    · exact ⟨loadQuery_st.2.1, loadQuery_st.2.2.1⟩
  unfold Placed.loadQuery
  simp only
  split
  · split <;> exact h.congr key.1 rfl key.2 rfl
  · exact h.congr key.1 rfl key.2 rfl

theorem Placed.getAnswer_org {fuel : Nat} : ∀ {clock} {a a' : Placed} {r}, a.getAnswer fuel clock = .ok (a', r) →
    a.org.getAnswer fuel clock = .ok (a'.org, r) ∧ a'.program = a.program ∧ a'.builtins = a.builtins := by
  intro clock
  induction clock with
  | nil =>
    intro a a' r h
    unfold Placed.getAnswer at h
    unfold Org.getAnswer
    split at h <;> rename_i hq <;> (simp only [pure_ok, Prod.mk.injEq] at h; obtain ⟨rfl, rfl⟩ := h; rw [hq]; exact ⟨rfl, rfl, rfl⟩)
  | cons b clock ih =>
    intro a a' r h
    unfold Placed.getAnswer at h
    unfold Org.getAnswer
    split at h
    · rename_i hq
      simp only [pure_ok, Prod.mk.injEq] at h; obtain ⟨rfl, rfl⟩ := h; rw [hq]; exact ⟨rfl, rfl, rfl⟩
    · rename_i id q hq
      rw [hq]
      cases b with
      | true => simp only [pure_ok, Prod.mk.injEq] at h ⊢; obtain ⟨rfl, rfl⟩ := h; exact ⟨⟨rfl, rfl⟩, rfl, rfl⟩
      | false =>
        simp only [bind_ok] at h
        obtain ⟨⟨a1, t⟩, h1, h⟩ := h
        obtain ⟨k1, k2, k3⟩ := Placed.turn_org h1
        simp only [k1, ok_bind]
        cases t with
        | «continue» =>
          obtain ⟨j1, j2, j3⟩ := ih h
          exact ⟨j1, j2.trans k2, j3.trans k3⟩
        | answer => simp only [pure_ok, Prod.mk.injEq] at h ⊢; obtain ⟨rfl, rfl⟩ := h; exact ⟨⟨rfl, rfl⟩, k2, k3⟩
        | error => simp only [pure_ok, Prod.mk.injEq] at h ⊢; obtain ⟨rfl, rfl⟩ := h; exact ⟨⟨rfl, rfl⟩, k2, k3⟩

theorem Placed.loadProgram_org {a : Placed} {ord text} : (a.loadProgram ord text).1.org = (a.org.loadProgramText ord text).1 ∧
    (a.loadProgram ord text).2 = (a.org.loadProgramText ord text).2 := by
  unfold Placed.loadProgram
  simp only
  split
  · split <;> exact ⟨rfl, rfl⟩
  · exact ⟨rfl, rfl⟩

theorem Placed.loadQuery_org {a : Placed} {ord text} : (a.loadQuery ord text).1.org = (a.org.loadQueryText ord text).1 ∧
    (a.loadQuery ord text).2 = (a.org.loadQueryText ord text).2 := by
  unfold Placed.loadQuery
  simp only
  split
  · split <;> exact ⟨rfl, rfl⟩
  · exact ⟨rfl, rfl⟩

theorem Reach.programText {o : Org} (h : Reach o) {ord text} : Reach (o.loadProgramText ord text).1 := by
  unfold Org.loadProgramText
  split <;> exact .program _ _ h

theorem Reach.queryText {o : Org} (h : Reach o) {ord text} : Reach (o.loadQueryText ord text).1 := by
  unfold Org.loadQueryText
  split <;> exact .query _ _ h

theorem PServes.reach {a p} (h : PServes a p) : Reach a.org := by
  induction h with
  | init h =>
    simp only [Placed.init, bind_ok, pure_ok] at h
    obtain ⟨o, h, rfl⟩ := h
    exact .init h
  | @program a a' ord p text p' _ hl _ ih =>
    have : a' = (a.loadProgram ord text).1 := by rw [hl]
    rw [this, Placed.loadProgram_org.1]; exact ih.programText
  | @rejected a a' ord p text l _ hl _ ih =>
    have : a' = (a.loadProgram ord text).1 := by rw [hl]
    rw [this, Placed.loadProgram_org.1]; exact ih.programText
  | query _ ih => rw [Placed.loadQuery_org.1]; exact ih.queryText
  | answer _ ha ih => exact .answer ih (Placed.getAnswer_org ha).1

theorem PServes.fits {a p} (h : PServes a p) : FitsAt a p := by
  induction h with
  | init h => exact FitsAt.init h
  | program _ hl hp ih => exact ih.load hl hp
  | rejected _ hl hne ih => exact ih.rejected hl hne
  | query _ ih => exact ih.query
  | answer hs ha ih =>
    obtain ⟨h1, h2, h3⟩ := Placed.getAnswer_org ha
    obtain ⟨k1, k2, _, _⟩ := getAnswer_keeps hs.reach.rinv h1
    exact ih.congr k1 h3 k2 h2

/-! ## One turn -/

theorem take_one_codes {e1 : Exec} {t ts} (h : e1.codes = t :: ts) : e1.clear.codes = [t] := by simp [Exec.clear, h]

theorem tlive_ne {o : Org} : ∀ {ts : List TCode} {is : List Info}, (∀ t ∈ ts, t.atom.goal? = some t.atom.parsed ∨ t.atom = deallocAtom) →
    ts.length = is.length → o.allDealloc ts = .ok false → tlive ts is ≠ [] := by
  intro ts
  induction ts with
  | nil => intro is _ _ h; cases h
  | cons t ts ih =>
    intro is hk hl h
    cases is with
    | nil => cases hl
    | cons i is =>
      have : tlive (t :: ts) (i :: is) = (t.atom.item i).toList ++ tlive ts is := live_cons
      rw [this]
      simp only [allDealloc, bind_ok] at h
      obtain ⟨c, hc, h⟩ := h
      rcases hk t (by simp) with h1 | h1
      · rw [item_goal h1]; simp
      · have hd : c.isDealloc = true := by
          unfold Org.code at hc
          split at hc
          · cases hc
          · cases hc; rw [h1]; rfl
        rw [hd] at h
        have := ih (is := is) (fun t ht => hk t (by simp [ht])) (by simpa using hl) (by simpa using h)
        simp [this]

theorem GInv.turn {a a' : Placed} {p qs G fuel r} (h : GInv a (clausesAt p) qs G) (hft : FitsAt a p) (hf : FInv a.org)
    (ht : a.turn fuel = .ok (a', r)) : ∃ G', GInv a' (clausesAt p) qs G' := by
  cases hq : a.org.queue with
  | nil =>
    simp only [Placed.turn, hq, pure_ok, Prod.mk.injEq] at ht
    obtain ⟨rfl, _⟩ := ht
    exact ⟨G, h⟩
  | cons id q =>
    have inv := hf.rinv.inv
    have hto := (Placed.turn_org ht).1
    obtain ⟨e, he, hrun, _⟩ := inv.qrun id (by simp [hq])
    have hnd := inv.qnd
    rw [hq] at hnd
    have hlt : id < a.org.execs.length := (List.getElem?_eq_some_iff.1 he).1
    have hnc : createdBy a.org.execs id = [] := by
      rw [List.eq_nil_iff_forall_not_mem]
      intro k hk
      obtain ⟨y, y1, y2⟩ := mem_createdBy.1 hk
      exact inv.no_child (by simp [hq]) y1 y2
    have hpar := h.par id e he
    have hcode := h.code id e he
    rw [if_pos hrun] at hcode
    have hfr := h.fresh id e he
    have hq1 : ∀ (q' : List Nat), (∀ j ∈ q, j ∈ q') → ∀ j ∈ a.org.queue, j ≠ id → j ∈ q' := by
      intro q' hs j hj hne
      rw [hq] at hj
      rcases List.mem_cons.1 hj with rfl | hj
      · exact absurd rfl hne
      · exact hs j hj
    cases hc : e.codes with
    | nil => simp [Org.turn, hq, turnOf, Org.exec, he, hc] at hto
    | cons t ts =>
      rw [hc] at hpar hcode hfr
      cases hi : a.own id with
      | nil => rw [hi] at hpar; cases hpar
      | cons i is =>
        rw [hi] at hpar hcode
        have hpl : a.places[id]? = some (i :: is) := by
          have : id < a.places.length := by rw [h.len]; exact hlt
          rw [List.getElem?_eq_getElem this]
          rw [Placed.own, List.getElem?_eq_getElem this] at hi
          rw [← hi]; rfl
        have hpar' : ts.length = is.length := by simpa using hpar
        have hcode' : G id = (t.atom.item i).toList ++ tlive ts is := by rw [← hcode]; exact live_cons
        have hfts : ∀ t ∈ ts, a.org.stale t = false := fun t' ht' => hfr t' (by simp [ht'])
        have hft1 : ∀ t' ∈ [t], a.org.stale t' = false := fun t' ht' => hfr t' (by rw [List.mem_singleton.1 ht']; simp)
        have one : ∀ {s : EState}, s ≠ .running → ∀ {it}, t.atom.item i = some it → tlive [t] [i] = if s = .running then G id else (G id).take 1 := by
          intro s hs it hit
          rw [if_neg hs, hcode', hit]
          show live [t.atom] [i] = _
          rw [live_cons, hit]; rfl
        rcases hf.front hq he hc with ⟨ds, h1, h2, _, h4⟩ | hg | ⟨h1, env, es', h2, h3⟩
        · have hhd := (head?_of_proceed h1).1
          have hng := (head?_of_proceed h1).2
          have hit := item_head (i := i) hhd
          obtain ⟨e1, hr, hst, hx⟩ := turn_proceed inv hq he hc h1 h2 hto
          have hfrm := runData_frame hr
          have hcod : e1.codes = t :: ts := hfrm.codes.trans hc
          have hpp : e1.parent = e.parent := hfrm.parent
          have htp := Placed.turn_places hq he hrun hc hpl h1 h2 ht
          simp only at htp
          have stay : ∀ (x : Exec), x.codes = [t] → x.state ≠ .running → x.parent = e.parent →
              a'.org = { a.org with queue := q, execs := a.org.execs.set id x } → ∃ G', GInv a' (clausesAt p) qs G' := by
            intro x k1 k2 k3 k4
            have hlen : a'.org.execs.length = a.org.execs.length := by rw [k4]; simp
            have hpl' : a'.places = a.places.set id [i] ++ [] := by
              rw [List.append_nil]
              rcases htp with ⟨_, hp, _⟩ | ⟨_, hp⟩ | ⟨hl, _⟩
              · exact hp
              · exact hp
              · omega
            refine h.step (x := x) (news := []) (ys := []) inv.parLt he hrun hnc (by rw [k4]; simp) hpl' (by rw [k4]) k3 (by simp) (by simp) .nil (by simp [k1])
              (by rw [k1]; exact one k2 hit) (by rw [k1]; exact hft1) (by simp) (hq1 _ (by rw [k4]; exact fun j hj => hj)) (fun hr => absurd hr k2) (by simp)
              (by simp) ?_ (by simp)
            intro t' g _ htop hgg
            simp only [Exec.top, k1, List.head?_cons, Option.map_some, Option.some.injEq] at htop
            subst htop
            rw [hng] at hgg; cases hgg
          rcases hx with ⟨s1, _, ho⟩ | ⟨err, s1, _, _, ho⟩ | ⟨s1, _, _, ho⟩ | ⟨s1, hd, _, ho⟩
          · exact stay _ (take_one_codes hcod) (by simp [Exec.clear, s1]) (by simpa [Exec.clear] using hpp) ho
          · exact stay _ (take_one_codes hcod) (by simp [Exec.clear, s1]) (by simpa [Exec.clear] using hpp) ho
          · exact stay _ (by simpa using take_one_codes hcod) (by simp) (by simpa [Exec.clear] using hpp) ho
          · have hlen : a'.org.execs.length = a.org.execs.length + 1 := by rw [ho]; simp
            have hpl' : a'.places = a.places.set id [i] ++ [is] := by
              rcases htp with ⟨hl, _⟩ | ⟨hl, _⟩ | ⟨_, hp⟩
              · omega
              · omega
              · exact hp
            have htl : (G id).tail = tlive ts is := by rw [hcode', hit]; rfl
            refine h.step (news := [proceedChild id e1]) inv.parLt he hrun hnc (by rw [ho]) hpl' (by rw [ho]) ?_ ?_ ?_ (.cons ?_ .nil) ?_ ?_ ?_ ?_
              (hq1 _ (by rw [ho]; exact fun j hj => List.mem_append_left _ hj)) ?_ ?_ ?_ ?_ ?_
            · exact hpp
            · simp [proceedChild]
            · simp [proceedChild]
            · simp [proceedChild, hcod, hpar']
            · simp [hcod]
            · simp only [hcod, List.take_succ_cons, List.take_zero]; exact one (by simp) hit
            · simp only [hcod, List.take_succ_cons, List.take_zero]; exact hft1
            · simpa [proceedChild, hcod] using hfts
            · simp
            · intro i hi
              have : i = 0 := by simpa using hi
              subst this
              rw [ho]; simp
            · intro z hz
              have : z = (proceedChild id e1, is) := by simpa using hz
              subst this
              simp only [proceedChild, hcod, List.drop_succ_cons, List.drop_zero]
              exact tlive_ne (h4 _ _ _ (e.start t.atom) _ rfl hrun hr).kinds hpar' hd
            · intro t' g _ htop hgg
              simp [Exec.top, hcod] at htop
              subst htop
              rw [hng] at hgg; cases hgg
            · intro t' g _ _ z hz
              have : z = (proceedChild id e1, is) := by simpa using hz
              subst this
              simp [htl, proceedChild, hcod]
        · have hgo := hg.goal?.1
          have hit := item_goal (i := i) hgo
          have hnh := hg.goal?.2
          obtain ⟨ds, h1, h2, _, h3⟩ := hg
          obtain ⟨e1, hr, _, hst, hx⟩ := turn_call inv hq he hc h1 h2 (fun e1 hr => (h3 _ _ _ (e.start t.atom) _ rfl hrun hr).1) hto
          have hfrm := runData_frame hr
          have hcod : e1.codes = t :: ts := hfrm.codes.trans hc
          have hpp : e1.parent = e.parent := hfrm.parent
          have htp := Placed.turn_places hq he hrun hc hpl h1 h2 ht
          simp only at htp
          obtain ⟨L, l1, l2, l3, l4⟩ := hft.rules t.atom.parsed.fv
          have htl : (G id).tail = tlive ts is := by rw [hcode', hit]; rfl
          rcases hx with ⟨hn, ho⟩ | ⟨rules, hrl, ho⟩
          · have hpl' : a'.places = a.places.set id [i] ++ [] := by
              rw [List.append_nil]
              rcases htp with ⟨_, hp, _⟩ | ⟨rs, hrs, _⟩
              · exact hp
              · rw [hn] at hrs; cases hrs
            have hL : L = [] := by
              rw [hn] at l2
              simpa using l2
            refine h.step (news := []) (ys := []) inv.parLt he hrun hnc (by rw [ho]; simp; rfl) hpl' (by rw [ho]) ?_ (by simp) (by simp) .nil ?_ ?_ ?_ (by simp)
              (hq1 _ (by rw [ho]; exact fun j hj => hj)) ?_ (by simp) (by simp) ?_ (by simp)
            · exact hpp
            · simp [Exec.clear, Exec.setFailed, hcod]
            · simp only [Exec.clear, Exec.setFailed, hcod, List.take_succ_cons, List.take_zero]; exact one (by simp) hit
            · simp only [Exec.clear, Exec.setFailed, hcod, List.take_succ_cons, List.take_zero]; exact hft1
            · simp [Exec.clear, Exec.setFailed]
            · intro t' g _ htop hgg
              simp [Exec.top, Exec.clear, Exec.setFailed, hcod] at htop
              subst htop
              rw [hgo] at hgg; cases hgg
              rw [← l1, hL]; rfl
          · have hrules : rules = L.map (·.2.1) := by rw [← l2, hrl]; rfl
            have hpl' : a'.places = a.places.set id [i] ++ L.map (fun x => x.2.2 ++ is) := by
              rcases htp with ⟨hl, hp, e', hh1, hh2⟩ | ⟨rs, hrs, _, hp⟩
              · exfalso
                rw [ho] at hh1
                simp only [List.getElem?_append_left (show id < (a.org.execs.set id _).length by simpa using hlt), List.getElem?_set_self hlt,
                  Option.some.injEq] at hh1
                rw [← hh1] at hh2
                simp [Exec.failed] at hh2
              · rw [hp, l3, List.map_map]; rfl
            refine h.step (news := rules.map (a.org.callChild id e1)) inv.parLt he hrun hnc (by rw [ho]) hpl' (by rw [ho]) ?_ ?_ ?_ ?_ ?_ ?_ ?_ ?_
              (hq1 _ (by rw [ho]; exact fun j hj => List.mem_append_left _ hj)) ?_ ?_ ?_ ?_ ?_
            · exact hpp
            · simp [callChild]
            · simp [callChild]
            · rw [hrules, List.map_map]
              clear l1 l2 l3 hrules hpl' htp
              induction L with
              | nil => exact .nil
              | cons x L ih =>
                refine .cons ?_ (ih fun x hx => l4 x (by simp [hx]))
                have := (l4 x (by simp)).1
                simp [callChild, hcod, hpar', this]
            · simp [Exec.clear, hcod]
            · simp only [Exec.clear, hcod, List.take_succ_cons, List.take_zero]; exact one (by simp) hit
            · simp only [Exec.clear, hcod, List.take_succ_cons, List.take_zero]; exact hft1
            · intro n hn t' ht'
              obtain ⟨r, _, rfl⟩ := List.mem_map.1 hn
              simp only [callChild, hcod, List.drop_succ_cons, List.drop_zero, List.mem_append, List.mem_map] at ht'
              rcases ht' with ⟨x, _, rfl⟩ | ht'
              · simp [Org.stale]
              · exact hfts t' ht'
            · simp
            · intro i hi
              rw [ho]
              simp only [List.mem_append, List.mem_range'_1]
              right
              simp only [List.length_map] at hi
              omega
            · rw [hrules]
              clear l1 l2 l3 hrules hpl' htp
              induction L with
              | nil => simp
              | cons x L ih =>
                simp only [List.map_cons, List.zip_cons_cons, List.mem_cons]
                rintro z (rfl | hz)
                · obtain ⟨m1, m2⟩ := l4 x (by simp)
                  simp only [callChild, hcod, List.drop_succ_cons, List.drop_zero, tlive, List.map_append, List.map_map]
                  have : (List.map ((fun x => x.atom) ∘ fun x => ({ gen := a.org.gen, atom := x } : TCode)) x.2.1) = x.2.1 := by
                    simp [Function.comp_def]
                  rw [this, live_append m1, m2]
                  simp [Where.stack]
                · exact ih (fun x hx => l4 x (by simp [hx])) z hz
            · intro t' g _ htop hgg
              simp [Exec.top, Exec.clear, hcod] at htop
              subst htop
              rw [hgo] at hgg; cases hgg
              rw [← l1, hrules, htl]
              clear l1 l2 l3 hrules hpl' htp
              induction L with
              | nil => rfl
              | cons x L ih =>
                simp only [List.map_cons, List.zip_cons_cons]
                rw [ih fun x hx => l4 x (by simp [hx])]
                obtain ⟨m1, m2⟩ := l4 x (by simp)
                congr 1
                simp only [callChild, hcod, List.drop_succ_cons, List.drop_zero, tlive, List.map_append, List.map_map]
                have : (List.map ((fun x => x.atom) ∘ fun x => ({ gen := a.org.gen, atom := x } : TCode)) x.2.1) = x.2.1 := by
                  simp [Function.comp_def]
                rw [this, live_append m1, m2]
            · intro t' g htop hgg
              simp [Exec.top, Exec.clear, hcod] at htop
              subst htop
              rw [hnh] at hgg; cases hgg
        · obtain ⟨env', es2, k1, _, _, ho⟩ := turn_dealloc inv hq he hc (by rw [h1]; rfl) hto
          have htp := Placed.turn_places (ds := []) (c := .deallocate) hq he hrun hc hpl (by rw [h1]; rfl) (by simp) ht
          simp only at htp
          have hpl' : a'.places = a.places.set id is ++ [] := by
            rw [List.append_nil]
            rcases htp with ⟨_, _, e', hh1, hh2⟩ | hp
            · exfalso
              rw [ho] at hh1
              simp only [List.getElem?_set_self hlt, Option.some.injEq] at hh1
              rw [← hh1] at hh2
              simp [Exec.failed, Exec.start, hrun] at hh2
            · exact hp
          have hG : G id = tlive ts is := by rw [hcode', h1, item_dealloc]; rfl
          refine h.step (news := []) (ys := []) inv.parLt he hrun hnc (by rw [ho]; simp; rfl) hpl' (by rw [ho]) ?_ (by simp) (by simp) .nil ?_ ?_ ?_ (by simp)
            (hq1 _ (by rw [ho]; exact fun j hj => List.mem_append_left _ hj)) ?_ (by simp) (by simp) ?_ (by simp)
          · rfl
          · exact hpar'
          · simp [Exec.start, hrun, hG]
          · exact hfts
          · intro _; rw [ho]; simp
          · intro t' g hs
            simp [Exec.start, hrun] at hs

end PBfs
