import Verif.Proof.Located
import Verif.Proof.Typed
/-! # C62: source positions -/
namespace PBfs

/-! ## Positions of clauses, heads and goals -/

/-- **C62.** Every clause, head and goal of a program is described by the rows in which it stands and by its text, without the white space
around it; the text is a text of just this head or goal.  Without the positions the result is that of C40. -/
theorem C62_positions {text : List Char} {p : List ClauseAt} (h : parseProgramAt text = .ok p) :
    ProgLaid [] p text ∧ ProgText (p.map ClauseAt.clause) text := by
  refine ⟨parseProgramAt_laid h, parseProgram_sound ?_⟩
  rw [← parseProgramAt_erase, h]; rfl

/-- **C62.** Positions are found for every program that can be read. -/
theorem C62_read {text : List Char} {cs : List Clause} (h : ProgText cs text) :
    ∃ p, parseProgramAt text = .ok p ∧ p.map ClauseAt.clause = cs := by
  have h1 := parseProgram_complete h
  rw [← parseProgramAt_erase] at h1
  cases hp : parseProgramAt text with
  | ok p => rw [hp] at h1; cases h1; exact ⟨p, rfl, rfl⟩
  | error => rw [hp] at h1; cases h1
  | blank => rw [hp] at h1; cases h1

/-- **C62, queries.** -/
theorem C62_query_positions {text : List Char} {q : List (Node × Info)} (h : parseQueryAt text = .ok q) :
    (∃ w t w' w'', text = w ++ t ++ w' ++ ['.'] ++ w'' ∧ Blank w ∧ Blank w' ∧ Blank w'' ∧ GoalsLaid w q t) ∧ QueryText (q.map (·.1)) text := by
  refine ⟨parseQueryAt_laid h, parseQuery_sound ?_⟩
  rw [← parseQueryAt_erase, h]; rfl

/-- The goals of a text begin and end in rows of the text, and in the order in which they stand. -/
theorem GoalsLaid.rows {pre as t} (h : GoalsLaid pre as t) :
    (∀ a ∈ as, lastRow pre ≤ a.2.lineBegin ∧ a.2.lineBegin ≤ a.2.lineEnd ∧ a.2.lineEnd ≤ lastRow (pre ++ t)) ∧
    as.Pairwise fun a b => a.2.lineEnd ≤ b.2.lineBegin := by
  induction h with
  | @one pre a i v _ hd =>
    obtain ⟨_, h1, h2, _⟩ := hd
    refine ⟨?_, by simp⟩
    simp only [List.mem_singleton]
    rintro _ rfl
    simp only [h1, h2, lastRow_eq, List.count_append]
    omega
  | @more pre a i v w w' as t _ hd _ _ _ ih =>
    obtain ⟨_, h1, h2, _⟩ := hd
    simp only [lastRow_eq, List.count_append] at ih h1 h2 ⊢
    refine ⟨?_, List.pairwise_cons.2 ⟨fun b hb => ?_, ih.2⟩⟩
    · intro b hb
      rcases List.mem_cons.1 hb with rfl | hb
      · simp only [h1, h2]; omega
      · have := ih.1 b hb
        omega
    · have := ih.1 b hb
      simp only [h2]; omega

/-- **C62.** The text of a goal, typed in as a query, is read as this goal again. -/
theorem C62_value {a : Node} {v : List Char} (h : GoalText a v) : parseQuery (v ++ n!".") = .ok [a] := by
  obtain ⟨ts, h1, h2⟩ := h
  exact parseQuery_complete ⟨ts, .one h1, h2.dot (w := []) (by simp [Blank])⟩

/-! ## Compiled atoms -/

theorem compileQueryAtomsAt_parsed {yOf fq} : ∀ {as : List (Node × Info)} {pre g r}, compileQueryAtomsAt yOf pre fq as g = .ok r →
    r.1.map (fun x => (x.1.parsed, x.2)) = as := by
  intro as
  induction as with
  | nil => intro pre g r h; cases h; rfl
  | cons a as ih =>
    intro pre g r h
    simp only [compileQueryAtomsAt, bind_ok, pure_ok, at?_ok] at h
    obtain ⟨⟨c, g1⟩, h1, ⟨cs, g2⟩, h2, rfl⟩ := h
    simp only [compileQueryAtom, bind_ok, pure_ok] at h1
    obtain ⟨⟨is, g3⟩, _, h1⟩ := h1
    cases h1
    simp only [List.map_cons, ih h2]

theorem compileClauseAt_parsed {ord : HashOrder} {c : ClauseAt} {st r} (h : compileClauseAt ord c st = .ok r) :
    ∃ k, r.2.1.map (fun x => (x.1.parsed, x.2)) = c.head :: c.body ++ (deallocAtoms k).map (·.parsed, noInfo) := by
  obtain ⟨info, ⟨head, hi⟩, body⟩ := c
  unfold compileClauseAt at h
  by_cases hr : redefines head = true
  · simp only [hr, if_true] at h; cases h
  · simp only [hr, Bool.false_eq_true, if_false] at h
    refine ⟨(permVars ord true (head :: body.map (·.1))).length, ?_⟩
    cases body with
    | nil =>
      simp only [List.map_nil, bind_ok, pure_ok] at h
      obtain ⟨_, _, rfl⟩ := h
      simp [Function.comp_def]
    | cons b bs =>
      simp only [List.map_cons, bind_ok, pure_ok] at h
      obtain ⟨_, _, _, _, ⟨cs, g⟩, h3, rfl⟩ := h
      have := compileQueryAtomsAt_parsed h3
      simp only [] at this
      simp [Function.comp_def, this]

/-- **C62.** The compiled atoms of a clause carry the positions of its head and of its goals, the rules those of the clauses. -/
theorem C62_compiled {ord : HashOrder} : ∀ {p : List ClauseAt} {st rs}, compileProgramAt ord p st = .ok rs →
    List.Forall₂ (fun c r => r.1 = c.clause.head.fv ∧ r.2.1 = c.info ∧
      ∃ k, r.2.2.map (fun x => (x.1.parsed, x.2)) = c.head :: c.body ++ (deallocAtoms k).map (·.parsed, noInfo)) p rs.1 := by
  intro p
  induction p with
  | nil => intro st rs h; cases h; exact .nil
  | cons c p ih =>
    intro st rs h
    simp only [compileProgramAt, bind_ok, pure_ok] at h
    obtain ⟨⟨f, r, st1⟩, h1, ⟨rs', st2⟩, h2, rfl⟩ := h
    refine .cons ⟨?_, rfl, compileClauseAt_parsed h1⟩ (ih h2)
    unfold compileClauseAt at h1
    by_cases hr : redefines c.head.1 = true
    · simp only [hr, if_true] at h1; cases h1
    · simp only [hr, Bool.false_eq_true, if_false] at h1
      split at h1
      · simp only [bind_ok, pure_ok] at h1
        obtain ⟨_, _, h1⟩ := h1
        cases h1; rfl
      · simp only [bind_ok, pure_ok] at h1
        obtain ⟨_, _, _, _, _, _, h1⟩ := h1
        cases h1; rfl

/-! ## Rows of errors -/

/-- The first goal that has a variable without value. -/
def undefinedGoal : List Name → List (Node × Info) → Option Info
  | _, [] => none
  | known, (a, i) :: as => if Node.buildable known a.builds then undefinedGoal (Node.varss a.children ++ known) as else some i

/-- The first mistake in a program and the row in which it stands. -/
def faultAt (p : List ClauseAt) : Option (CErr × Nat) :=
  p.findSome? fun c =>
    if c.clause.reserved then some (.redefinition, c.head.2.lineBegin)
    else (undefinedGoal (Node.varss c.head.1.children) c.body).map fun i => (.undefinedVar, i.lineBegin)

theorem undefinedGoal_none : ∀ {as : List (Node × Info)} {K}, undefinedGoal K as = none ↔ Node.defined K (as.map (·.1)) = true := by
  intro as
  induction as with
  | nil => intro K; simp [undefinedGoal, Node.defined]
  | cons a as ih =>
    intro K
    obtain ⟨a, i⟩ := a
    simp only [undefinedGoal, List.map_cons, Node.defined, Bool.and_eq_true]
    split
    · rename_i hb; simp [hb, ih]
    · rename_i hb; simp [hb]

theorem undefinedGoal_split : ∀ {gs : List (Node × Info)} {a i gs' K}, Node.defined K (gs.map (·.1)) = true →
    Node.buildable (Node.known K (gs.map (·.1))) a.builds = false → undefinedGoal K (gs ++ (a, i) :: gs') = some i := by
  intro gs
  induction gs with
  | nil =>
    intro a i gs' K _ hb
    simp only [List.map_nil, Node.known] at hb
    simp [undefinedGoal, hb]
  | cons b gs ih =>
    intro a i gs' K hd hb
    obtain ⟨b, j⟩ := b
    simp only [List.map_cons, Node.defined, Bool.and_eq_true] at hd
    simp only [List.map_cons, Node.known] at hb
    simp only [List.cons_append, undefinedGoal, hd.1, if_true]
    exact ih hd.2 hb

theorem unlocated_error {m : CRAt α} {e st} (h : unlocated m = .error (e, st)) : ∃ i, m = .error (e, i, st) := by
  cases m with
  | ok => cases h
  | error x => obtain ⟨e, i, st⟩ := x; cases h; exact ⟨i, rfl⟩

theorem unlocated_ok {m : CRAt α} {a} (h : unlocated m = .ok a) : m = .ok a := by
  cases m with
  | ok => cases h; rfl
  | error x => obtain ⟨e, i, st⟩ := x; cases h

def loadOf : CR α → Org.Load
  | .ok _ => .ok
  | .error (e, _) => Org.Load.ofErr e

theorem report_load {m : CRAt α} {f : α → β} {x : CR β} (h : (unlocated m >>= fun a => pure (f a)) = x) :
    (Report.of m).load = loadOf x := by
  subst h
  cases m with
  | ok a => rfl
  | error e => obtain ⟨e, i, st⟩ := e; cases e <;> rfl

/-- **C62.** Apart from the row, what is reported is what C38 and C61 are about. -/
theorem C62_same (o : Org) (ord : HashOrder) (text : List Char) :
    (o.programReport ord text).load = (o.loadProgramText ord text).2 ∧ (o.queryReport ord text).load = (o.loadQueryText ord text).2 := by
  constructor
  · unfold Org.programReport Org.loadProgramText
    rw [← parseProgramAt_erase]
    cases hp : parseProgramAt text with
    | ok p =>
      simp only [Parsed.map]
      rw [report_load (compileProgramAt_unlocated ord p [] o.st)]
      unfold Org.loadProgram
      simp only []
      cases compileProgram ord (p.map (·.clause)) [] o.st with
      | ok r => rfl
      | error e => rfl
    | error pos => rfl
    | blank =>
      unfold parseProgramAt at hp
      split at hp
      · split at hp <;> cases hp
      all_goals cases hp
  · unfold Org.queryReport Org.loadQueryText
    rw [← parseQueryAt_erase]
    cases hp : parseQueryAt (appendDot text) with
    | ok p =>
      simp only [Parsed.map]
      rw [report_load (compileQueryAt_unlocated ord p o.st)]
      unfold Org.loadQuery
      simp only []
      cases compileQuery ord (p.map (·.1)) o.st with
      | ok r => rfl
      | error e => rfl
    | error pos => rfl
    | blank => rfl

theorem report_error {m : CRAt α} {e row} (h : Report.of m = .error e row) : e ≠ .outOfRange ∧ ∃ i st, m = .error (e, i, st) ∧ row = i.lineBegin := by
  cases m with
  | ok => cases h
  | error x =>
    obtain ⟨e', i, st⟩ := x
    cases e' with
    | outOfRange => cases h
    | _ => cases h; exact ⟨by simp, i, st, rfl, rfl⟩

/-- An error in a program: all clauses before the bad one are accepted. -/
theorem compileProgramAt_fault {ord : HashOrder} : ∀ {p : List ClauseAt} {st e i st'},
    compileProgramAt ord p st = .error (e, i, st') → e ≠ .outOfRange →
    ∃ pre c post st1, p = pre ++ c :: post ∧ compileClauseAt ord c st1 = .error (e, i, st') ∧
      ∀ d ∈ pre, ∃ st2 r, compileClauseAt ord d st2 = .ok r := by
  intro p
  induction p with
  | nil => intro st e i st' h; cases h
  | cons c p ih =>
    intro st e i st' h he
    simp only [compileProgramAt, bind_err] at h
    rcases h with h | ⟨⟨f, r, st1⟩, h1, h | ⟨_, _, h⟩⟩
    · exact ⟨[], c, p, st, rfl, h, by simp⟩
    · obtain ⟨pre, d, post, st2, rfl, h2, h3⟩ := ih h he
      refine ⟨c :: pre, d, post, st2, rfl, h2, fun x hx => ?_⟩
      rcases List.mem_cons.1 hx with rfl | hx
      · exact ⟨st, _, h1⟩
      · exact h3 x hx
    · cases h

theorem compileClauseAt_ok {ord : HashOrder} {c : ClauseAt} {st r} (h : compileClauseAt ord c st = .ok r) :
    c.clause.reserved = false ∧ ∃ r', compileClause ord false c.clause.head c.clause.body st = .ok r' := by
  have h1 := compileClauseAt_unlocated ord c st
  rw [h] at h1
  refine ⟨?_, _, h1.symm⟩
  rw [← Bool.not_eq_true, ← reserved_eq]
  intro hr
  rw [compileClause_redefinition hr] at h1
  cases h1

/-- **C62, the row of an error.** "Compiler error in program line …": in this row begins the head of a clause for `append/3` or `is/2`,
or a goal with an arithmetic expression in which a variable has no value. -/
theorem C62_row {o : Org} {ord : HashOrder} (ho : ord.OK) {text : List Char} {e row} (h : o.programReport ord text = .error e row) (hp : e ≠ .parse) :
    ∃ p pre c post, parseProgramAt text = .ok p ∧ p = pre ++ c :: post ∧ (∀ d ∈ pre, d.clause.reserved = false) ∧
      ((e = .redefinition ∧ row = c.head.2.lineBegin ∧ c.clause.reserved = true) ∨
       (e = .undefinedVar ∧ c.clause.reserved = false ∧ ∃ gs a i gs', c.body = gs ++ (a, i) :: gs' ∧ row = i.lineBegin ∧
         Node.buildable (Node.known (Node.varss c.head.1.children) (gs.map (·.1))) a.builds = false)) := by
  unfold Org.programReport at h
  cases hq : parseProgramAt text with
  | ok p =>
    simp only [hq] at h
    obtain ⟨he, i, st, h1, rfl⟩ := report_error h
    obtain ⟨pre, c, post, st1, rfl, h2, h3⟩ := compileProgramAt_fault h1 he
    refine ⟨_, pre, c, post, rfl, rfl, fun d hd => ?_, ?_⟩
    · obtain ⟨_, _, h4⟩ := h3 d hd
      exact (compileClauseAt_ok h4).1
    · rcases compileClauseAt_fault ho h2 he with ⟨rfl, rfl, hr⟩ | ⟨rfl, hr, gs, a, gs', hb, hn, _⟩
      · exact .inl ⟨rfl, rfl, by rw [← reserved_eq]; exact hr⟩
      · exact .inr ⟨rfl, by rw [← reserved_eq]; exact hr, gs, a, i, gs', hb, rfl, hn⟩
  | error pos => simp only [hq] at h; cases h; exact absurd rfl hp
  | blank => simp only [hq] at h; cases h

/-- **C62, the first mistake.** If no clause shares registers (see C61), it is the first mistake that is reported. -/
theorem C62_first {o : Org} {ord : HashOrder} (ho : ord.OK) {text : List Char} {p : List ClauseAt} (hp : parseProgramAt text = .ok p)
    (hr : ∀ c ∈ p, ∀ a ∈ c.clause.head :: c.clause.body, Node.readable a = true) (hu : ∀ c ∈ p, c.clause.apart = true) :
    o.programReport ord text = match faultAt p with
      | none => .empty
      | some (e, row) => .error e row := by
  unfold Org.programReport
  simp only [hp]
  have good : ∀ {pre : List ClauseAt} {l}, (∀ d ∈ pre, d ∈ p) → (∀ d ∈ pre, ∃ st2 r, compileClauseAt ord d st2 = .ok r) → faultAt (pre ++ l) = faultAt l := by
    intro pre
    induction pre with
    | nil => intro l _ _; rfl
    | cons d pre ih =>
      intro l hm hk
      have ih := ih (l := l) (fun d hd => hm d (by simp [hd])) fun d hd => hk d (by simp [hd])
      obtain ⟨st2, r, hd⟩ := hk d (by simp)
      obtain ⟨h1, r', h2⟩ := compileClauseAt_ok hd
      have h3 := compileClause_exact ho (hu d (hm d (by simp))) h2
      have h4 : undefinedGoal (Node.varss d.head.1.children) d.body = none := undefinedGoal_none.2 h3
      unfold faultAt at ih ⊢
      simp only [List.cons_append, List.findSome?_cons, h1, Bool.false_eq_true, if_false, h4, Option.map_none]
      exact ih
  have nesc : ∀ {q : List ClauseAt} {st i st'}, (∀ d ∈ q, d ∈ p) → compileProgramAt ord q st ≠ .error (.outOfRange, i, st') := by
    intro q
    induction q with
    | nil => intro st i st' _ h; cases h
    | cons d q ih =>
      intro st i st' hm h
      simp only [compileProgramAt, bind_err] at h
      rcases h with h | ⟨⟨f, r, st1⟩, h1, h | ⟨_, _, h⟩⟩
      · have h1 := compileClauseAt_unlocated ord d st
        rw [h] at h1
        exact compileClause_noEsc (hr d (hm d (by simp))) st' h1.symm
      · exact ih (fun d hd => hm d (by simp [hd])) h
      · cases h
  have key : ∀ {q : List ClauseAt} {st rs}, compileProgramAt ord q st = .ok rs → ∀ d ∈ q, ∃ st2 r, compileClauseAt ord d st2 = .ok r := by
    intro q
    induction q with
    | nil => intro st rs _ d hd; simp at hd
    | cons d q ih =>
      intro st rs h x hx
      simp only [compileProgramAt, bind_ok] at h
      obtain ⟨⟨f, r, st1⟩, h1, ⟨rs', st2⟩, h2, _⟩ := h
      rcases List.mem_cons.1 hx with rfl | hx
      · exact ⟨st, _, h1⟩
      · exact ih h2 x hx
  cases hc : compileProgramAt ord p o.st with
  | ok rs =>
    have := good (l := []) (fun d hd => hd) (key hc)
    rw [List.append_nil] at this
    rw [this]; rfl
  | error x =>
    obtain ⟨e, i, st'⟩ := x
    have he : e ≠ .outOfRange := by
      rintro rfl
      exact nesc (fun d hd => hd) hc
    obtain ⟨pre, c, post, st1, hsplit, h2, h3⟩ := compileProgramAt_fault hc he
    have hm : ∀ d ∈ pre, d ∈ p := fun d hd => by rw [hsplit]; simp [hd]
    have hg := good (l := c :: post) hm h3
    rw [← hsplit] at hg
    rw [hg]
    unfold faultAt
    rcases compileClauseAt_fault ho h2 he with ⟨rfl, rfl, hr'⟩ | ⟨rfl, hr', gs, a, gs', hb, hn, hd⟩
    · have : c.clause.reserved = true := by rw [← reserved_eq]; exact hr'
      simp only [List.findSome?_cons, this, if_true]; rfl
    · have h5 : c.clause.reserved = false := by rw [← reserved_eq]; exact hr'
      have h6 : undefinedGoal (Node.varss c.head.1.children) c.body = some i := by
        rw [hb]
        exact undefinedGoal_split (hd (hu c (by rw [hsplit]; simp))) hn
      simp only [List.findSome?_cons, h5, Bool.false_eq_true, if_false, h6, Option.map_some]; rfl

/-- **C62, queries.** "Compiler error in query line …" names the row in which the first goal begins that has a variable without value. -/
theorem C62_query {o : Org} {ord : HashOrder} (ho : ord.OK) {text : List Char} {q : List (Node × Info)} (hp : parseQueryAt (appendDot text) = .ok q)
    (hr : ∀ a ∈ q, Node.readable a.1 = true) :
    o.queryReport ord text = match undefinedGoal [] q with
      | none => .empty
      | some i => .error .undefinedVar i.lineBegin := by
  unfold Org.queryReport
  simp only [hp]
  have hr' : ∀ a ∈ q.map (·.1), Node.readable a = true := by
    intro a ha
    obtain ⟨b, hb, rfl⟩ := List.mem_map.1 ha
    exact hr b hb
  have h1 := compileQueryAt_unlocated ord q o.st
  cases hc : compileQueryAt ord q o.st with
  | ok rs =>
    rw [hc] at h1
    rw [undefinedGoal_none.2 (compileQuery_exact ho h1.symm)]; rfl
  | error x =>
    obtain ⟨e, i, st'⟩ := x
    rw [hc] at h1
    have he : e ≠ .outOfRange := by
      rintro rfl
      exact compileQuery_noEsc hr' st' h1.symm
    have hu : e = .undefinedVar := by
      have : OnlyUndefined (compileQuery ord (q.map (·.1)) o.st) := compileQueryAtoms_onlyUndefined.bind fun _ => (Only.pure _).undefined
      rcases this e st' h1.symm with h | h
      · exact absurd h he
      · exact h
    obtain ⟨gs, a, gs', rfl, h2, h3⟩ := compileQueryAt_fault ho hc he
    rw [undefinedGoal_split h3 h2, hu]; rfl

deriving instance DecidableEq for ClauseAt

/-- C62, a program with clauses over several rows and comments. -/
theorem C62_witness :
    parseProgramAt n!"% facts\np( a ).  % yes\nq(X) :-\n   p(X),\n Y is X\n  + 1 ." =
      .ok [⟨⟨2, 2, n!"p( a )."⟩, (.fn n!"p" [.cons n!"a"], ⟨2, 2, n!"p( a )"⟩), []⟩,
        ⟨⟨3, 6, n!"q(X) :-\n   p(X),\n Y is X\n  + 1 ."⟩, (.fn n!"q" [.var n!"X"], ⟨3, 3, n!"q(X)"⟩),
          [(.fn n!"p" [.var n!"X"], ⟨4, 4, n!"p(X)"⟩),
           (.fn n!"is" [.var n!"Y", .efn n!"+" [.var n!"X", .int 1]], ⟨5, 6, n!"Y is X\n  + 1"⟩)]⟩] := by
  decide +kernel

/-- C62, rows of errors: the goal in the third row of a program, a head in the second, the second row of a query. -/
theorem C62_samples :
    Org.init0.programReport id n!"p(a).\nq :- p(X),\n Z is Y + X,\n r(Y)." = .error .undefinedVar 3 ∧
    Org.init0.programReport id n!"p(a).\nappend(X,Y,Z) :- p(X).\nq :- X is Y + 1." = .error .redefinition 2 ∧
    Org.init0.programReport id n!"p(a).\nq(\n" = .error .parse 2 ∧
    Org.init0.queryReport id n!"p(X),\n Y is Z * 2" = .error .undefinedVar 2 := by
  decide +kernel

end PBfs
