import Verif.Proof.Defined
import Verif.Model.Parser
/-! # C61: which programs and queries are accepted -/
namespace PBfs

/-! ## Consequences of the specification -/

theorem Node.mem_exprVarss {cs : List Node} {v} : v ∈ Node.exprVarss cs ↔ ∃ c ∈ cs, v ∈ c.exprVars := by
  induction cs with
  | nil => simp [Node.exprVarss]
  | cons c cs ih => simp [Node.exprVarss, ih]

theorem Node.mem_plainVarss {cs : List Node} {v} : v ∈ Node.plainVarss cs ↔ ∃ c ∈ cs, v ∈ c.plainVars := by
  induction cs with
  | nil => simp [Node.plainVarss]
  | cons c cs ih => simp [Node.plainVarss, ih]

theorem Node.mem_operandVarss {cs : List Node} {v} : v ∈ Node.operandVarss cs ↔ ∃ c ∈ cs, c.isVar = false ∧ v ∈ c.plainVars := by
  induction cs with
  | nil => simp [Node.operandVarss]
  | cons c cs ih => cases c <;> simp [Node.operandVarss, ih, Node.isVar, Node.plainVars]

mutual
theorem Node.exprVars_vars {n : Node} {v} (h : v ∈ n.exprVars) : v ∈ n.vars := by
  cases n with
  | fn f cs => simp only [Node.exprVars] at h; simp only [Node.vars]; exact Node.exprVarss_varss h
  | efn f cs => simpa only [Node.exprVars, Node.vars] using h
  | _ => simp [Node.exprVars] at h
theorem Node.exprVarss_varss {cs : List Node} {v} (h : v ∈ Node.exprVarss cs) : v ∈ Node.varss cs := by
  cases cs with
  | nil => simp [Node.exprVarss] at h
  | cons c cs =>
    simp only [Node.exprVarss, List.mem_append] at h
    simp only [Node.varss, List.mem_append]
    rcases h with h | h
    · exact .inl (Node.exprVars_vars h)
    · exact .inr (Node.exprVarss_varss h)
end

theorem Node.exprVars_child {n c : Node} {v} (hc : c ∈ n.children) (h : v ∈ c.exprVars) : v ∈ n.exprVars := by
  cases n with
  | fn f cs => simp only [Node.exprVars]; exact Node.mem_exprVarss.2 ⟨c, hc, h⟩
  | efn f cs => simp only [Node.exprVars]; exact Node.mem_varss.2 ⟨c, hc, Node.exprVars_vars h⟩
  | _ => simp [Node.children] at hc

theorem Node.plainVars_child {n c : Node} {v} (hc : c ∈ n.children) (hn : c.isVar = false) (h : v ∈ c.plainVars) : v ∈ n.plainVars := by
  cases n with
  | fn f cs => simp only [Node.plainVars]; exact Node.mem_plainVarss.2 ⟨c, hc, h⟩
  | efn f cs => simp only [Node.plainVars]; exact Node.mem_operandVarss.2 ⟨c, hc, hn, h⟩
  | _ => simp [Node.children] at hc

theorem Node.beneath_all {P : Node → Prop} (hP : ∀ n c, P n → c ∈ n.children → P c) : ∀ (k : Nat) {ns : List Node}, (∀ n ∈ ns, P n) →
    ∀ n ∈ Node.beneath k ns, P n := by
  intro k
  induction k with
  | zero => intro ns _ n hn; simp [Node.beneath] at hn
  | succ k ih =>
    intro ns h n hn
    have hl : ∀ n ∈ ns.flatMap Node.children, P n := by
      intro n hn
      obtain ⟨m, hm, hc⟩ := List.mem_flatMap.1 hn
      exact hP m n (h m hm) hc
    rcases List.mem_append.1 hn with hn | hn
    · exact hl n hn
    · exact ih hl n hn

theorem Node.mem_builds {g n : Node} : n ∈ g.builds ↔ n ∈ g.children ∨ (n ∈ Node.beneath g.size g.children ∧ (n.isFn || n.isEfn) = true) := by
  simp only [Node.builds, List.mem_append, List.mem_reverse, List.mem_filter]
  exact or_comm

theorem Node.buildable_of {K : List Name} : ∀ {ns : List Node} {K' : List Name}, (∀ v ∈ K, v ∈ K') →
    (∀ n ∈ ns, ∀ v ∈ n.exprVars, v ∈ K) → Node.buildable K' ns = true := by
  intro ns
  induction ns with
  | nil => intro K' _ _; rfl
  | cons n ns ih =>
    intro K' hK h
    simp only [Node.buildable, Bool.and_eq_true]
    refine ⟨?_, ih (fun v hv => List.mem_append.2 (.inr (hK v hv))) fun m hm => h m (by simp [hm])⟩
    cases n with
    | efn f cs =>
      simp only [Node.ready, List.all_eq_true, List.contains_iff_mem]
      exact fun v hv => hK v (h (.efn f cs) (by simp) v (by simpa only [Node.exprVars] using hv))
    | _ => rfl

theorem Node.buildable_not {v : Name} : ∀ {ns : List Node} {K : List Name}, v ∉ K →
    (∃ n ∈ ns, ∃ f cs, n = .efn f cs ∧ v ∈ Node.varss cs) → (∀ n ∈ ns, n.isEfn = false → v ∉ n.direct) → Node.buildable K ns = false := by
  intro ns
  induction ns with
  | nil => rintro K _ ⟨n, hn, _⟩; simp at hn
  | cons n ns ih =>
    rintro K hK ⟨m, hm, f, cs, he, hv⟩ hd
    simp only [Node.buildable, Bool.and_eq_false_iff]
    by_cases hn : ∃ f cs, n = .efn f cs ∧ v ∈ Node.varss cs
    · obtain ⟨f, cs, rfl, hv⟩ := hn
      left
      simp only [Node.ready]
      rw [← Bool.not_eq_true, List.all_eq_true]
      intro h
      exact hK (by simpa using h v hv)
    · right
      refine ih ?_ ?_ fun m hm => hd m (by simp [hm])
      · rw [List.mem_append, not_or]
        refine ⟨fun hdv => ?_, hK⟩
        cases n with
        | efn f cs => exact hn ⟨f, cs, rfl, by simpa [Node.vars] using Node.direct_vars hdv⟩
        | _ => exact hd _ (by simp) rfl hdv
      · rcases List.mem_cons.1 hm with rfl | hm
        · exact absurd ⟨f, cs, he, hv⟩ hn
        · exact ⟨m, hm, f, cs, he, hv⟩

theorem Node.expr_beneath {v : Name} : ∀ (k : Nat) {ns : List Node}, Node.sizes ns ≤ k → v ∈ Node.exprVarss ns →
    ∃ n ∈ ns ++ Node.beneath k ns, ∃ f cs, n = .efn f cs ∧ v ∈ Node.varss cs := by
  intro k
  induction k with
  | zero =>
    intro ns h hv
    cases ns with
    | nil => simp [Node.exprVarss] at hv
    | cons n ns => simp [Node.sizes, Node.size_eq] at h
  | succ k ih =>
    intro ns h hv
    obtain ⟨c, hc, hvc⟩ := Node.mem_exprVarss.1 hv
    have hpos : 0 < ns.length := List.length_pos_of_mem hc
    have hsz := Node.sizes_kids ns
    cases c with
    | efn f cs => exact ⟨_, List.mem_append.2 (.inl hc), f, cs, rfl, by simpa only [Node.exprVars] using hvc⟩
    | fn f cs =>
      have : v ∈ Node.exprVarss (ns.flatMap Node.children) := by
        simp only [Node.exprVars] at hvc
        obtain ⟨d, hd, hvd⟩ := Node.mem_exprVarss.1 hvc
        exact Node.mem_exprVarss.2 ⟨d, List.mem_flatMap.2 ⟨_, hc, hd⟩, hvd⟩
      obtain ⟨n, hn, h3⟩ := ih (by omega) this
      exact ⟨n, List.mem_append.2 (.inr (by simpa only [Node.beneath] using hn)), h3⟩
    | _ => simp [Node.exprVars] at hvc

/-- No goal has an expression with a variable that does not occur before the goal: then everything is defined. -/
theorem Node.defined_of : ∀ {gs : List Node} {K : List Name},
    (∀ pre g post, gs = pre ++ g :: post → ∀ v ∈ Node.exprVarss g.children, v ∈ K ∨ ∃ b ∈ pre, v ∈ Node.varss b.children) →
    Node.defined K gs = true := by
  intro gs
  induction gs with
  | nil => intro K _; rfl
  | cons g gs ih =>
    intro K h
    simp only [Node.defined, Bool.and_eq_true]
    constructor
    · refine Node.buildable_of (K := K) (fun _ h => h) fun n hn v hv => ?_
      have key : ∀ n ∈ g.children ++ Node.beneath g.size g.children, ∀ v ∈ n.exprVars, v ∈ K := by
        have hg : ∀ n ∈ g.children, ∀ v ∈ n.exprVars, v ∈ K := by
          intro n hn v hv
          rcases h [] g gs rfl v (Node.mem_exprVarss.2 ⟨n, hn, hv⟩) with h | ⟨b, hb, _⟩
          · exact h
          · simp at hb
        intro n hn
        rcases List.mem_append.1 hn with hn | hn
        · exact hg n hn
        · exact Node.beneath_all (P := fun n => ∀ v ∈ n.exprVars, v ∈ K) (fun n c hn hc v hv => hn v (Node.exprVars_child hc hv)) _ hg n hn
      rcases Node.mem_builds.1 hn with hn | hn
      · exact key n (by simp [hn]) v hv
      · exact key n (by simp [hn.1]) v hv
    · refine ih fun pre b post he v hv => ?_
      rcases h (g :: pre) b post (by rw [he]; rfl) v hv with h' | ⟨c, hc, h'⟩
      · exact .inl (List.mem_append.2 (.inr h'))
      · rcases List.mem_cons.1 hc with rfl | hc
        · exact .inl (List.mem_append.2 (.inl h'))
        · exact .inr ⟨c, hc, h'⟩

/-- A variable that occurs only in expressions: not defined. -/
theorem Node.defined_not : ∀ {pre : List Node} {g : Node} {post : List Node} {K : List Name} {v : Name},
    v ∈ Node.exprVarss g.children → v ∉ Node.plainVarss g.children → v ∉ K → (∀ b ∈ pre, v ∉ Node.varss b.children) →
    Node.defined K (pre ++ g :: post) = false := by
  intro pre
  induction pre with
  | nil =>
    intro g post K v he hp hK _
    simp only [List.nil_append, Node.defined, Bool.and_eq_false_iff]
    left
    refine Node.buildable_not hK ?_ ?_
    · obtain ⟨n, hn, f, cs, rfl, hv⟩ := Node.expr_beneath g.size (by rw [Node.size_eq g]; omega) he
      refine ⟨_, Node.mem_builds.2 ?_, f, cs, rfl, hv⟩
      rcases List.mem_append.1 hn with hn | hn
      · exact .inl hn
      · exact .inr ⟨hn, rfl⟩
    · have hg : ∀ n ∈ g.children, n.isVar = false → v ∉ n.plainVars := fun n hn _ hv => hp (Node.mem_plainVarss.2 ⟨n, hn, hv⟩)
      have key : ∀ n ∈ g.children ++ Node.beneath g.size g.children, n.isVar = false → v ∉ n.plainVars := by
        intro n hn
        rcases List.mem_append.1 hn with hn | hn
        · exact hg n hn
        · refine Node.beneath_all (P := fun n => n.isVar = false → v ∉ n.plainVars) (fun n c hn hc hcv hv => ?_) _ hg n hn
          refine hn ?_ (Node.plainVars_child hc hcv hv)
          cases n with
          | var w => simp [Node.children] at hc
          | _ => rfl
      intro n hn hne hd
      rcases Node.mem_direct.1 hd with rfl | hc
      · rcases Node.mem_builds.1 hn with hn | hn
        · exact hp (Node.mem_plainVarss.2 ⟨_, hn, by simp [Node.plainVars]⟩)
        · simp [Node.isFn, Node.isEfn] at hn
      · have : n ∈ g.children ++ Node.beneath g.size g.children := by
          rcases Node.mem_builds.1 hn with hn | hn
          · simp [hn]
          · simp [hn.1]
        cases n with
        | fn f cs =>
          refine key _ this rfl ?_
          simp only [Node.plainVars]
          exact Node.mem_plainVarss.2 ⟨_, hc, by simp [Node.plainVars]⟩
        | efn f cs => cases hne
        | _ => simp [Node.children] at hc
  | cons b pre ih =>
    intro g post K v he hp hK hpre
    simp only [List.cons_append, Node.defined, Bool.and_eq_false_iff]
    right
    refine ih he hp ?_ fun c hc => hpre c (by simp [hc])
    rw [List.mem_append, not_or]
    exact ⟨hpre b (by simp), hK⟩

/-! ## C61 -/

theorem OnlyUndefined.noEsc {α} {m : CR α} (h : OnlyUndefined m) (h' : NoEsc m) (hn : ∀ a, m ≠ .ok a) : ∃ st, m = .error (.undefinedVar, st) := by
  cases m with
  | ok a => exact absurd rfl (hn a)
  | error e =>
    obtain ⟨e, st⟩ := e
    rcases h e st rfl with rfl | rfl
    · exact absurd rfl (h' st)
    · exact ⟨st, rfl⟩

theorem compileQuery_noEsc {ord : HashOrder} {as st} (h : ∀ a ∈ as, Node.readable a = true) : NoEsc (compileQuery ord as st) :=
  (compileQueryAtoms_noEsc h).bind fun _ => .pure _

/-- **C61, queries.** A query (whose integers fit in 32 bits) is accepted if and only if every variable of an arithmetic expression
exists when the expression is built, and otherwise rejected because of an undefined variable; whatever was loaded before. -/
theorem C61_query {o : Org} {ord : HashOrder} (ho : ord.OK) {q : List Node} (hq : ∀ a ∈ q, Node.readable a = true) :
    (o.loadQuery ord (some q)).2 = if Node.defined [] q then .ok else .rejected .undefinedVar := by
  have hu : OnlyUndefined (compileQuery ord q o.st) := compileQueryAtoms_onlyUndefined.bind fun _ => (Only.pure _).undefined
  unfold Org.loadQuery
  by_cases hd : Node.defined [] q = true
  · rw [if_pos hd]
    obtain ⟨⟨r, st⟩, h⟩ := (compileQuery_fine ho (st := o.st) hd).ok (compileQuery_noEsc hq)
    simp only [h]
  · rw [if_neg hd]
    obtain ⟨st, h⟩ := hu.noEsc (compileQuery_noEsc hq) fun a h => hd (compileQuery_exact ho h)
    simp only [h, Org.Load.ofErr]

/-- Clauses for these predicates are forbidden. -/
def Clause.reserved (c : Clause) : Bool := c.head.fv == ⟨n!"append", 3⟩ || c.head.fv == ⟨n!"is", 2⟩

/-- What is wrong with a program: the first clause that is for a forbidden predicate or has an undefined variable. -/
def verdict (p : List Clause) : Option CErr :=
  p.findSome? fun c => if c.reserved then some .redefinition else if c.defined then none else some .undefinedVar

theorem reserved_eq (c : Clause) : redefines c.head = c.reserved := by
  unfold redefines Clause.reserved
  simp only [Bool.beq_eq_decide_eq]

theorem compileClause_redefinition {ord : HashOrder} {head body st} (h : redefines head = true) :
    compileClause ord false head body st = .error (.redefinition, st) := by
  unfold compileClause
  simp only [h, Bool.not_false, Bool.and_true, if_true]
  rfl

theorem compileClause_onlyUndefined {ord : HashOrder} {head body st} (h : redefines head = false) :
    OnlyUndefined (compileClause ord false head body st) := by
  unfold compileClause
  simp only [h, Bool.and_false, Bool.false_eq_true, if_false]
  cases body with
  | nil => exact toProgram_only.undefined.bind fun _ => (Only.pure _).undefined
  | cons b bs =>
    exact toProgram_only.undefined.bind fun _ => toQuery_onlyUndefined.bind fun _ => compileQueryAtoms_onlyUndefined.bind fun _ =>
      (Only.pure _).undefined

theorem compileProgram_verdict {ord : HashOrder} (ho : ord.OK) : ∀ {p : List Clause} {q st},
    (∀ c ∈ p, ∀ a ∈ c.head :: c.body, Node.readable a = true) → (∀ c ∈ p, c.apart = true) →
    match verdict p with
    | none => ∃ r, compileProgram ord p q st = .ok r
    | some e => ∃ st', compileProgram ord p q st = .error (e, st') := by
  intro p
  induction p with
  | nil => intro q st _ _; exact ⟨_, rfl⟩
  | cons c p ih =>
    intro q st hr hu
    unfold verdict
    simp only [List.findSome?_cons]
    cases hc : c.reserved with
    | true =>
      simp only [if_true]
      refine ⟨st, ?_⟩
      rw [compileProgram, compileClause_redefinition (by rw [reserved_eq]; exact hc)]
      rfl
    | false =>
      have hn : redefines c.head = false := by rw [reserved_eq]; exact hc
      have hesc : NoEsc (compileClause ord false c.head c.body st) := compileClause_noEsc (hr c (by simp))
      simp only [Bool.false_eq_true, if_false]
      cases hd : c.defined with
      | true =>
        simp only [if_true]
        obtain ⟨⟨f, r, st1⟩, h⟩ := (compileClause_fine ho (st := st) (bi := false) (by simpa using hn) hd).ok hesc
        have := ih (q := q.addRule f r) (st := st1) (fun d hd => hr d (by simp [hd])) fun d hd => hu d (by simp [hd])
        rw [compileProgram, h, ok_bind]
        exact this
      | false =>
        simp only [Bool.false_eq_true, if_false]
        obtain ⟨st', h⟩ := (compileClause_onlyUndefined hn).noEsc hesc fun a h => by
          have := compileClause_exact ho (hu c (by simp)) h
          rw [Clause.defined, this] at hd
          cases hd
        exact ⟨st', by rw [compileProgram, h]; rfl⟩

/-- **C61, programs (part that holds).** A program (whose integers fit in 32 bits) is accepted if and only if no clause is for
`append/3` or `is/2` and every variable of an arithmetic expression exists when the expression is built; otherwise the first bad clause
determines the error.
Missing: clauses in which a new variable of the first goal shares its register with a variable or an expression of the head, for which it
is false (`C61_missed`).  Untangled clauses (C24) are not of this kind. -/
theorem C61_program_partial {o : Org} {ord : HashOrder} (ho : ord.OK) {p : List Clause}
    (hr : ∀ c ∈ p, ∀ a ∈ c.head :: c.body, Node.readable a = true) (hu : ∀ c ∈ p, c.apart = true) :
    (o.loadProgram ord (some p)).2 = match verdict p with
      | none => .ok
      | some e => .rejected e := by
  have h := compileProgram_verdict ho (q := []) (st := o.st) hr hu
  unfold Org.loadProgram
  cases hv : verdict p with
  | none =>
    rw [hv] at h
    obtain ⟨⟨r, st⟩, h⟩ := h
    simp only [h]
  | some e =>
    rw [hv] at h
    obtain ⟨st, h⟩ := h
    simp only [h]
    have : e ≠ .outOfRange := by
      unfold verdict at hv
      obtain ⟨c, _, hc⟩ := List.exists_of_findSome?_eq_some hv
      split at hc
      · cases hc; simp
      · split at hc <;> cases hc
        simp
    cases e <;> first | rfl | exact absurd rfl this

/-- **C61, no false alarms.** With or without register clashes: a program with which nothing is wrong is accepted. -/
theorem C61_accepted {o : Org} {ord : HashOrder} (ho : ord.OK) {p : List Clause}
    (hr : ∀ c ∈ p, ∀ a ∈ c.head :: c.body, Node.readable a = true) (hv : verdict p = none) : (o.loadProgram ord (some p)).2 = .ok := by
  have key : ∀ {p : List Clause} {q st}, (∀ c ∈ p, ∀ a ∈ c.head :: c.body, Node.readable a = true) → verdict p = none →
      ∃ r, compileProgram ord p q st = .ok r := by
    intro p
    induction p with
    | nil => intro q st _ _; exact ⟨_, rfl⟩
    | cons c p ih =>
      intro q st hr hv
      unfold verdict at hv
      simp only [List.findSome?_cons] at hv
      split at hv
      · cases hv
      · rename_i h0
        split at h0
        · cases h0
        · rename_i hc
          split at h0
          · rename_i hd
            have hn : redefines c.head = false := by rw [reserved_eq]; simpa using hc
            obtain ⟨⟨f, r, st1⟩, h⟩ := (compileClause_fine ho (st := st) (bi := false) (by simpa using hn) hd).ok
              (compileClause_noEsc (hr c (by simp)))
            rw [compileProgram, h, ok_bind]
            exact ih (fun d hd => hr d (by simp [hd])) hv
          · cases h0
  obtain ⟨⟨r, st⟩, h⟩ := key (q := []) (st := o.st) hr hv
  unfold Org.loadProgram
  simp only [h]

/-- **C61, what it means for a clause.** If every variable in an expression of the body also occurs in the head or in an earlier goal,
then the clause is all right; and if a variable occurs in the expressions of a goal, but neither elsewhere in this goal nor before, it is
not. -/
theorem C61_clause (c : Clause) :
    ((∀ pre g post, c.body = pre ++ g :: post → ∀ v ∈ Node.exprVarss g.children,
      v ∈ Node.varss c.head.children ∨ ∃ b ∈ pre, v ∈ Node.varss b.children) → c.defined = true) ∧
    ∀ pre g post v, c.body = pre ++ g :: post → v ∈ Node.exprVarss g.children → v ∉ Node.plainVarss g.children →
      v ∉ Node.varss c.head.children → (∀ b ∈ pre, v ∉ Node.varss b.children) → c.defined = false := by
  refine ⟨Node.defined_of, fun pre g post v he h1 h2 h3 h4 => ?_⟩
  unfold Clause.defined
  rw [he]
  exact Node.defined_not h1 h2 h3 h4

/-- Both parts apply: `p(Y) :- X is Y + 1, Z is X * X` is all right, `p :- X is Y + 1, q(Y)` is not, and in both programs no registers
are shared. -/
theorem C61_applies :
    verdict [⟨.fn n!"p" [.var n!"Y"], [.fn n!"is" [.var n!"X", .efn n!"+" [.var n!"Y", .int 1]], .fn n!"is" [.var n!"Z", .efn n!"*" [.var n!"X", .var n!"X"]]]⟩] = none ∧
    (Clause.mk (.fn n!"p" [.var n!"Y"]) [.fn n!"is" [.var n!"X", .efn n!"+" [.var n!"Y", .int 1]], .fn n!"is" [.var n!"Z", .efn n!"*" [.var n!"X", .var n!"X"]]]).apart = true ∧
    verdict [⟨.cons n!"p", [.fn n!"is" [.var n!"X", .efn n!"+" [.var n!"Y", .int 1]], .fn n!"q" [.var n!"Y"]]⟩] = some .undefinedVar ∧
    (Clause.mk (.cons n!"p") [.fn n!"is" [.var n!"X", .efn n!"+" [.var n!"Y", .int 1]], .fn n!"q" [.var n!"Y"]]).apart = true := by
  decide +kernel

/-- **C61 is false in general**: in `p(A) :- q(B + 1)` the variable `B` has no value, but it gets the register of `A`, and the clause is
accepted. -/
theorem C61_missed : (Clause.mk (.fn n!"p" [.var n!"A"]) [.fn n!"q" [.efn n!"+" [.var n!"B", .int 1]]]).defined = false ∧
    (Clause.mk (.fn n!"p" [.var n!"A"]) [.fn n!"q" [.efn n!"+" [.var n!"B", .int 1]]]).apart = false ∧
    (Org.init0.loadProgram id (some [⟨.fn n!"p" [.var n!"A"], [.fn n!"q" [.efn n!"+" [.var n!"B", .int 1]]]⟩])).2 = .ok ∧
    (Org.init0.loadProgramText id n!"p(A) :- q(B+1).").2 = .ok := by
  decide +kernel

/-- The order in which terms are built shows: `X is X + 1` is accepted although `X` can never have a value, `X is (X + 1) * 2` is not;
`q(Y, Y + 1)` is accepted, `q(Y + 1, Y)` is not. -/
theorem C61_samples :
    (Org.init0.loadQueryText id n!"X is X+1").2 = .ok ∧ (Org.init0.loadQueryText id n!"X is (X+1)*2").2 = .rejected .undefinedVar ∧
    (Org.init0.loadQueryText id n!"q(Y,Y+1)").2 = .ok ∧ (Org.init0.loadQueryText id n!"q(Y+1,Y)").2 = .rejected .undefinedVar ∧
    (Org.init0.loadProgramText id n!"p:-X is Y+1,q(Y).").2 = .rejected .undefinedVar ∧
    (Org.init0.loadProgramText id n!"p:-q(Y),X is Y+1.").2 = .ok := by
  decide +kernel

end PBfs
