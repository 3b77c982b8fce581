import Verif.Proof.Load
import Verif.Props.Search
import Verif.Spec.Demo
/-! # C19, C37, C38, C39: loading programs -/
namespace PBfs

/-! ## C38: exceptions -/

mutual
/-- All integers of the term fit in 32 bits, and all operators are known. -/
def Node.readable : Node → Bool
  | .int v => decide (-2147483648 ≤ v ∧ v ≤ 2147483647)
  | .fn _ cs => Node.readables cs
  | .efn f cs => arithNames.contains f && Node.readables cs
  | _ => true
def Node.readables : List Node → Bool
  | [] => true
  | c :: cs => Node.readable c && Node.readables cs
end

theorem Node.readables_iff {cs : List Node} : Node.readables cs = true ↔ ∀ c ∈ cs, c.readable = true := by
  induction cs with
  | nil => simp [Node.readables]
  | cons c cs ih => simp [Node.readables, ih]

theorem Node.readable_child {n c : Node} (h : n.readable = true) (hc : c ∈ n.children) : c.readable = true := by
  cases n <;> simp_all [Node.readable, Node.children]
  · exact Node.readables_iff.1 h c hc
  · exact Node.readables_iff.1 h.2 c hc

/-- The only exceptions are those that are caught. -/
def NoEsc {α} (m : CR α) : Prop := ∀ st, m ≠ .error (.outOfRange, st)

theorem NoEsc.pure {α} (a : α) : NoEsc (Pure.pure a : CR α) := fun st h => by cases h

theorem NoEsc.bind {α β} {m : CR α} {k : α → CR β} (h : NoEsc m) (hk : ∀ a, NoEsc (k a)) : NoEsc (m >>= k) := by
  intro st he
  cases m with
  | error e =>
    rw [error_bind] at he
    cases he
    exact h st rfl
  | ok a => exact hk a st he

theorem stoi_noEsc {v : Int} {g} (h : (Node.int v).readable = true) : NoEsc (stoi v g) := by
  intro st
  simp only [Node.readable, decide_eq_true_eq] at h
  simp [stoi, h]

theorem arithIndex_known {f : Name} (h : arithNames.contains f = true) : ∃ i, arithIndex f = some i := by
  unfold arithIndex
  have hm : f ∈ arithNames := by simpa using h
  cases hi : indexOf? f arithNames with
  | some i => exact ⟨i, rfl⟩
  | none => exact absurd hm (indexOf?_none_not_mem hi)

theorem structCell_noEsc {n : Node} {g} (h : n.readable = true) (hv : ∀ v, n ≠ .var v) : NoEsc (structCell n g) := by
  unfold structCell
  split
  · exact (stoi_noEsc h).bind fun _ => .pure _
  · exact .pure _
  · exact .pure _
  · simp only [Node.readable, Bool.and_eq_true] at h
    obtain ⟨i, hi⟩ := arithIndex_known h.1
    rw [hi]
    exact .pure _
  · exact absurd rfl (hv _)

theorem queryKid_noEsc {yOf c x g} (h : c.readable = true) : NoEsc (queryKid yOf c x g) := by
  have hx : NoEsc (if g.has (.x x) then Pure.pure (Instr.setValue x, g)
    else
      let g := g.mark (.x x)
      let (v, st) := g.st.pushBackVar c.name
      Pure.pure (.setVariable x v, { g with st := st }) : CR (Instr × GenSt)) := by
    split <;> exact .pure _
  unfold queryKid
  cases c with
  | int v => exact (structCell_noEsc h (by simp)).bind fun _ => .pure _
  | cons v => exact (structCell_noEsc h (by simp)).bind fun _ => .pure _
  | var n =>
    simp only
    split
    · split <;> exact .pure _
    · exact hx
  | fn => exact hx
  | efn => exact hx

theorem queryKids_noEsc {yOf} : ∀ {ks : List (Node × Nat)} {g}, (∀ k ∈ ks, k.1.readable = true) → NoEsc (queryKids yOf ks g) := by
  intro ks
  induction ks with
  | nil => intro g _; exact .pure _
  | cons k ks ih =>
    intro g h
    exact (queryKid_noEsc (h _ (by simp))).bind fun _ => (ih fun k hk => h k (by simp [hk])).bind fun _ => .pure _

def AItem.Readable (a : AItem) : Prop := a.node.readable = true ∧ ∀ k ∈ a.kids, k.1.readable = true

theorem queryItem_noEsc {yOf xOf a g} (h : AItem.Readable a) : NoEsc (queryItem yOf xOf a g) := by
  unfold queryItem
  split
  · split
    · split <;> exact .pure _
    · split <;> exact .pure _
  · rename_i hn
    simp only
    split
    · exact (structCell_noEsc h.1 (by rw [hn]; simp)).bind fun _ => (queryKids_noEsc h.2).bind fun _ => .pure _
    · intro st he; cases he
  · rename_i hn _
    exact (structCell_noEsc h.1 hn).bind fun _ => (queryKids_noEsc h.2).bind fun _ => .pure _

theorem queryItems_noEsc {yOf xOf} : ∀ {as : List AItem} {g}, (∀ a ∈ as, a.Readable) → NoEsc (queryItems yOf xOf as g) := by
  intro as
  induction as with
  | nil => intro g _; exact .pure _
  | cons k ks ih =>
    intro g h
    exact (queryItem_noEsc (h _ (by simp))).bind fun _ => (ih fun k hk => h k (by simp [hk])).bind fun _ => .pure _

theorem programKid_noEsc {yOf c x g} (h : c.readable = true) : NoEsc (programKid yOf c x g) := by
  unfold programKid
  split
  · exact (structCell_noEsc h (by simp)).bind fun _ => .pure _
  · exact (structCell_noEsc h (by simp)).bind fun _ => .pure _
  · simp only
    split
    · split <;> exact .pure _
    · split <;> exact .pure _

theorem programKids_noEsc {yOf} : ∀ {ks : List (Node × Nat)} {g}, (∀ k ∈ ks, k.1.readable = true) → NoEsc (programKids yOf ks g) := by
  intro ks
  induction ks with
  | nil => intro g _; exact .pure _
  | cons k ks ih =>
    intro g h
    exact (programKid_noEsc (h _ (by simp))).bind fun _ => (ih fun k hk => h k (by simp [hk])).bind fun _ => .pure _

theorem programItem_noEsc {yOf a g} (h : AItem.Readable a) : NoEsc (programItem yOf a g) := by
  unfold programItem
  split
  · split
    · split <;> exact .pure _
    · simp only
      split <;> exact .pure _
  · rename_i hn
    exact (structCell_noEsc h.1 hn).bind fun _ => (programKids_noEsc h.2).bind fun _ => .pure _

theorem programItems_noEsc {yOf} : ∀ {as : List AItem} {g}, (∀ a ∈ as, a.Readable) → NoEsc (programItems yOf as g) := by
  intro as
  induction as with
  | nil => intro g _; exact .pure _
  | cons k ks ih =>
    intro g h
    exact (programItem_noEsc (h _ (by simp))).bind fun _ => (ih fun k hk => h k (by simp [hk])).bind fun _ => .pure _

theorem annotate_readable {atom : Node} (h : atom.readable = true) {xs} : ∀ a ∈ annotate (items atom) xs, a.Readable := by
  intro a ha
  have hk := (annotate_spec atom xs).2.1 a ha
  simp only [annotate, List.mem_map] at ha
  obtain ⟨it, hit, rfl⟩ := ha
  have hn : it.node.readable = true := by
    refine bfs_all (P := fun n => n.readable = true) (fun n c hn hc => Node.readable_child hn hc) _ _ _ _ ?_ (by simp) it hit
    intro nd hnd
    unfold atomArgs at hnd
    split at hnd
    · simp only [List.mem_singleton] at hnd
      subst hnd; rfl
    · exact Node.readable_child h hnd
  refine ⟨hn, fun k hk' => ?_⟩
  have : k.1 ∈ it.node.children := by
    rw [← kidsOf_map xs it.cstart it.node.children]
    exact List.mem_map_of_mem hk'
  exact Node.readable_child hn this

theorem assignAtom_readable {varX} {atom : Node} (h : atom.readable = true) : ∀ a ∈ (assignAtom varX atom).1, a.Readable := by
  unfold assignAtom
  exact annotate_readable h

theorem assignSingle_readable {atom : Node} (h : atom.readable = true) : ∀ a ∈ (assignSingle atom).1, a.Readable := by
  unfold assignSingle
  exact assignAtom_readable h

theorem assignPair_readable {head body : Node} (h : head.readable = true) (hb : body.readable = true) :
    (∀ a ∈ (assignPair head body).1.1, a.Readable) ∧ ∀ a ∈ (assignPair head body).2.1.1, a.Readable := by
  unfold assignPair
  split
  · exact ⟨assignSingle_readable h, assignSingle_readable hb⟩
  · split
    · exact ⟨assignSingle_readable h, assignSingle_readable hb⟩
    · exact ⟨assignAtom_readable h, assignAtom_readable hb⟩

theorem toQuery_noEsc {yOf xOf atom as g} (h : ∀ a ∈ as, AItem.Readable a) : NoEsc (toQuery yOf xOf atom as g) :=
  (queryItems_noEsc fun a ha => h a (mem_flattenQuery.1 ha).1).bind fun _ => .pure _

theorem toProgram_noEsc {yOf atom as g} (h : ∀ a ∈ as, AItem.Readable a) : NoEsc (toProgram yOf atom as g) :=
  (programItems_noEsc fun a ha => h a (List.mem_filter.1 ha).1).bind fun _ => .pure _

theorem compileQueryAtoms_noEsc {yOf q} : ∀ {as : List Node} {pre g}, (∀ a ∈ as, a.readable = true) → NoEsc (compileQueryAtoms yOf pre q as g) := by
  intro as
  induction as with
  | nil => intro pre g _; exact .pure _
  | cons a as ih =>
    intro pre g h
    refine NoEsc.bind ?_ fun _ => (ih fun k hk => h k (by simp [hk])).bind fun _ => .pure _
    exact (toQuery_noEsc (assignSingle_readable (h a (by simp)))).bind fun _ => .pure _

theorem compileClause_noEsc {ord bi head body st} (h : ∀ a ∈ head :: body, Node.readable a = true) : NoEsc (compileClause ord bi head body st) := by
  unfold compileClause
  simp only
  split
  · intro st he; cases he
  · cases body with
    | nil => exact (toProgram_noEsc (assignSingle_readable (h head (by simp)))).bind fun _ => .pure _
    | cons b bs =>
      obtain ⟨h1, h2⟩ := assignPair_readable (h head (by simp)) (h b (by simp))
      exact (toProgram_noEsc h1).bind fun _ => (toQuery_noEsc h2).bind fun _ =>
        (compileQueryAtoms_noEsc fun a ha => h a (by simp [ha])).bind fun _ => .pure _

theorem compileProgram_noEsc {ord} : ∀ {cs : List Clause} {p st}, (∀ c ∈ cs, ∀ a ∈ c.head :: c.body, Node.readable a = true) → NoEsc (compileProgram ord cs p st) := by
  intro cs
  induction cs with
  | nil => intro p st _; exact .pure _
  | cons c cs ih =>
    intro p st h
    exact (compileClause_noEsc (h c (by simp))).bind fun _ => ih fun c hc => h c (by simp [hc])

/-- **C38 (part that holds).** Loading a program or a query whose integers fit in 32 bits either succeeds or
returns an error value, in every state of the interpreter.
Missing: larger integers, for which it is false (`C38_exception_escapes`). -/
theorem C38_no_exception_partial {o : Org} {ord : HashOrder} :
    (∀ parsed, (∀ cs, parsed = some cs → ∀ c ∈ cs, ∀ a ∈ c.head :: c.body, Node.readable a = true) → (o.loadProgram ord parsed).2 ≠ .exception) ∧
    ∀ parsed, (∀ as, parsed = some as → ∀ a ∈ as, Node.readable a = true) → (o.loadQuery ord parsed).2 ≠ .exception := by
  constructor
  · intro parsed h
    unfold Org.loadProgram
    split
    · simp
    · rename_i cs
      split
      · rename_i e st he
        cases e with
        | outOfRange => exact absurd he (compileProgram_noEsc (h cs rfl) st)
        | _ => simp [Org.Load.ofErr]
      · simp
  · intro parsed h
    unfold Org.loadQuery
    simp only
    split
    · simp
    · rename_i as
      split
      · rename_i e st he
        cases e with
        | outOfRange =>
          refine absurd he ?_
          exact ((compileQueryAtoms_noEsc (h as rfl)).bind fun _ => .pure _) st
        | _ => simp [Org.Load.ofErr]
      · simp

/-- The hypothesis is met by `p(-2147483648, 2147483647 + X)`. -/
example : (Node.fn n!"p" [.int (-2147483648), .efn n!"+" [.int 2147483647, .var n!"X"]]).readable = true := by decide

/-- **C38 is false in general**: the fact `p(2147483648).` makes `std::stoi` throw, and nobody catches it. -/
theorem C38_exception_escapes : (Org.init0.loadProgram id (some [⟨.fn n!"p" [.int 2147483648], []⟩])).2 = .exception ∧
    (Org.init0.loadQuery id (some [.fn n!"p" [.int 2147483648]])).2 = .exception := by decide +kernel

/-! ## C19: the built-in predicates -/

theorem compileProgram_redefines {ord : HashOrder} {cs : List Clause} {p st p' st'} (h : compileProgram ord cs p st = .ok (p', st')) :
    ∀ c ∈ cs, redefines c.head = false := (compileProgram_rules h).2.1

theorem compileProgram_append {ord : HashOrder} : ∀ {cs ds : List Clause} {p st}, compileProgram ord (cs ++ ds) p st =
    (compileProgram ord cs p st >>= fun r => compileProgram ord ds r.1 r.2) := by
  intro cs
  induction cs with
  | nil => intro ds p st; rfl
  | cons c cs ih =>
    intro ds p st
    simp only [List.cons_append, compileProgram]
    cases compileClause ord false c.head c.body st with
    | error e => rfl
    | ok r => simp only [ok_bind]; exact ih

/-- **C19, first part.** A program with a clause for `append/3` or `is/2` is never accepted, and the error is
the redefinition error if the clauses before it are all right. -/
theorem C19_redefinition_rejected {o : Org} {ord : HashOrder} {pre post : List Clause} {c : Clause}
    (hc : c.head.fv = ⟨n!"append", 3⟩ ∨ c.head.fv = ⟨n!"is", 2⟩) :
    (o.loadProgram ord (some (pre ++ c :: post))).2 ≠ .ok ∧
    ((∃ r, compileProgram ord pre [] o.st = .ok r) → (o.loadProgram ord (some (pre ++ c :: post))).2 = .rejected .redefinition) := by
  have hr : redefines c.head = true := by
    unfold redefines
    rcases hc with hc | hc <;> simp [hc]
  constructor
  · intro h
    obtain ⟨q, h1, _⟩ := loadProgram_ok (o' := (o.loadProgram ord (some (pre ++ c :: post))).1) (Prod.ext rfl h)
    have := compileProgram_redefines h1 c (by simp)
    rw [hr] at this
    cases this
  · rintro ⟨⟨q, st⟩, h1⟩
    have h2 : compileProgram ord (pre ++ c :: post) [] o.st = .error (.redefinition, st) := by
      rw [compileProgram_append, h1, ok_bind, compileProgram]
      unfold compileClause
      simp only [hr, Bool.not_false, Bool.and_true, if_true]
      rfl
    unfold Org.loadProgram
    simp only [h2]
    rfl

theorem Serves.builtins {o ord p} (h : Serves o ord p) : o.builtins = Org.init0.builtins := by
  induction h with
  | @init o ord h => rw [Org.init_eq] at h; cases h; rfl
  | @program o o' ord ord' p p' _ h ih =>
    obtain ⟨q, _, h⟩ := loadProgram_ok h
    rw [h]; exact ih
  | @rejected o o' ord ord' p parsed l _ h hl ih =>
    have := (loadProgram_rejected h hl).2
    rw [this]; exact ih
  | query _ ih => rw [loadQuery_st.2.1]; exact ih
  | @answer o o' ord p fuel clock r hs h ih => rw [(getAnswer_keeps hs.reach.rinv h).1]; exact ih

/-- **C19, second part (what holds).** After any history of programs, queries and answers, the four built-in
predicates have the code they have in a new interpreter, whatever the loaded program contains.
Missing: the clean-up after memory exhaustion, after which there are no built-ins (`C37_built_ins_lost`). -/
theorem C19_built_ins_kept_partial {o ord p} (h : Serves o ord p) : ∀ f ∈ builtinFVs,
    o.program.rules? f = Org.init0.program.rules? f ∧ (o.program.rules? f).isSome = true := by
  intro f hf
  have e : o.program.rules? f = Org.init0.program.rules? f := by
    rw [h.inv.own f hf, h.builtins, Org.init0_program]
  refine ⟨e, ?_⟩
  rw [e]
  clear e h
  revert f
  decide +kernel

/-- The built-ins: four predicates, `append/3` having two clauses. -/
example : (builtinFVs.map fun f => ((Org.init0.program.rules? f).getD []).length) = [1, 1, 1, 2] := by decide +kernel

/-- A program that defines `==/2` itself is accepted, and the built-in `==/2` stays in force. -/
example : (Org.init0.loadProgram id (some [⟨.fn n!"==" [.var n!"X", .var n!"Y"], []⟩])).2 = .ok ∧
    (demo [⟨.fn n!"==" [.var n!"X", .var n!"Y"], []⟩] [.fn n!"==" [.cons n!"a", .cons n!"b"]]).reportsOf 20 20 = some [] := by decide +kernel

/-! ## C39: loading while a query is pending -/

/-- **C39 (part that holds).** If the program is rejected, the pending alternatives are untouched; if none is
pending, the next `get_answer` says "no".
Missing: accepted programs while something is pending, for which it is false (`C39_dangling`). -/
theorem C39_load_pending_partial {o o' : Org} {ord : HashOrder} {parsed l} (h : o.loadProgram ord parsed = (o', l)) :
    (l ≠ .ok → o'.execs = o.execs ∧ o'.queue = o.queue ∧ o'.program = o.program ∧ o'.gen = o.gen ∧ o'.calls = o.calls ∧ StLe o.st o'.st) ∧
    (o.queue = [] → ∀ fuel clock, o'.getAnswer fuel clock = .ok (o', .noAnswer)) := by
  constructor
  · intro hl
    obtain ⟨h1, h2⟩ := loadProgram_rejected h hl
    rw [h2]
    exact ⟨rfl, rfl, rfl, rfl, rfl, h1.le⟩
  · intro hq fuel clock
    have : o'.queue = [] := by
      unfold Org.loadProgram at h
      split at h
      · cases h; exact hq
      · split at h <;> (cases h; exact hq)
    unfold Org.getAnswer
    simp only [this]
    rfl

/-- **C39 is false in general**: `p :- q. q.` is loaded, `p` asked, one step of it done (the rest runs out of
time), then a program is loaded; the next `get_answer` follows a pointer into the released program. -/
theorem C39_dangling :
    let p : List Clause := [⟨.cons n!"p", [.cons n!"q"]⟩, ⟨.cons n!"q", []⟩]
    let r := (demo p [.cons n!"p"]).getAnswer 20 [false, true]
    r.toOption.map (·.2) = some (.error ⟨.outOfTime, []⟩) ∧
    (match r with
      | .ok (o, _) => match (o.loadProgram id (some p)).1.getAnswer 20 [false] with
        | .error f => some f
        | .ok _ => none
      | .error _ => none) = some Fault.dangling := by decide +kernel

/-! ## C37: memory exhaustion -/

/-- **C37 is false**: after the clean-up the built-in predicates are gone, also after loading a program.
`append([],[],X)` has an answer in a new interpreter and none in the cleaned one. -/
theorem C37_built_ins_lost :
    let q : List Node := [.fn n!"append" [.nil, .nil, .var n!"X"]]
    (demo [] q).reportsOf 20 20 = some [.answer [⟨n!"X", n!"[]"⟩]] ∧
    ((Org.init0.clearMemory.loadProgram id (some [])).1.loadQuery id (some q)).1.reportsOf 20 20 = some [] ∧
    (Org.init0.clearMemory.loadProgram id (some [])).2 = .ok := by decide +kernel

end PBfs
