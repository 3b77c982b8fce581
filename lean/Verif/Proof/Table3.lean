import Verif.Proof.Table2
/-! # What loading adds to the tables of names: clauses, programs, queries -/
namespace PBfs

theorem programKid_adds (yOf : Name → Option Nat) (c : Node) (x : Nat) (g : GenSt) : Adds c.kidOwn 1 g.st (fun r => r.2.st) (programKid yOf c x g) := by
  have rest : Adds [] 1 g.st (fun r => r.2.st) (
    let y? := match c with
      | .var n => yOf n
      | _ => none
    if g.has (.x x) then
      match y? with
      | some y => pure (.unifyPermValue y, g)
      | none => pure (.unifyValue x, g)
    else
      let g := g.mark (.x x)
      let (v, st) := g.st.pushBackVar c.name
      let g := { g with st := st }
      match y? with
      | some y => pure (.unifyPermVariable y v, g.mark (.y y))
      | none => pure (.unifyVariable x v, g) : CR (Instr × GenSt)) := by
    simp only []
    split
    · split <;> exact (Adds.pure rfl).mono (fun _ => .rfl) (Nat.zero_le _)
    · split <;> exact pure_push (n := c.name) rfl
  unfold programKid
  cases c with
  | int v => exact Adds.last ((structCell_adds (.int v) g).mono (fun _ => .rfl) (Nat.zero_le _)) fun a _ => Adds.pure rfl
  | cons v => exact Adds.last ((structCell_adds (.cons v) g).mono (fun _ => .rfl) (Nat.zero_le _)) fun a _ => Adds.pure rfl
  | var n => exact rest
  | fn f cs => exact rest
  | efn f cs => exact rest

theorem programKids_adds (yOf : Name → Option Nat) : ∀ ks (g : GenSt), Adds (kidsOwn ks) ks.length g.st (fun r => r.2.st) (programKids yOf ks g)
  | [], g => Adds.pure rfl
  | (c, x) :: ks, g => by
    rw [programKids]
    refine (Adds.bind (programKid_adds yOf c x g) (F' := kidsOwn ks) (k' := ks.length) (g := fun r : List Instr × GenSt => r.2.st) fun a ha => ?_).mono
      (fun _ => .rfl) (by rw [List.length_cons]; omega)
    exact Adds.last (programKids_adds yOf ks a.2) fun b _ => Adds.pure rfl

theorem programItem_adds (yOf : Name → Option Nat) (a : AItem) (g : GenSt) : Adds a.syms a.kids.length g.st (fun r => r.2.st) (programItem yOf a g) := by
  unfold programItem
  split
  · rename_i n hn
    have e1 : a.syms = [] := by simp [AItem.syms, hn, Node.isVar]
    rw [e1]
    split
    · split <;> exact (Adds.pure rfl).mono (fun _ => .rfl) (Nat.zero_le _)
    · simp only []
      split <;> exact (Adds.pure rfl).mono (fun _ => .rfl) (Nat.zero_le _)
  · have hv : a.node.isVar = false := by
      cases hn : a.node with
      | var n => rename_i h; exact absurd hn (h n)
      | _ => rfl
    refine Adds.mono (F' := a.syms) (k' := a.kids.length) (Adds.bind (g := fun r : List Instr × GenSt => r.2.st) (structCell_adds a.node g) fun b h1 =>
      Adds.last (programKids_adds yOf a.kids b.2) fun _ _ => Adds.pure rfl) (fun x => by simp [AItem.syms, hv]) (by simp)

theorem programItems_adds (yOf : Name → Option Nat) : ∀ as (g : GenSt),
    Adds (as.flatMap AItem.syms) (as.map (·.kids.length)).sum g.st (fun r => r.2.st) (programItems yOf as g)
  | [], g => Adds.pure rfl
  | a :: as, g => by
    rw [programItems]
    refine (Adds.bind (programItem_adds yOf a g) (F' := as.flatMap AItem.syms) (k' := (as.map (·.kids.length)).sum) (g := fun r : List Instr × GenSt => r.2.st) fun b hb => ?_).mono
      (fun _ => .rfl) (Nat.le_of_eq rfl)
    exact Adds.last (programItems_adds yOf as b.2) fun c _ => Adds.pure rfl

theorem bfsLoop_kids : ∀ (n : Nat) (q : List (Nat × Node)) (next : Nat),
    ((bfsLoop n q next).map fun it => it.node.children.length).sum + q.length ≤ (q.map (·.2.size)).sum
  | 0, q, next => by
    have : ∀ q : List (Nat × Node), q.length ≤ (q.map (·.2.size)).sum := by
      intro q
      induction q with
      | nil => simp
      | cons x q ih =>
        have := size_children x.2
        simp only [List.length_cons, List.map_cons, List.sum_cons]; omega
    simpa [bfsLoop] using this q
  | n + 1, [], next => by simp [bfsLoop]
  | n + 1, (i, nd) :: q, next => by
    have ih := bfsLoop_kids n (q ++ number next nd.children) (next + nd.children.length)
    have := size_children nd
    simp only [bfsLoop, List.map_cons, List.sum_cons, List.map_append, List.sum_append, List.length_append, number_length, number_sizes, List.length_cons] at ih ⊢
    omega

variable {atom : Node} {as : List AItem}

theorem Entries.kidsLength (h : Entries atom as) : ((flattenProgram (atomArgs atom).length as).map (·.kids.length)).sum ≤ atom.size := by
  have h1 : ∀ l : List AItem, ((l.filter (·.kept (atomArgs atom).length)).map (·.kids.length)).sum ≤ (l.map (·.kids.length)).sum := by
    intro l
    induction l with
    | nil => simp
    | cons a l ih =>
      rw [List.filter_cons]
      split <;> simp only [List.map_cons, List.sum_cons] <;> omega
  have h2 : (as.map (·.kids.length)).sum = ((items atom).map fun it => it.node.children.length).sum := by
    have := congrArg (List.map fun n : Node => n.children.length) h.all
    simp only [List.map_map, Function.comp_def] at this
    rw [← this]
    congr 1
    refine List.map_congr_left fun a ha => ?_
    rw [← h.nodes.kids a ha, List.length_map]
  have h3 := bfsLoop_kids (Node.sizes (atomArgs atom)) (number 0 (atomArgs atom)) (atomArgs atom).length
  rw [number_sizes] at h3
  have h4 := atomArgs_sizes atom
  have h5 := h1 as
  have h6 : ((items atom).map fun it => it.node.children.length).sum ≤ Node.sizes (atomArgs atom) := by
    simp only [items]; omega
  exact Nat.le_trans h5 (h2 ▸ Nat.le_trans h6 h4)

theorem Entries.query (h : Entries atom as) (x : FV) : x ∈ (flattenQuery (atomArgs atom).length as).flatMap AItem.syms ↔ x ∈ atom.atomSyms := by
  rw [← atomArgs_syms, ← h.syms]
  simp only [List.mem_flatMap, mem_flattenQuery, and_assoc]

theorem Entries.program (h : Entries atom as) (x : FV) : x ∈ (flattenProgram (atomArgs atom).length as).flatMap AItem.syms ↔ x ∈ atom.atomSyms := by
  rw [← atomArgs_syms, ← h.syms]
  simp only [List.mem_flatMap, flattenProgram, List.mem_filter, and_assoc]

theorem atomArgs_vars (atom : Node) : (Node.varss (atomArgs atom)).length ≤ atom.vars.length := by
  cases atom <;> simp [atomArgs, Node.varss, Node.vars, Node.children]

theorem toQuery_adds (h : Entries atom as) (yOf xOf : Name → Option Nat) (g : GenSt) :
    Adds atom.atomSyms atom.vars.length g.st (fun r => r.2.st) (toQuery yOf xOf atom as g) := by
  have := queryItems_adds yOf xOf _ g (flattenQuery_ordered h.nodes g.seen)
  unfold toQuery
  exact Adds.last (g := fun r : List Instr × GenSt => r.2.st) (this.mono h.query (Nat.le_trans h.vars (atomArgs_vars atom))) fun _ _ => Adds.pure rfl

theorem toProgram_adds (h : Entries atom as) (yOf : Name → Option Nat) (g : GenSt) :
    Adds atom.atomSyms atom.size g.st (fun r => r.2.st) (toProgram yOf atom as g) := by
  unfold toProgram
  exact Adds.last (g := fun r : List Instr × GenSt => r.2.st) ((programItems_adds yOf _ g).mono h.program h.kidsLength) fun _ _ => Adds.pure rfl

theorem compileQueryAtom_adds (yOf : Name → Option Nat) (pre fq atom) (g : GenSt) :
    Adds atom.atomSyms atom.vars.length g.st (fun r => r.2.st) (compileQueryAtom yOf pre fq atom g) :=
  Adds.last (toQuery_adds (assignSingle_entries atom) yOf _ g) fun _ _ => Adds.pure rfl

theorem compileQueryAtoms_adds (yOf : Name → Option Nat) (fq) : ∀ pre as (g : GenSt),
    Adds (querySyms as) (Node.varss as).length g.st (fun r => r.2.st) (compileQueryAtoms yOf pre fq as g)
  | _, [], g => Adds.pure rfl
  | pre, a :: as, g => by
    rw [compileQueryAtoms]
    refine (Adds.bind (compileQueryAtom_adds yOf pre fq a g) (F' := querySyms as) (k' := (Node.varss as).length) (g := fun r : List CAtom × GenSt => r.2.st) fun b _ => ?_).mono
      (fun _ => .rfl) (by rw [Node.varss, List.length_append])
    exact Adds.last (compileQueryAtoms_adds yOf fq [] as b.2) fun c _ => Adds.pure rfl

theorem compileQuery_adds (ord : HashOrder) (atoms st) : Adds (querySyms atoms) (Node.varss atoms).length st (fun r => r.2) (compileQuery ord atoms st) :=
  Adds.last (compileQueryAtoms_adds _ _ _ _ ⟨[], st⟩) fun _ _ => Adds.pure rfl

/-- How many entries the variables of a clause get at most. -/
def Clause.entries (c : Clause) : Nat := c.head.size + (Node.varss c.body).length

theorem compileClause_adds (ord : HashOrder) (bi : Bool) (c : Clause) (st) : Adds c.syms c.entries st (fun r => r.2.2) (compileClause ord bi c.head c.body st) := by
  obtain ⟨head, body⟩ := c
  unfold compileClause
  simp only []
  split
  · exact Adds.err
  · cases body with
    | nil =>
      refine Adds.mono (Adds.last (g := fun r : FV × Rule × Storage => r.2.2) (toProgram_adds (assignSingle_entries head) _ ⟨[], st⟩) fun _ _ => Adds.pure rfl) (fun x => ?_) (Nat.le_add_right _ _)
      simp [Clause.syms, querySyms]
    | cons b bs =>
      obtain ⟨e1, e2⟩ := assignPair_entries head b
      refine Adds.mono (Adds.bind (g := fun r : FV × Rule × Storage => r.2.2) (toProgram_adds e1 _ ⟨[], st⟩) fun a _ =>
        Adds.bind (toQuery_adds e2 _ _ { a.2 with seen := eraseStructRegs head _ a.2.seen }) fun b2 _ =>
        Adds.last (compileQueryAtoms_adds _ _ _ _ { b2.2 with seen := dropX b2.2.seen }) fun c _ => Adds.pure rfl) (fun x => ?_) ?_
      · simp [Clause.syms, querySyms]
      · simp [Clause.entries, Node.varss]

theorem compileProgram_adds (ord : HashOrder) : ∀ cs p st, Adds (cs.flatMap Clause.syms) (cs.map Clause.entries).sum st (fun r => r.2) (compileProgram ord cs p st)
  | [], p, st => Adds.pure rfl
  | c :: cs, p, st => by
    rw [compileProgram]
    exact Adds.bind (compileClause_adds ord false c st) fun a _ => compileProgram_adds ord cs _ _

end PBfs
