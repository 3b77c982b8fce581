import Verif.Proof.Memory
import Verif.Proof.Load
/-! # How much memory a search holds: the size of compiled code -/
namespace PBfs

mutual
theorem symbols_size : ∀ n : Node, n.symbols = n.size
  | .fn _ cs => by rw [Node.symbols, Node.size, symbolss_sizes cs]
  | .efn _ cs => by rw [Node.symbols, Node.size, symbolss_sizes cs]
  | .var _ | .cons _ | .int _ => by simp [Node.symbols, Node.size]
theorem symbolss_sizes : ∀ ns : List Node, Node.symbolss ns = Node.sizes ns
  | [] => rfl
  | c :: cs => by rw [Node.symbolss, Node.sizes, symbols_size c, symbolss_sizes cs]
end

theorem size_children (n : Node) : n.size = 1 + Node.sizes n.children := by
  cases n <;> simp [Node.size, Node.children, Node.sizes]

theorem sizes_mem : ∀ {cs : List Node} {c : Node}, c ∈ cs → c.size ≤ Node.sizes cs
  | x :: cs, c, h => by
    rw [Node.sizes]
    rcases List.mem_cons.1 h with rfl | h
    · omega
    · have := sizes_mem h
      omega

theorem length_sizes : ∀ (cs : List Node), cs.length ≤ Node.sizes cs
  | [] => by simp [Node.sizes]
  | c :: cs => by
    have := length_sizes cs
    have := size_children c
    rw [Node.sizes, List.length_cons]; omega

mutual
theorem vars_size : ∀ n : Node, n.vars.length ≤ n.size
  | .fn _ cs => by rw [Node.vars, Node.size]; have := varss_sizes cs; omega
  | .efn _ cs => by rw [Node.vars, Node.size]; have := varss_sizes cs; omega
  | .var _ | .cons _ | .int _ => by simp [Node.vars, Node.size]
theorem varss_sizes : ∀ ns : List Node, (Node.varss ns).length ≤ Node.sizes ns
  | [] => by simp [Node.varss]
  | c :: cs => by
    rw [Node.varss, Node.sizes, List.length_append]
    have := vars_size c
    have := varss_sizes cs
    omega
end

/-! ## Registers -/

theorem number_length : ∀ (cs : List Node) (k : Nat), (number k cs).length = cs.length
  | [], _ => rfl
  | _ :: cs, k => by simp [number, number_length cs]

theorem number_sizes : ∀ (cs : List Node) (k : Nat), ((number k cs).map (·.2.size)).sum = Node.sizes cs
  | [], _ => rfl
  | _ :: cs, k => by simp [number, Node.sizes, number_sizes cs]

theorem bfsLoop_weight : ∀ (n : Nat) (q : List (Nat × Node)) (next : Nat),
    ((bfsLoop n q next).map fun it => 1 + it.node.children.length).sum + q.length ≤ 2 * (q.map (·.2.size)).sum
  | 0, q, next => by
    have : ∀ q : List (Nat × Node), q.length ≤ (q.map (·.2.size)).sum := by
      intro q
      induction q with
      | nil => simp
      | cons x q ih =>
        have := size_children x.2
        simp only [List.length_cons, List.map_cons, List.sum_cons]; omega
    have := this q
    simp only [bfsLoop, List.map_nil, List.sum_nil]; omega
  | n + 1, [], next => by simp [bfsLoop]
  | n + 1, (i, nd) :: q, next => by
    have ih := bfsLoop_weight n (q ++ number next nd.children) (next + nd.children.length)
    have := size_children nd
    simp only [bfsLoop, List.map_cons, List.sum_cons, List.map_append, List.sum_append, List.length_append, number_length, number_sizes, List.length_cons] at ih ⊢
    omega

theorem atomArgs_sizes (a : Node) : Node.sizes (atomArgs a) ≤ a.size := by
  have := size_children a
  cases a <;> simp [atomArgs, Node.sizes, Node.size, Node.children] at this ⊢

theorem items_weight (a : Node) : ((items a).map fun it => 1 + it.node.children.length).sum + (atomArgs a).length ≤ 2 * a.size := by
  have := bfsLoop_weight (Node.sizes (atomArgs a)) (number 0 (atomArgs a)) (atomArgs a).length
  have h2 := atomArgs_sizes a
  rw [number_length, number_sizes] at this
  simp only [items]; omega

theorem assignItems_ctr (nargs : Nat) : ∀ (its : List Item) (st : RegSt), (assignItems nargs its st).2.ctr ≤ st.ctr + its.length
  | [], st => by simp [assignItems]
  | it :: rest, st => by
    unfold assignItems
    split
    · split
      · have := assignItems_ctr nargs rest st
        simp only [List.length_cons]; omega
      · rename_i v _ _ _
        have := assignItems_ctr nargs rest ⟨(v, st.ctr) :: st.varX, st.ctr + 1⟩
        simp only [List.length_cons] at this ⊢; omega
    · split
      · have := assignItems_ctr nargs rest st
        simp only [List.length_cons]; omega
      · have := assignItems_ctr nargs rest { st with ctr := st.ctr + 1 }
        simp only [List.length_cons] at this ⊢; omega

theorem kidsOf_length (xs : List Nat) : ∀ (cs : List Node) (s : Nat), (kidsOf xs s cs).length = cs.length
  | [], _ => rfl
  | _ :: cs, s => by simp [kidsOf, kidsOf_length xs cs]

/-- The instructions for a node and its children. -/
def costOf (as : List AItem) : Nat := (as.map fun a => 1 + a.kids.length).sum

theorem assignAtom_cost (varX : List (Name × Nat)) (a : Node) : costOf (assignAtom varX a).1 ≤ 2 * a.size ∧ (assignAtom varX a).2.ctr ≤ 2 * a.size := by
  have h1 := items_weight a
  have h2 := assignItems_ctr (atomArgs a).length (items a) ⟨varX, (atomArgs a).length⟩
  have h3 : (items a).length ≤ ((items a).map fun it => 1 + it.node.children.length).sum := by
    generalize items a = l
    induction l with
    | nil => simp
    | cons x l ih => simp only [List.map_cons, List.sum_cons, List.length_cons]; omega
  refine ⟨?_, ?_⟩
  · simp only [assignAtom, annotate, costOf, List.map_map, Function.comp_def, kidsOf_length]
    omega
  · simp only [assignAtom] at h2 ⊢
    omega

theorem assignSingle_cost (a : Node) : costOf (assignSingle a).1 ≤ 2 * a.size ∧ (assignSingle a).2.2 ≤ 2 * a.size :=
  assignAtom_cost [] a

theorem assignPair_cost (h b : Node) : costOf (assignPair h b).1.1 ≤ 2 * h.size ∧ costOf (assignPair h b).2.1.1 ≤ 2 * b.size ∧
    (assignPair h b).2.2 ≤ 2 * (h.size + b.size) + 1 := by
  have h1 := assignSingle_cost h
  have h2 := assignSingle_cost b
  unfold assignPair
  split
  · refine ⟨h1.1, h2.1, ?_⟩
    show 1 + (assignSingle h).2.2 ≤ _
    omega
  · split
    · refine ⟨h1.1, h2.1, ?_⟩
      show 1 + (assignSingle b).2.2 ≤ _
      omega
    · have h3 := assignAtom_cost [] h
      have h4 := assignAtom_cost (assignAtom [] h).2.varX b
      exact ⟨h3.1, h4.1, by simp only []; omega⟩

/-! ## Environments -/

theorem noteFirst_length (k : Nat) (v : Name) : ∀ (m : List VarInfo), (noteFirst k v m).length ≤ m.length + 1
  | [] => by simp [noteFirst]
  | i :: is => by
    have := noteFirst_length k v is
    unfold noteFirst
    split <;> simp only [List.length_cons] <;> omega

theorem noteLater_length (k : Nat) (v : Name) : ∀ (m : List VarInfo), (noteLater k v m).length ≤ m.length + 1
  | [] => by simp [noteLater]
  | i :: is => by
    have := noteLater_length k v is
    unfold noteLater
    split <;> simp only [List.length_cons] <;> omega

theorem foldl_length {f : List VarInfo → Name → List VarInfo} (hf : ∀ m v, (f m v).length ≤ m.length + 1) : ∀ (vs : List Name) (m : List VarInfo),
    (vs.foldl f m).length ≤ m.length + vs.length
  | [], m => by simp
  | v :: vs, m => by
    have := foldl_length hf vs (f m v)
    have := hf m v
    simp only [List.foldl_cons, List.length_cons]; omega

theorem childVars_le (a : Node) : (Node.varss a.children).length ≤ a.size := by
  have := varss_sizes a.children
  have := size_children a
  omega

theorem permLater_length : ∀ (as : List Node) (k : Nat) (m : List VarInfo), (permLater k as m).length ≤ m.length + Node.sizes as
  | [], _, m => by simp [permLater]
  | a :: as, k, m => by
    rw [permLater, Node.sizes]
    split
    · have := permLater_length as k m
      omega
    · have h1 := permLater_length as (k + 1) ((Node.varss a.children).foldl (fun m v => noteLater k v m) m)
      have h2 := foldl_length (f := fun m v => noteLater k v m) (fun m v => noteLater_length k v m) (Node.varss a.children) m
      have := childVars_le a
      omega

theorem permVarsRaw_length (prog : Bool) (atoms : List Node) : (permVarsRaw prog atoms).length ≤ Node.sizes atoms := by
  have ff : ∀ l : List VarInfo, ((l.filter (·.perm)).map (·.name)).length ≤ l.length := fun l => by
    rw [List.length_map]; exact List.length_filter_le _ _
  unfold permVarsRaw
  split
  · simp
  · simp
  · simp
  · rename_i a as _
    have h1 := permLater_length as 1 ((Node.varss a.children).foldl (fun m v => noteFirst 0 v m) [])
    have h2 := foldl_length (f := fun m v => noteFirst 0 v m) (fun m v => noteFirst_length 0 v m) (Node.varss a.children) []
    have h3 := childVars_le a
    have h4 := ff (permLater 1 as ((Node.varss a.children).foldl (fun m v => noteFirst 0 v m) []))
    rw [Node.sizes]
    simp only [List.length_nil] at h2
    simp only []
    omega
  · rename_i a b as _
    have h2 := foldl_length (f := fun m v => noteFirst 0 v m) (fun m v => noteFirst_length 0 v m) (Node.varss a.children) []
    have h3 := foldl_length (f := fun m v => noteFirst 1 v m) (fun m v => noteFirst_length 1 v m) (Node.varss b.children) ((Node.varss a.children).foldl (fun m v => noteFirst 0 v m) [])
    have h1 := permLater_length as (if b.isCons then 1 else 2) ((Node.varss b.children).foldl (fun m v => noteFirst 1 v m) ((Node.varss a.children).foldl (fun m v => noteFirst 0 v m) []))
    have h4 := childVars_le a
    have h5 := childVars_le b
    have h6 := ff (permLater (if b.isCons then 1 else 2) as ((Node.varss b.children).foldl (fun m v => noteFirst 1 v m) ((Node.varss a.children).foldl (fun m v => noteFirst 0 v m) [])))
    rw [Node.sizes, Node.sizes]
    simp only [List.length_nil] at h2
    simp only []
    omega

theorem permVars_length {ord : HashOrder} (ho : ord.OK) (prog : Bool) (atoms : List Node) : (permVars ord prog atoms).length ≤ Node.sizes atoms := by
  rw [permVars, (ho _).length_eq]; exact permVarsRaw_length prog atoms

/-! ## Instructions -/

/-- At most `w` instructions, without environments. -/
def Short (w : Nat) (is : List Instr) : Prop := is.length ≤ w ∧ madeEnvs is = 0

theorem Short.append {w w' is is'} (h : Short w is) (h' : Short w' is') : Short (w + w') (is ++ is') :=
  ⟨by rw [List.length_append]; exact Nat.add_le_add h.1 h'.1, by rw [madeEnvs_append, h.2, h'.2]⟩

theorem Short.mono {w w' is} (h : Short w is) (hw : w ≤ w') : Short w' is := ⟨Nat.le_trans h.1 hw, h.2⟩

theorem Short.one {i : Instr} {is w} (hi : madeEnvs [i] = 0) (h : Short w is) : Short (1 + w) (i :: is) :=
  Short.append (is := [i]) ⟨Nat.le_refl _, hi⟩ h

theorem queryKid_short {yOf c x g i g'} (h : queryKid yOf c x g = .ok (i, g')) : madeEnvs [i] = 0 := by
  unfold queryKid at h
  simp only [] at h
  repeat' split at h
  all_goals first
    | (simp only [pure_ok, Prod.mk.injEq] at h; rw [← h.1]; rfl)
    | (simp only [bind_ok, pure_ok, Prod.mk.injEq] at h; obtain ⟨_, _, h, _⟩ := h; rw [← h]; rfl)

theorem queryKids_short {yOf} : ∀ {ks : List (Node × Nat)} {g is g'}, queryKids yOf ks g = .ok (is, g') → Short ks.length is
  | [], g, is, g', h => by
    simp only [queryKids, pure_ok, Prod.mk.injEq] at h
    rw [← h.1]; exact ⟨Nat.le_refl _, rfl⟩
  | (c, x) :: ks, g, is, g', h => by
    simp only [queryKids, bind_ok, pure_ok, Prod.mk.injEq] at h
    obtain ⟨⟨i, g1⟩, h1, ⟨js, g2⟩, h2, rfl, _⟩ := h
    exact (Short.one (queryKid_short h1) (queryKids_short h2)).mono (by simp; omega)

theorem queryItem_short {yOf xOf a g is g'} (h : queryItem yOf xOf a g = .ok (is, g')) : Short (1 + a.kids.length) is := by
  unfold queryItem at h
  simp only [] at h
  repeat' split at h
  all_goals first
    | (simp only [pure_ok, Prod.mk.injEq] at h; rw [← h.1]; exact ⟨by simp, rfl⟩)
    | (simp only [bind_ok, pure_ok, Prod.mk.injEq] at h
       obtain ⟨_, _, ⟨js, g2⟩, h2, rfl, _⟩ := h
       exact Short.one rfl (queryKids_short h2))
    | cases h

theorem queryItems_short {yOf xOf} : ∀ {as : List AItem} {g is g'}, queryItems yOf xOf as g = .ok (is, g') → Short (costOf as) is
  | [], g, is, g', h => by
    simp only [queryItems, pure_ok, Prod.mk.injEq] at h
    rw [← h.1]; exact ⟨Nat.zero_le _, rfl⟩
  | a :: as, g, is, g', h => by
    simp only [queryItems, bind_ok, pure_ok, Prod.mk.injEq] at h
    obtain ⟨⟨i, g1⟩, h1, ⟨js, g2⟩, h2, rfl, _⟩ := h
    exact (queryItem_short h1).append (queryItems_short h2)

theorem cost_program (n : Nat) : ∀ (as : List AItem), costOf (flattenProgram n as) ≤ costOf as
  | [] => Nat.le_refl _
  | a :: as => by
    have := cost_program n as
    simp only [flattenProgram, List.filter_cons, costOf] at this ⊢
    split <;> simp only [List.map_cons, List.sum_cons] <;> omega

theorem cost_query (n : Nat) (as : List AItem) : costOf (flattenQuery n as) ≤ costOf as := by
  have h := cost_program n as
  have : costOf (flattenQuery n as) = costOf (flattenProgram n as) := by
    simp only [flattenQuery, costOf, List.map_append, List.sum_append, List.map_reverse, List.sum_reverse]
    rw [Nat.add_comm, ← List.sum_append, ← List.map_append, List.take_append_drop]
  omega

theorem toQuery_short {yOf xOf atom as g is g'} (h : toQuery yOf xOf atom as g = .ok (is, g')) : Short (costOf as + 1) is := by
  simp only [toQuery, bind_ok, pure_ok, Prod.mk.injEq] at h
  obtain ⟨⟨js, g1⟩, h1, rfl, _⟩ := h
  exact ((queryItems_short h1).mono (cost_query _ _)).append ⟨Nat.le_refl _, rfl⟩

theorem programKid_short {yOf c x g i g'} (h : programKid yOf c x g = .ok (i, g')) : madeEnvs [i] = 0 := by
  unfold programKid at h
  simp only [] at h
  repeat' split at h
  all_goals first
    | (simp only [pure_ok, Prod.mk.injEq] at h; rw [← h.1]; rfl)
    | (simp only [bind_ok, pure_ok, Prod.mk.injEq] at h; obtain ⟨_, _, h, _⟩ := h; rw [← h]; rfl)

theorem programKids_short {yOf} : ∀ {ks : List (Node × Nat)} {g is g'}, programKids yOf ks g = .ok (is, g') → Short ks.length is
  | [], g, is, g', h => by
    simp only [programKids, pure_ok, Prod.mk.injEq] at h
    rw [← h.1]; exact ⟨Nat.le_refl _, rfl⟩
  | (c, x) :: ks, g, is, g', h => by
    simp only [programKids, bind_ok, pure_ok, Prod.mk.injEq] at h
    obtain ⟨⟨i, g1⟩, h1, ⟨js, g2⟩, h2, rfl, _⟩ := h
    exact (Short.one (programKid_short h1) (programKids_short h2)).mono (by simp; omega)

theorem programItem_short {yOf a g is g'} (h : programItem yOf a g = .ok (is, g')) : Short (1 + a.kids.length) is := by
  unfold programItem at h
  simp only [] at h
  repeat' split at h
  all_goals first
    | (simp only [pure_ok, Prod.mk.injEq] at h; rw [← h.1]; exact ⟨by simp, rfl⟩)
    | (simp only [bind_ok, pure_ok, Prod.mk.injEq] at h
       obtain ⟨_, _, ⟨js, g2⟩, h2, rfl, _⟩ := h
       exact Short.one rfl (programKids_short h2))

theorem programItems_short {yOf} : ∀ {as : List AItem} {g is g'}, programItems yOf as g = .ok (is, g') → Short (costOf as) is
  | [], g, is, g', h => by
    simp only [programItems, pure_ok, Prod.mk.injEq] at h
    rw [← h.1]; exact ⟨Nat.zero_le _, rfl⟩
  | a :: as, g, is, g', h => by
    simp only [programItems, bind_ok, pure_ok, Prod.mk.injEq] at h
    obtain ⟨⟨i, g1⟩, h1, ⟨js, g2⟩, h2, rfl, _⟩ := h
    exact (programItem_short h1).append (programItems_short h2)

theorem toProgram_short {yOf atom as g is g'} (h : toProgram yOf atom as g = .ok (is, g')) : Short (costOf as + 1) is := by
  simp only [toProgram, bind_ok, pure_ok, Prod.mk.injEq] at h
  obtain ⟨⟨js, g1⟩, h1, rfl, _⟩ := h
  exact ((programItems_short h1).mono (cost_program _ _)).append ⟨Nat.le_refl _, rfl⟩

/-! ## Clauses and queries -/

theorem alloc_within {n w is} (h : Short w is) : (allocInstrs n ++ is).length ≤ w + 1 ∧ madeEnvs (allocInstrs n ++ is) ≤ n + 1 := by
  rw [List.length_append, madeEnvs_append, h.2]
  have := h.1
  unfold allocInstrs
  split <;> simp [madeEnvs] <;> omega

theorem queryAtoms_within {b T yOf pre fq} (hp : pre.length ≤ 1) (he : madeEnvs pre ≤ T + 1) : ∀ {as : List Node} {g cs g'},
    Node.sizes as ≤ T → compileQueryAtoms yOf pre fq as g = .ok (cs, g') → cs.length = as.length ∧ ∀ a ∈ cs, a.Within (textSizes b T) := by
  intro as
  induction as generalizing pre with
  | nil =>
    intro g cs g' _ h
    simp only [compileQueryAtoms, pure_ok, Prod.mk.injEq] at h
    rw [← h.1]; exact ⟨rfl, by simp⟩
  | cons a as ih =>
    intro g cs g' hs h
    rw [Node.sizes] at hs
    simp only [compileQueryAtoms, bind_ok, pure_ok, Prod.mk.injEq] at h
    obtain ⟨⟨c, g1⟩, h1, ⟨cs', g2⟩, h2, rfl, _⟩ := h
    obtain ⟨k1, k2⟩ := ih (pre := []) (by simp) (by simp [madeEnvs]) (by omega) h2
    refine ⟨by simp [k1], fun x hx => ?_⟩
    rcases List.mem_cons.1 hx with rfl | hx
    · simp only [compileQueryAtom, bind_ok, pure_ok, Prod.mk.injEq] at h1
      obtain ⟨⟨is, g3⟩, h3, rfl, _⟩ := h1
      have hc := assignSingle_cost a
      have hi := toQuery_short h3
      refine ⟨?_, ?_, ?_⟩
      · have := hi.1
        simp only [textSizes, List.length_append]; omega
      · show (assignSingle a).2.2 ≤ 2 * T + 1
        omega
      · simp only [textSizes, madeEnvs_append, hi.2]; omega
    · exact k2 x hx

theorem dealloc_within {b T n} : ∀ a ∈ deallocAtoms n, a.Within (textSizes b T) := by
  intro a ha
  unfold deallocAtoms at ha
  split at ha
  · cases ha
  · simp only [List.mem_singleton] at ha
    subst ha
    simp [CAtom.Within, deallocAtom, textSizes, madeEnvs]

theorem dealloc_length (n : Nat) : (deallocAtoms n).length ≤ 1 := by unfold deallocAtoms; split <;> simp

theorem clause_within {b T ord bi head body st f r st'} (ho : HashOrder.OK ord) (hs : Node.sizes (head :: body) ≤ T)
    (h : compileClause ord bi head body st = .ok (f, r, st')) : ruleWithin (textSizes b T) r := by
  have hv := permVars_length ho true (head :: body)
  have hd := dealloc_length (permVars ord true (head :: body)).length
  have hl := length_sizes body
  have hh := size_children head
  rw [Node.sizes] at hs hv
  unfold compileClause at h
  simp only [] at h
  split at h
  · cases h
  cases body with
  | nil =>
    simp only [bind_ok, pure_ok, Prod.mk.injEq] at h
    obtain ⟨⟨is, g⟩, h1, _, rfl, _⟩ := h
    have hc := assignSingle_cost head
    have hi0 : Short (costOf (assignSingle head).1 + 1) is := toProgram_short h1
    have hi := alloc_within (n := (permVars ord true [head]).length) hi0
    refine ⟨by simp [textSizes] at hd ⊢; omega, fun a ha => ?_⟩
    rcases List.mem_append.1 ha with ha | ha
    · simp only [List.mem_singleton] at ha
      subst ha
      refine ⟨by simp only [textSizes]; omega, ?_, by simp only [textSizes]; omega⟩
      show (assignSingle head).2.2 ≤ 2 * T + 1
      omega
    · exact dealloc_within a ha
  | cons b0 bs =>
    simp only [bind_ok, pure_ok, Prod.mk.injEq] at h
    obtain ⟨⟨is, g⟩, h1, ⟨js, g2⟩, h2, ⟨cs, g3⟩, h3, _, rfl, _⟩ := h
    rw [Node.sizes] at hs hv hl
    obtain ⟨c1, c2, c3⟩ := assignPair_cost head b0
    have hi0 : Short (costOf (assignPair head b0).1.1 + 1) is := toProgram_short h1
    have hi := alloc_within (n := (permVars ord true (head :: b0 :: bs)).length) hi0
    have hj : Short (costOf (assignPair head b0).2.1.1 + 1) js := toQuery_short h2
    have hn : (assignPair head b0).2.2 ≤ 2 * T + 1 := by omega
    obtain ⟨k1, k2⟩ := queryAtoms_within (b := b) (T := T) (pre := []) (by simp) (by simp [madeEnvs]) (by omega) h3
    refine ⟨by simp [textSizes, k1] at hd hl ⊢; omega, fun a ha => ?_⟩
    rcases List.mem_append.1 ha with ha | ha
    · rcases List.mem_append.1 ha with ha | ha
      · simp only [List.mem_cons, List.not_mem_nil, or_false] at ha
        rcases ha with rfl | rfl
        · exact ⟨by simp only [textSizes]; omega, hn, by simp only [textSizes]; omega⟩
        · have := hj.1
          exact ⟨by simp only [textSizes]; omega, hn, by simp only [textSizes, hj.2]; omega⟩
      · exact k2 a ha
    · exact dealloc_within a ha

theorem query_within {b T ord atoms st r st'} (ho : HashOrder.OK ord) (hs : Node.sizes atoms ≤ T)
    (h : compileQuery ord atoms st = .ok (r, st')) : ruleWithin (textSizes b T) r := by
  have hv := permVars_length ho false atoms
  simp only [compileQuery, bind_ok, pure_ok, Prod.mk.injEq] at h
  obtain ⟨⟨cs, g⟩, h1, rfl, _⟩ := h
  have ha := alloc_within (n := (permVars ord false atoms).length) (w := 0) (is := []) ⟨Nat.le_refl _, rfl⟩
  simp only [List.append_nil] at ha
  obtain ⟨k1, k2⟩ := queryAtoms_within (b := b) (T := T) (by omega) (by omega) hs h1
  refine ⟨?_, k2⟩
  have := length_sizes atoms
  simp only [textSizes, k1]; omega

end PBfs
