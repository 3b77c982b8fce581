import Verif.Props.Load
import Verif.Spec.Defined
import Verif.Proof.Untangled
/-! # Variables in arithmetic expressions: what the compiler accepts -/
namespace PBfs

/-- The variable is in a register that counts as seen. -/
def placed (yOf xOf : Name → Option Nat) (seen : List SReg) (v : Name) : Prop :=
  match yOf v with
  | some y => SReg.y y ∈ seen
  | none => ∃ x, xOf v = some x ∧ SReg.x x ∈ seen

theorem placed.mono {yOf xOf seen seen' v} (h : placed yOf xOf seen v) (hs : ∀ r, r ∈ seen → r ∈ seen') : placed yOf xOf seen' v := by
  unfold placed at *
  split
  · rename_i y hy; rw [hy] at h; exact hs _ h
  · rename_i hy; rw [hy] at h
    obtain ⟨x, h1, h2⟩ := h
    exact ⟨x, h1, hs _ h2⟩

theorem definedVars_iff {yOf xOf g cs} : definedVars yOf xOf g cs = true ↔ ∀ v ∈ Node.varss cs, placed yOf xOf g.seen v := by
  unfold definedVars
  rw [List.all_eq_true]
  refine forall_congr' fun v => forall_congr' fun _ => ?_
  unfold placed
  cases hy : yOf v with
  | some y => simp [GenSt.has]
  | none =>
    cases hx : xOf v with
    | none => simp
    | some x => simp [GenSt.has]

/-! ## Which registers are seen afterwards -/

/-- The register that is seen after a child has been written. -/
def kidReg (yOf : Name → Option Nat) (c : Node) (x : Nat) : Option SReg :=
  match c with
  | .int _ => none
  | .cons _ => none
  | .var n => match yOf n with
    | some y => some (.y y)
    | none => some (.x x)
  | _ => some (.x x)

theorem queryKid_marks {yOf c x g i g'} (h : queryKid yOf c x g = .ok (i, g')) (r : SReg) :
    r ∈ g'.seen ↔ r ∈ g.seen ∨ kidReg yOf c x = some r := by
  have hx : ∀ {i g'}, (if g.has (.x x) then Pure.pure (Instr.setValue x, g)
    else
      let g := g.mark (.x x)
      let (v, st) := g.st.pushBackVar c.name
      Pure.pure (.setVariable x v, { g with st := st }) : CR (Instr × GenSt)) = .ok (i, g') →
      (r ∈ g'.seen ↔ r ∈ g.seen ∨ SReg.x x = r) := by
    intro i g' h
    split at h
    · rename_i hh
      cases h
      simp only [GenSt.has, List.contains_iff_mem] at hh
      constructor
      · exact .inl
      · rintro (h | rfl)
        · exact h
        · exact hh
    · cases h
      simp only [GenSt.mark, List.mem_cons]
      constructor
      · rintro (h | h)
        · exact .inr h.symm
        · exact .inl h
      · rintro (h | h)
        · exact .inr h
        · exact .inl h.symm
  unfold queryKid at h
  cases c with
  | int v =>
    simp only [bind_ok, pure_ok] at h
    obtain ⟨⟨a, b⟩, h1, h2⟩ := h
    cases h2
    simp [kidReg, structCell_seen h1]
  | cons v =>
    simp only [bind_ok, pure_ok] at h
    obtain ⟨⟨a, b⟩, h1, h2⟩ := h
    cases h2
    simp [kidReg, structCell_seen h1]
  | var n =>
    simp only [kidReg] at h ⊢
    cases hy : yOf n with
    | none =>
      rw [hy] at h
      simp only [Option.some.injEq]
      exact hx h
    | some y =>
      simp only [hy, Option.some.injEq] at h ⊢
      split at h
      · rename_i hh
        cases h
        simp only [GenSt.has, List.contains_iff_mem] at hh
        constructor
        · exact .inl
        · rintro (h | rfl)
          · exact h
          · exact hh
      · cases h
        simp only [GenSt.mark, List.mem_cons]
        constructor
        · rintro (h | h)
          · exact .inr h.symm
          · exact .inl h
        · rintro (h | h)
          · exact .inr h
          · exact .inl h.symm
  | fn f cs =>
    simp only [kidReg, Option.some.injEq]
    exact hx h
  | efn f cs =>
    simp only [kidReg, Option.some.injEq]
    exact hx h

theorem queryKids_marks {yOf ks g is g'} (h : queryKids yOf ks g = .ok (is, g')) (r : SReg) :
    r ∈ g'.seen ↔ r ∈ g.seen ∨ ∃ k ∈ ks, kidReg yOf k.1 k.2 = some r := by
  induction ks generalizing g is g' with
  | nil => cases h; simp
  | cons k ks ih =>
    simp only [queryKids, bind_ok, pure_ok] at h
    obtain ⟨⟨i, g1⟩, h1, ⟨js, g2⟩, h2, h3⟩ := h
    cases h3
    rw [ih h2, queryKid_marks h1]
    simp [or_assoc]

/-- The registers that are seen after a node has been written. -/
def itemMarks (yOf : Name → Option Nat) (a : AItem) (r : SReg) : Prop :=
  (a.node.isVar = true ∧ kidReg yOf a.node a.x = some r) ∨
  (a.node.isVar = false ∧ (r = .x a.x ∨ ∃ k ∈ a.kids, kidReg yOf k.1 k.2 = some r))

theorem queryItem_marks {yOf xOf a g is g'} (h : queryItem yOf xOf a g = .ok (is, g')) (r : SReg) :
    r ∈ g'.seen ↔ r ∈ g.seen ∨ itemMarks yOf a r := by
  have hs : ∀ {n : Node} {g1 : GenSt} {is g'}, g1 = g.mark (.x a.x) → (do
      let (cell, g) ← structCell n g1
      let (is, g) ← queryKids yOf a.kids g
      pure (Instr.putStructure cell a.x :: is, g) : CR (List Instr × GenSt)) = .ok (is, g') →
      (r ∈ g'.seen ↔ r ∈ g.seen ∨ (r = .x a.x ∨ ∃ k ∈ a.kids, kidReg yOf k.1 k.2 = some r)) := by
    intro n g1 is g' hg h
    simp only [bind_ok, pure_ok] at h
    obtain ⟨⟨c, g2⟩, h1, ⟨js, g3⟩, h2, h3⟩ := h
    cases h3
    rw [queryKids_marks h2, structCell_seen h1, hg]
    simp only [GenSt.mark, List.mem_cons]
    constructor
    · rintro ((h | h) | h)
      · exact .inr (.inl h)
      · exact .inl h
      · exact .inr (.inr h)
    · rintro (h | h | h)
      · exact .inl (.inr h)
      · exact .inl (.inl h)
      · exact .inr h
  unfold queryItem at h
  cases hn : a.node with
  | var n =>
    simp only [hn] at h
    have him : itemMarks yOf a r ↔ kidReg yOf (.var n) a.x = some r := by simp [itemMarks, hn, Node.isVar]
    rw [him]
    simp only [kidReg]
    cases hy : yOf n with
    | some y =>
      simp only [hy, Option.some.injEq] at h ⊢
      split at h
      · rename_i hh
        cases h
        simp only [GenSt.has, List.contains_iff_mem] at hh
        constructor
        · exact .inl
        · rintro (h | rfl)
          · exact h
          · exact hh
      · cases h
        simp only [GenSt.mark, List.mem_cons]
        constructor
        · rintro (h | h)
          · exact .inr h.symm
          · exact .inl h
        · rintro (h | h)
          · exact .inr h
          · exact .inl h.symm
    | none =>
      simp only [hy, Option.some.injEq] at h ⊢
      split at h
      · rename_i hh
        cases h
        simp only [GenSt.has, List.contains_iff_mem] at hh
        constructor
        · exact .inl
        · rintro (h | rfl)
          · exact h
          · exact hh
      · cases h
        simp only [GenSt.mark, List.mem_cons]
        constructor
        · rintro (h | h)
          · exact .inr h.symm
          · exact .inl h
        · rintro (h | h)
          · exact .inr h
          · exact .inl h.symm
  | int n =>
    simp only [hn] at h
    have := hs rfl h
    simpa [itemMarks, hn, Node.isVar] using this
  | cons n =>
    simp only [hn] at h
    have := hs rfl h
    simpa [itemMarks, hn, Node.isVar] using this
  | fn n cs =>
    simp only [hn] at h
    have := hs rfl h
    simpa [itemMarks, hn, Node.isVar] using this
  | efn n cs =>
    simp only [hn] at h
    split at h
    · have := hs rfl h
      simpa [itemMarks, hn, Node.isVar] using this
    · cases h

/-! ## Which errors are possible -/

/-- No error but a number or an operator out of range. -/
def Only {α} (m : CR α) : Prop := ∀ e st, m = .error (e, st) → e = .outOfRange

theorem Only.pure {α} (a : α) : Only (Pure.pure a : CR α) := fun e st h => by cases h

theorem Only.bind {α β} {m : CR α} {k : α → CR β} (h : Only m) (hk : ∀ a, m = .ok a → Only (k a)) : Only (m >>= k) := by
  intro e st he
  cases m with
  | error e' =>
    rw [error_bind] at he
    cases he
    exact h e st rfl
  | ok a => exact hk a rfl e st he

theorem Only.ok {α} {m : CR α} (h : Only m) (h' : NoEsc m) : ∃ a, m = .ok a := by
  cases m with
  | ok a => exact ⟨a, rfl⟩
  | error e =>
    obtain ⟨e, st⟩ := e
    have := h e st rfl
    subst this
    exact absurd rfl (h' st)

theorem structCell_only {n g} : Only (structCell n g) := by
  intro e st h
  unfold structCell at h
  split at h
  · unfold stoi at h
    split at h
    · cases h
    · cases h; rfl
  · cases h
  · cases h
  · split at h
    · cases h
    · cases h; rfl
  · cases h; rfl

theorem queryKid_only {yOf c x g} : Only (queryKid yOf c x g) := by
  have hx : Only (if g.has (.x x) then Pure.pure (Instr.setValue x, g)
    else
      let g := g.mark (.x x)
      let (v, st) := g.st.pushBackVar c.name
      Pure.pure (.setVariable x v, { g with st := st }) : CR (Instr × GenSt)) := by
    split <;> exact .pure _
  unfold queryKid
  cases c with
  | int v => exact structCell_only.bind fun _ _ => .pure _
  | cons v => exact structCell_only.bind fun _ _ => .pure _
  | var n =>
    simp only
    split
    · split <;> exact .pure _
    · exact hx
  | fn => exact hx
  | efn => exact hx

theorem queryKids_only {yOf ks g} : Only (queryKids yOf ks g) := by
  induction ks generalizing g with
  | nil => exact .pure _
  | cons k ks ih => exact queryKid_only.bind fun _ _ => ih.bind fun _ _ => .pure _

theorem queryItem_only {yOf xOf a g} (h : ∀ f cs, a.node = .efn f cs → definedVars yOf xOf (g.mark (.x a.x)) cs = true) :
    Only (queryItem yOf xOf a g) := by
  unfold queryItem
  split
  · split
    · split <;> exact .pure _
    · split <;> exact .pure _
  · rename_i hn
    simp only
    rw [if_pos (h _ _ hn)]
    exact structCell_only.bind fun _ _ => queryKids_only.bind fun _ _ => .pure _
  · exact structCell_only.bind fun _ _ => queryKids_only.bind fun _ _ => .pure _

theorem queryItem_defined {yOf xOf a g r} (h : queryItem yOf xOf a g = .ok r) {f cs} (hn : a.node = .efn f cs) :
    definedVars yOf xOf (g.mark (.x a.x)) cs = true := by
  unfold queryItem at h
  simp only [hn] at h
  split at h
  · assumption
  · cases h

theorem programKid_only {yOf c x g} : Only (programKid yOf c x g) := by
  unfold programKid
  split
  · exact structCell_only.bind fun _ _ => .pure _
  · exact structCell_only.bind fun _ _ => .pure _
  · simp only
    split
    · split <;> exact .pure _
    · split <;> exact .pure _

theorem programKids_only {yOf ks g} : Only (programKids yOf ks g) := by
  induction ks generalizing g with
  | nil => exact .pure _
  | cons k ks ih => exact programKid_only.bind fun _ _ => ih.bind fun _ _ => .pure _

theorem programItem_only {yOf a g} : Only (programItem yOf a g) := by
  unfold programItem
  split
  · split
    · split <;> exact .pure _
    · simp only
      split <;> exact .pure _
  · exact structCell_only.bind fun _ _ => programKids_only.bind fun _ _ => .pure _

theorem programItems_only {yOf as g} : Only (programItems yOf as g) := by
  induction as generalizing g with
  | nil => exact .pure _
  | cons k ks ih => exact programItem_only.bind fun _ _ => ih.bind fun _ _ => .pure _

theorem toProgram_only {yOf atom as g} : Only (toProgram yOf atom as g) := programItems_only.bind fun _ _ => .pure _

/-- Without numbers out of range, the only error in a goal is the undefined variable. -/
def OnlyUndefined {α} (m : CR α) : Prop := ∀ e st, m = .error (e, st) → e = .outOfRange ∨ e = .undefinedVar

theorem Only.undefined {α} {m : CR α} (h : Only m) : OnlyUndefined m := fun e st he => .inl (h e st he)

theorem OnlyUndefined.bind {α β} {m : CR α} {k : α → CR β} (h : OnlyUndefined m) (hk : ∀ a, OnlyUndefined (k a)) : OnlyUndefined (m >>= k) := by
  intro e st he
  cases m with
  | error e' =>
    rw [error_bind] at he
    cases he
    exact h e st rfl
  | ok a => exact hk a e st he

theorem queryItem_onlyUndefined {yOf xOf a g} : OnlyUndefined (queryItem yOf xOf a g) := by
  by_cases h : ∀ f cs, a.node = .efn f cs → definedVars yOf xOf (g.mark (.x a.x)) cs = true
  · exact (queryItem_only h).undefined
  · simp only [not_forall] at h
    obtain ⟨f, cs, hn, hd⟩ := h
    intro e st he
    unfold queryItem at he
    simp only [hn] at he
    rw [if_neg hd] at he
    cases he
    exact .inr rfl

theorem queryItems_onlyUndefined {yOf xOf as g} : OnlyUndefined (queryItems yOf xOf as g) := by
  induction as generalizing g with
  | nil => exact (Only.pure _).undefined
  | cons k ks ih => exact queryItem_onlyUndefined.bind fun _ => ih.bind fun _ => (Only.pure _).undefined

theorem toQuery_onlyUndefined {yOf xOf atom as g} : OnlyUndefined (toQuery yOf xOf atom as g) :=
  queryItems_onlyUndefined.bind fun _ => (Only.pure _).undefined

theorem compileQueryAtoms_onlyUndefined {yOf pre fq as g} : OnlyUndefined (compileQueryAtoms yOf pre fq as g) := by
  induction as generalizing pre g with
  | nil => exact (Only.pure _).undefined
  | cons a as ih =>
    refine OnlyUndefined.bind ?_ fun _ => ih.bind fun _ => (Only.pure _).undefined
    exact toQuery_onlyUndefined.bind fun _ => (Only.pure _).undefined

/-! ## Step by step -/

theorem Node.mem_ownVar {n : Node} {v} : v ∈ n.ownVar ↔ n = .var v := by
  cases n <;> simp [Node.ownVar, eq_comm]

theorem Node.mem_direct {n : Node} {v} : v ∈ n.direct ↔ n = .var v ∨ Node.var v ∈ n.children := by
  simp [Node.direct, Node.mem_ownVar]

/-- What is needed of the registers of a goal.  `V`: the variables of the goal; `K0`: variables that had registers before. -/
structure Placing (yOf xOf : Name → Option Nat) (V K0 : Name → Prop) (as : List AItem) : Prop where
  yinj : ∀ n m y, yOf n = some y → yOf m = some y → n = m
  kids : ∀ a ∈ as, a.kids.map (·.1) = a.node.children
  var : ∀ a ∈ as, ∀ v, a.node = .var v → xOf v = some a.x
  kid : ∀ a ∈ as, ∀ v x, (Node.var v, x) ∈ a.kids → xOf v = some x
  below : ∀ a ∈ as, ∀ v ∈ a.node.vars, V v
  inj : ∀ v w r, ¬ K0 v → ¬ K0 w → xOf v = some r → xOf w = some r → v = w
  sreg : ∀ a ∈ as, a.node.isVar = false → ∀ v, ¬ K0 v → xOf v ≠ some a.x
  kreg : ∀ a ∈ as, ∀ c x, (c, x) ∈ a.kids → c.isVar = false → ∀ v, ¬ K0 v → xOf v ≠ some x

theorem Placing.sub {yOf xOf V K0 as bs} (P : Placing yOf xOf V K0 as) (h : ∀ a ∈ bs, a ∈ as) : Placing yOf xOf V K0 bs :=
  ⟨P.yinj, fun a ha => P.kids a (h a ha), fun a ha => P.var a (h a ha), fun a ha => P.kid a (h a ha), fun a ha => P.below a (h a ha),
    P.inj, fun a ha => P.sreg a (h a ha), fun a ha => P.kreg a (h a ha)⟩

theorem Node.direct_vars {n : Node} {v} (h : v ∈ n.direct) : v ∈ n.vars := by
  rcases Node.mem_direct.1 h with rfl | h
  · simp [Node.vars]
  · exact Node.mem_vars_child h (by simp [Node.vars])

section
variable {yOf xOf : Name → Option Nat} {V K0 : Name → Prop}

theorem placed_of_kidReg {v x seen} (hx : xOf v = some x) (h : ∀ r, kidReg yOf (.var v) x = some r → r ∈ seen) : placed yOf xOf seen v := by
  unfold placed
  simp only [kidReg] at h
  cases hy : yOf v with
  | some y => rw [hy] at h; exact h _ rfl
  | none => rw [hy] at h; exact ⟨x, hx, h _ rfl⟩

theorem queryItem_places {as a g is g'} (P : Placing yOf xOf V K0 as) (ha : a ∈ as) (h : queryItem yOf xOf a g = .ok (is, g')) {v}
    (hv : v ∈ a.node.direct) : placed yOf xOf g'.seen v := by
  rcases Node.mem_direct.1 hv with hn | hc
  · refine placed_of_kidReg (P.var a ha v hn) fun r hr => ?_
    rw [queryItem_marks h]
    exact .inr (.inl ⟨by rw [hn]; rfl, by rw [hn]; exact hr⟩)
  · rw [← P.kids a ha] at hc
    obtain ⟨⟨c, x⟩, hm, rfl⟩ := List.mem_map.1 hc
    refine placed_of_kidReg (P.kid a ha v x hm) fun r hr => ?_
    rw [queryItem_marks h]
    refine .inr (.inr ⟨?_, .inr ⟨_, hm, hr⟩⟩)
    cases hn : a.node with
    | var w =>
      have := P.kids a ha
      rw [hn] at this
      simp only [Node.children, List.map_eq_nil_iff] at this
      rw [this] at hm; cases hm
    | _ => rfl

/-- Only the variables that stand directly in the node are placed. -/
theorem queryItem_only_places {as a g is g'} (P : Placing yOf xOf V K0 as) (ha : a ∈ as) (h : queryItem yOf xOf a g = .ok (is, g'))
    (hK0 : ∀ n, K0 n → V n → placed yOf xOf g.seen n) {v} (hV : V v) (hp : placed yOf xOf g'.seen v) :
    placed yOf xOf g.seen v ∨ v ∈ a.node.direct := by
  by_cases hk : K0 v
  · exact .inl (hK0 v hk hV)
  -- a variable register
  have hvar : ∀ n x, xOf n = some x → V n → n ∈ a.node.direct → (∀ r, kidReg yOf (.var n) x = some r →
      (∃ y, yOf v = some y ∧ r = .y y) ∨ (∃ z, yOf v = none ∧ xOf v = some z ∧ r = .x z) → placed yOf xOf g.seen v ∨ v ∈ a.node.direct) := by
    intro n x hx hn hd r hr hrv
    simp only [kidReg] at hr
    rcases hrv with ⟨y, h1, rfl⟩ | ⟨z, h1, h2, rfl⟩
    · cases hy : yOf n with
      | some y' =>
        rw [hy] at hr; cases hr
        rw [P.yinj v n y h1 hy]; exact .inr hd
      | none => rw [hy] at hr; cases hr
    · cases hy : yOf n with
      | some y' => rw [hy] at hr; cases hr
      | none =>
        rw [hy] at hr; cases hr
        by_cases hkn : K0 n
        · have := hK0 n hkn hn
          unfold placed at this
          rw [hy] at this
          obtain ⟨x', g1, g2⟩ := this
          rw [hx] at g1; cases g1
          refine .inl ?_
          unfold placed
          rw [h1]
          exact ⟨x, h2, g2⟩
        · rw [P.inj v n x hk hkn h2 hx]; exact .inr hd
  have hmark : ∀ r, itemMarks yOf a r → (∃ y, yOf v = some y ∧ r = .y y) ∨ (∃ z, yOf v = none ∧ xOf v = some z ∧ r = .x z) →
      placed yOf xOf g.seen v ∨ v ∈ a.node.direct := by
    intro r hr hrv
    have notx : ∀ {z}, r = .x z → (∀ v, ¬ K0 v → xOf v ≠ some z) → False := by
      intro z h1 h2
      rcases hrv with ⟨y, g1, rfl⟩ | ⟨z', g1, g2, rfl⟩
      · cases h1
      · cases h1; exact h2 v hk g2
    rcases hr with ⟨h1, h2⟩ | ⟨h1, rfl | ⟨⟨c, x⟩, hm, h2⟩⟩
    · cases hn : a.node with
      | var n =>
        rw [hn] at h2
        have := hvar n a.x (P.var a ha n hn) (P.below a ha n (by rw [hn]; simp [Node.vars])) (Node.mem_direct.2 (.inl hn)) r h2 hrv
        rwa [hn] at this
      | _ => rw [hn] at h1; cases h1
    · exact (notx rfl fun w hw => P.sreg a ha h1 w hw).elim
    · have hmem : c ∈ a.node.children := by rw [← P.kids a ha]; exact List.mem_map_of_mem hm
      cases c with
      | var n =>
        exact hvar n x (P.kid a ha n x hm) (P.below a ha n (Node.mem_vars_child hmem (by simp [Node.vars])))
          (Node.mem_direct.2 (.inr hmem)) r h2 hrv
      | int n => cases h2
      | cons n => cases h2
      | fn f cs =>
        simp only [kidReg, Option.some.injEq] at h2
        exact (notx h2.symm fun w hw => P.kreg a ha _ x hm rfl w hw).elim
      | efn f cs =>
        simp only [kidReg, Option.some.injEq] at h2
        exact (notx h2.symm fun w hw => P.kreg a ha _ x hm rfl w hw).elim
  unfold placed at hp
  cases hy : yOf v with
  | some y =>
    rw [hy] at hp
    rcases (queryItem_marks h _).1 hp with h1 | h1
    · left; unfold placed; rw [hy]; exact h1
    · exact hmark _ h1 (.inl ⟨y, hy, rfl⟩)
  | none =>
    rw [hy] at hp
    obtain ⟨x, h0, hp⟩ := hp
    rcases (queryItem_marks h _).1 hp with h1 | h1
    · left; unfold placed; rw [hy]; exact ⟨x, h0, h1⟩
    · exact hmark _ h1 (.inr ⟨x, hy, h0, rfl⟩)

theorem itemMarks_y {as a} (P : Placing yOf xOf V K0 as) (ha : a ∈ as) {v y} (hy : yOf v = some y) (h : itemMarks yOf a (.y y)) : V v := by
  have key : ∀ n x, kidReg yOf n x = some (.y y) → n = .var v := by
    intro n x hn
    cases n with
    | var w =>
      simp only [kidReg] at hn
      cases hw : yOf w with
      | some z =>
        rw [hw] at hn; cases hn
        rw [P.yinj v w y hy hw]
      | none => rw [hw] at hn; cases hn
    | _ => cases hn
  rcases h with ⟨_, h2⟩ | ⟨_, h2 | ⟨⟨c, x⟩, hm, h2⟩⟩
  · exact P.below a ha v (by rw [key _ _ h2]; simp [Node.vars])
  · cases h2
  · have := key _ _ h2
    subst this
    refine P.below a ha v (Node.mem_vars_child (c := .var v) ?_ (by simp [Node.vars]))
    rw [← P.kids a ha]
    exact List.mem_map_of_mem hm

theorem queryItems_ymarks {as} (P : Placing yOf xOf V K0 as) : ∀ {g is g'}, queryItems yOf xOf as g = .ok (is, g') →
    ∀ {v y}, yOf v = some y → SReg.y y ∈ g'.seen → SReg.y y ∈ g.seen ∨ V v := by
  induction as with
  | nil => intro g is g' h v y _ hm; cases h; exact .inl hm
  | cons a as ih =>
    intro g is g' h v y hy hm
    simp only [queryItems, bind_ok, pure_ok] at h
    obtain ⟨⟨i, g1⟩, h1, ⟨js, g2⟩, h2, h3⟩ := h
    cases h3
    rcases ih (P.sub fun a ha => by simp [ha]) h2 hy hm with h | h
    · rcases (queryItem_marks h1 _).1 h with h | h
      · exact .inl h
      · exact .inr (itemMarks_y P (by simp) hy h)
    · exact .inr h

theorem queryItem_mono {a g is g'} (h : queryItem yOf xOf a g = .ok (is, g')) : ∀ r, r ∈ g.seen → r ∈ g'.seen :=
  fun r hr => (queryItem_marks h r).2 (.inl hr)

/-- If the specification says that the nodes can be built, there is no error. -/
theorem queryItems_fine {as} (P : Placing yOf xOf V K0 as) : ∀ {g : GenSt} {K : List Name}, (∀ v ∈ K, V v → placed yOf xOf g.seen v) →
    Node.buildable K (as.map (·.node)) = true → Only (queryItems yOf xOf as g) := by
  induction as with
  | nil => intro g K _ _; exact .pure _
  | cons a as ih =>
    intro g K hK hb
    simp only [List.map_cons, Node.buildable, Bool.and_eq_true] at hb
    refine Only.bind (queryItem_only ?_) ?_
    · intro f cs hn
      rw [definedVars_iff]
      intro v hv
      have hr := hb.1
      rw [hn] at hr
      simp only [Node.ready, List.all_eq_true, List.contains_iff_mem] at hr
      exact (hK v (hr v hv) (P.below a (by simp) v (by rw [hn]; simpa [Node.vars] using hv))).mono fun r hr => by
        simp [GenSt.mark, hr]
    · rintro ⟨is, g'⟩ h
      refine Only.bind (ih (P.sub fun a ha => by simp [ha]) (K := a.node.direct ++ K) ?_ hb.2) fun _ _ => .pure _
      intro v hv hV
      rcases List.mem_append.1 hv with hv | hv
      · exact queryItem_places P (by simp) h hv
      · exact (hK v hv hV).mono (queryItem_mono h)

/-- Afterwards all the variables are placed. -/
theorem queryItems_places {as} (P : Placing yOf xOf V K0 as) : ∀ {g is g'}, queryItems yOf xOf as g = .ok (is, g') →
    (∀ r, r ∈ g.seen → r ∈ g'.seen) ∧ ∀ a ∈ as, ∀ v ∈ a.node.direct, placed yOf xOf g'.seen v := by
  induction as with
  | nil => intro g is g' h; cases h; exact ⟨fun _ h => h, by simp⟩
  | cons a as ih =>
    intro g is g' h
    simp only [queryItems, bind_ok, pure_ok] at h
    obtain ⟨⟨i, g1⟩, h1, ⟨js, g2⟩, h2, h3⟩ := h
    cases h3
    obtain ⟨a1, a2⟩ := ih (P.sub fun a ha => by simp [ha]) h2
    refine ⟨fun r hr => a1 r (queryItem_mono h1 r hr), fun b hb v hv => ?_⟩
    rcases List.mem_cons.1 hb with rfl | hb
    · exact (queryItem_places P (by simp) h1 hv).mono a1
    · exact a2 b hb v hv

/-- If there is no error, the specification says that the nodes can be built. -/
theorem queryItems_exact {as} (P : Placing yOf xOf V K0 as) : ∀ {g : GenSt} {K : List Name} {is g'},
    (∀ n, K0 n → V n → placed yOf xOf g.seen n) → (∀ v, V v → placed yOf xOf g.seen v → v ∈ K) →
    queryItems yOf xOf as g = .ok (is, g') →
    Node.buildable K (as.map (·.node)) = true ∧ ∀ v, V v → placed yOf xOf g'.seen v → v ∈ K ∨ ∃ a ∈ as, v ∈ a.node.vars := by
  induction as with
  | nil => intro g K is g' _ hK h; cases h; exact ⟨rfl, fun v hV hv => .inl (hK v hV hv)⟩
  | cons a as ih =>
    intro g K is g' h0 hK h
    simp only [queryItems, bind_ok, pure_ok] at h
    obtain ⟨⟨i, g1⟩, h1, ⟨js, g2⟩, h2, h3⟩ := h
    cases h3
    obtain ⟨a1, a2⟩ := ih (P.sub fun a ha => by simp [ha]) (K := a.node.direct ++ K)
      (fun n hn hV => (h0 n hn hV).mono (queryItem_mono h1)) (fun v hV hv => by
        rcases queryItem_only_places P (by simp) h1 h0 hV hv with h | h
        · exact List.mem_append.2 (.inr (hK v hV h))
        · exact List.mem_append.2 (.inl h)) h2
    refine ⟨?_, fun v hV hv => ?_⟩
    · simp only [List.map_cons, Node.buildable, Bool.and_eq_true]
      refine ⟨?_, a1⟩
      cases hn : a.node with
      | efn f cs =>
        simp only [Node.ready, List.all_eq_true, List.contains_iff_mem]
        intro v hv
        have hV := P.below a (by simp) v (by rw [hn]; simpa [Node.vars] using hv)
        refine hK v hV ?_
        by_cases hk : K0 v
        · exact h0 v hk hV
        have := definedVars_iff.1 (queryItem_defined h1 hn) v hv
        unfold placed at this ⊢
        cases hy : yOf v with
        | some y => rw [hy] at this; simpa [GenSt.mark] using this
        | none =>
          rw [hy] at this
          obtain ⟨x, g1, g2⟩ := this
          refine ⟨x, g1, ?_⟩
          simp only [GenSt.mark, List.mem_cons, SReg.x.injEq] at g2
          rcases g2 with rfl | g2
          · exact absurd g1 (P.sreg a (by simp) (by rw [hn]; rfl) v hk)
          · exact g2
      | _ => rfl
    · rcases a2 v hV hv with h | ⟨b, hb, h⟩
      · rcases List.mem_append.1 h with h | h
        · exact .inr ⟨a, by simp, Node.direct_vars h⟩
        · exact .inl h
      · exact .inr ⟨b, by simp [hb], h⟩

end

/-! ## The registers of a goal -/

theorem not_isSome {α} {o : Option α} : ¬ o.isSome ↔ o = none := by cases o <;> simp

theorem placing_assign (varX : List (Name × Nat)) (atom : Node) {yOf : Name → Option Nat}
    (yinj : ∀ n m y, yOf n = some y → yOf m = some y → n = m) :
    Placing yOf ((assignAtom varX atom).2.varX.lookup ·) (· ∈ Node.varss atom.children) (fun v => (varX.lookup v).isSome)
      (assignAtom varX atom).1 := by
  have N := assignAtom_nodes varX atom
  simp only [assignAtom] at N ⊢
  have s := assignItems_spec (nargs := (atomArgs atom).length) (its := items atom) (st := ⟨varX, (atomArgs atom).length⟩) (Prod.eta _).symm
  generalize (assignItems (atomArgs atom).length (items atom) ⟨varX, (atomArgs atom).length⟩).2 = st' at *
  generalize (assignItems (atomArgs atom).length (items atom) ⟨varX, (atomArgs atom).length⟩).1 = xs at *
  obtain ⟨a1, a2, a3, a4⟩ := annotate_spec atom xs
  have hx : ∀ {k : Nat} {a : AItem}, (annotate (items atom) xs)[k]? = some a → xs[k]? = some a.x := by
    intro k a ha
    obtain ⟨_, h2, it, h3, _⟩ := a1 k a ha
    have hlt : k < xs.length := by rw [s.len]; exact (List.getElem?_eq_some_iff.1 h3).1
    rw [h2, List.getD_eq_getElem?_getD, List.getElem?_eq_getElem hlt]; rfl
  have hvar : ∀ a ∈ annotate (items atom) xs, ∀ v, a.node = .var v → st'.varX.lookup v = some a.x := by
    intro a ha v hv
    obtain ⟨k, hk⟩ := List.getElem?_of_mem ha
    obtain ⟨_, _, it, h3, h4, _⟩ := a1 k a hk
    exact s.var k it a.x v h3 (hx hk) (h4.trans hv)
  have hsreg : ∀ a ∈ annotate (items atom) xs, a.node.isVar = false → ∀ v, ¬ (varX.lookup v).isSome → st'.varX.lookup v ≠ some a.x := by
    intro a ha hv v hk hl
    have hn : varX.lookup v = none := not_isSome.1 hk
    obtain ⟨k, hk⟩ := List.getElem?_of_mem ha
    obtain ⟨h1, _, it, h3, h4, h5⟩ := a1 k a hk
    by_cases hid : k < (atomArgs atom).length
    · have h6 := s.arg k it a.x h3 (hx hk) (by rw [h4]; exact hv) (by omega)
      rcases s.new v _ hl with h7 | ⟨_, h7, _⟩
      · simp only [] at h7; rw [hn] at h7; cases h7
      · simp only [] at h7; omega
    · obtain ⟨_, _, h6⟩ := s.struct k it a.x h3 (hx hk) (by rw [h4]; exact hv) (by omega)
      have := h6 v hl
      simp only [] at this
      rw [hn] at this; cases this
  exact
    { yinj := yinj
      kids := a2
      var := hvar
      kid := fun a ha v x hm => by
        obtain ⟨b, hb, h1, h2, _⟩ := a3 a ha _ x hm
        rw [← h2]; exact hvar b hb v h1
      below := fun a ha v hv => by rw [← varss_atomArgs]; exact N.sub a ha v hv
      inj := fun v w r hv hw h1 h2 => s.newInj v w r h1 h2 (not_isSome.1 hv) (not_isSome.1 hw)
      sreg := hsreg
      kreg := fun a ha c x hm hc v hv => by
        obtain ⟨b, hb, h1, h2, _⟩ := a3 a ha _ x hm
        rw [← h2]; exact hsreg b hb (by rw [h1]; exact hc) v hv }

theorem buildable_flatten (varX : List (Name × Nat)) (atom : Node) (K : List Name) :
    Node.buildable K ((flattenQuery (atomArgs atom).length (assignAtom varX atom).1).map (·.node)) = Node.buildable K atom.builds := by
  have N := assignAtom_nodes varX atom
  have hm : (assignAtom varX atom).1.map (·.node) = (items atom).map (·.node) := by
    simp [assignAtom, annotate, Function.comp_def]
  rw [items_nodes] at hm
  have hlen : (atomArgs atom).length ≤ (assignAtom varX atom).1.length := by
    have := congrArg List.length hm
    simp only [List.length_map, List.length_append] at this
    omega
  generalize (assignAtom varX atom).1 = ais at *
  obtain ⟨h1, h2⟩ := flattenProgram_split N.id hlen
  have h3 : (flattenQuery (atomArgs atom).length ais).map (·.node) =
      ((Node.beneath (Node.sizes (atomArgs atom) + 1) (atomArgs atom)).filter fun n => n.isFn || n.isEfn).reverse ++ atomArgs atom := by
    unfold flattenQuery
    simp only [h1, h2, List.map_append, List.map_reverse, List.map_take, hm]
    rw [List.take_append_of_le_length (Nat.le_refl _), List.take_length]
    congr 2
    rw [show (fun a : AItem => a.node.isFn || a.node.isEfn) = (fun n : Node => n.isFn || n.isEfn) ∘ (fun a : AItem => a.node) from rfl,
      ← List.filter_map, List.map_drop, hm,
      List.drop_append_of_le_length (Nat.le_refl _), List.drop_length, List.nil_append]
  rw [h3]
  by_cases hc : atom.isCons = true
  · cases atom with
    | cons c => rfl
    | _ => cases hc
  · have hc : atom.isCons = false := by simpa using hc
    rw [atomArgs_children hc, Node.builds, Node.size_eq atom, Nat.add_comm 1]

section
variable {yOf : Name → Option Nat} (yinj : ∀ n m y, yOf n = some y → yOf m = some y → n = m)
include yinj

theorem toQuery_fine {varX atom g K} (hK : ∀ v ∈ K, v ∈ Node.varss atom.children → placed yOf ((assignAtom varX atom).2.varX.lookup ·) g.seen v)
    (h : Node.buildable K atom.builds = true) :
    Only (toQuery yOf ((assignAtom varX atom).2.varX.lookup ·) atom (assignAtom varX atom).1 g) := by
  have P := placing_assign varX atom yinj
  refine Only.bind (queryItems_fine (P.sub fun a ha => (mem_flattenQuery.1 ha).1) hK ?_) fun _ _ => .pure _
  rw [buildable_flatten]; exact h

theorem toQuery_places {varX atom g is g'} (h : toQuery yOf ((assignAtom varX atom).2.varX.lookup ·) atom (assignAtom varX atom).1 g = .ok (is, g')) :
    (∀ r, r ∈ g.seen → r ∈ g'.seen) ∧
      ∀ v ∈ Node.varss atom.children, placed yOf ((assignAtom varX atom).2.varX.lookup ·) g'.seen v := by
  have P := placing_assign varX atom yinj
  have N := assignAtom_nodes varX atom
  simp only [toQuery, bind_ok, pure_ok] at h
  obtain ⟨⟨js, g1⟩, h1, h2⟩ := h
  cases h2
  obtain ⟨a1, a2⟩ := queryItems_places (P.sub fun a ha => (mem_flattenQuery.1 ha).1) h1
  refine ⟨a1, ?_⟩
  rw [← varss_atomArgs]
  refine N.find ?_ ?_
  · intro a ha v hlt hn
    exact a2 a (mem_flattenQuery.2 ⟨ha, kept_iff.2 (.inl hlt)⟩) v (Node.mem_direct.2 (.inl hn))
  · intro a ha hk v x hm
    refine a2 a (mem_flattenQuery.2 ⟨ha, kept_iff.2 hk⟩) v (Node.mem_direct.2 (.inr ?_))
    rw [← N.kids a ha]
    exact List.mem_map_of_mem hm

theorem toQuery_exact {varX atom g K is g'}
    (h0 : ∀ v, (varX.lookup v).isSome → v ∈ Node.varss atom.children → placed yOf ((assignAtom varX atom).2.varX.lookup ·) g.seen v)
    (hK : ∀ v ∈ Node.varss atom.children, placed yOf ((assignAtom varX atom).2.varX.lookup ·) g.seen v → v ∈ K)
    (h : toQuery yOf ((assignAtom varX atom).2.varX.lookup ·) atom (assignAtom varX atom).1 g = .ok (is, g')) :
    Node.buildable K atom.builds = true ∧ ∀ v y, yOf v = some y → SReg.y y ∈ g'.seen → SReg.y y ∈ g.seen ∨ v ∈ Node.varss atom.children := by
  have P := placing_assign varX atom yinj
  simp only [toQuery, bind_ok, pure_ok] at h
  obtain ⟨⟨js, g1⟩, h1, h2⟩ := h
  cases h2
  have P' := P.sub (bs := flattenQuery (atomArgs atom).length (assignAtom varX atom).1) fun a ha => (mem_flattenQuery.1 ha).1
  have := (queryItems_exact P' h0 hK h1).1
  rw [buildable_flatten] at this
  exact ⟨this, fun v y hy hm => queryItems_ymarks P' h1 hy hm⟩

/-! ## Lists of goals -/

omit yinj in
theorem mem_dropX {seen : List SReg} {r} : r ∈ dropX seen ↔ r ∈ seen ∧ ∃ y, r = .y y := by
  unfold dropX
  rw [List.mem_filter]
  cases r <;> simp

omit yinj in
/-- Variables that occur in an earlier goal are permanent.  `K`: the variables that occur before. -/
def Shares (yOf : Name → Option Nat) : List Name → List Node → Prop
  | _, [] => True
  | K, a :: as => (∀ v ∈ Node.varss a.children, v ∈ K → (yOf v).isSome) ∧ Shares yOf (Node.varss a.children ++ K) as

omit yinj in
theorem placed_perm {xOf seen v} (h : (yOf v).isSome) : placed yOf xOf seen v ↔ ∀ y, yOf v = some y → SReg.y y ∈ seen := by
  unfold placed
  obtain ⟨y, hy⟩ := Option.isSome_iff_exists.1 h
  simp [hy]

omit yinj in
theorem assignSingle_eq (atom : Node) : assignSingle atom = ((assignAtom [] atom).1, (assignAtom [] atom).2.varX, (assignAtom [] atom).2.ctr) := rfl

theorem atoms_fine : ∀ {atoms : List Node} {K pre fq g}, Shares yOf K atoms → (∀ v ∈ K, ∀ y, yOf v = some y → SReg.y y ∈ g.seen) →
    Node.defined K atoms = true → Only (compileQueryAtoms yOf pre fq atoms g) := by
  intro atoms
  induction atoms with
  | nil => intro K pre fq g _ _ _; exact .pure _
  | cons a as ih =>
    intro K pre fq g hs hK hd
    simp only [Node.defined, Bool.and_eq_true] at hd
    unfold compileQueryAtoms compileQueryAtom
    simp only [assignSingle_eq]
    refine Only.bind (Only.bind (toQuery_fine yinj (K := K) ?_ hd.1) fun _ _ => .pure _) ?_
    · intro v hv ha
      rw [placed_perm (hs.1 v ha hv)]
      exact hK v hv
    · rintro ⟨c, g2⟩ h
      simp only [bind_ok, pure_ok] at h
      obtain ⟨⟨is, g1⟩, h1, h2⟩ := h
      cases h2
      obtain ⟨a1, a2⟩ := toQuery_places yinj h1
      refine Only.bind (ih hs.2 ?_ hd.2) fun _ _ => .pure _
      intro v hv y hy
      simp only [mem_dropX]
      refine ⟨?_, y, rfl⟩
      rcases List.mem_append.1 hv with hv | hv
      · have := a2 v hv
        unfold placed at this
        rwa [hy] at this
      · exact a1 _ (hK v hv y hy)

theorem atoms_exact : ∀ {atoms : List Node} {K pre fq g r}, Shares yOf K atoms → (∀ v y, yOf v = some y → SReg.y y ∈ g.seen → v ∈ K) →
    (∀ x, SReg.x x ∉ g.seen) → compileQueryAtoms yOf pre fq atoms g = .ok r → Node.defined K atoms = true := by
  intro atoms
  induction atoms with
  | nil => intro K pre fq g r _ _ _ _; rfl
  | cons a as ih =>
    intro K pre fq g r hs hK hx h
    simp only [compileQueryAtoms, bind_ok, pure_ok] at h
    obtain ⟨⟨c, g2⟩, h1, ⟨cs, g3⟩, h2, _⟩ := h
    unfold compileQueryAtom at h1
    simp only [assignSingle_eq, bind_ok, pure_ok] at h1
    obtain ⟨⟨is, g1⟩, h1, h3⟩ := h1
    cases h3
    have hpl : ∀ v ∈ Node.varss a.children, placed yOf ((assignAtom [] a).2.varX.lookup ·) g.seen v → v ∈ K := by
      intro v hv hp
      unfold placed at hp
      cases hy : yOf v with
      | some y => rw [hy] at hp; exact hK v y hy hp
      | none => rw [hy] at hp; obtain ⟨x, _, hp⟩ := hp; exact absurd hp (hx x)
    obtain ⟨b1, b2⟩ := toQuery_exact yinj (K := K) (by simp) hpl h1
    simp only [Node.defined, Bool.and_eq_true]
    refine ⟨b1, ih hs.2 ?_ ?_ h2⟩
    · intro v y hy hm
      simp only [mem_dropX] at hm
      rcases b2 v y hy hm.1 with h | h
      · exact List.mem_append.2 (.inr (hK v y hy h))
      · exact List.mem_append.2 (.inl h)
    · intro x hm
      simp [mem_dropX] at hm

end

/-! ## Queries and clauses -/

theorem shares_of {yOf : Name → Option Nat} : ∀ {atoms : List Node} {K : List Name},
    (∀ pre a post, atoms = pre ++ a :: post → ∀ v ∈ Node.varss a.children, (v ∈ K ∨ ∃ b ∈ pre, v ∈ Node.varss b.children) → (yOf v).isSome) →
    Shares yOf K atoms := by
  intro atoms
  induction atoms with
  | nil => intro K _; trivial
  | cons a as ih =>
    intro K h
    refine ⟨fun v hv hK => h [] a as rfl v hv (.inl hK), ih fun pre b post he v hv hk => ?_⟩
    refine h (a :: pre) b post (by rw [he]; rfl) v hv ?_
    rcases hk with hk | ⟨c, hc, hk⟩
    · rcases List.mem_append.1 hk with hk | hk
      · exact .inr ⟨a, by simp, hk⟩
      · exact .inl hk
    · exact .inr ⟨c, by simp [hc], hk⟩

theorem yOf_some {ord : HashOrder} (ho : ord.OK) {prog atoms v} (h : v ∈ permVarsRaw prog atoms) :
    (indexOf? v (permVars ord prog atoms)).isSome := by
  obtain ⟨i, hi⟩ := indexOf?_isSome ((ho _).mem_iff.2 h)
  unfold permVars
  rw [hi]; rfl

theorem shares_query {ord : HashOrder} (ho : ord.OK) (atoms : List Node) : Shares (indexOf? · (permVars ord false atoms)) [] atoms := by
  refine shares_of fun pre a post he v hv hk => yOf_some ho ?_
  rcases hk with hk | ⟨b, hb, hk⟩
  · cases hk
  · obtain ⟨s, t, rfl⟩ := List.append_of_mem hb
    exact permVarsRaw_query (pre := s) (a := b) (mid := t) (b := a) (post := post) (by rw [he]) hk hv

theorem shares_clause {ord : HashOrder} (ho : ord.OK) (head b : Node) (bs : List Node) :
    Shares (indexOf? · (permVars ord true (head :: b :: bs))) (Node.varss b.children ++ Node.varss head.children) bs := by
  refine shares_of fun pre a post he v hv hk => yOf_some ho ?_
  rcases hk with hk | ⟨c, hc, hk⟩
  · refine permVarsRaw_clause_first (c := a) ?_ (by simp [he]) hv
    rcases List.mem_append.1 hk with h | h
    · exact .inr h
    · exact .inl h
  · obtain ⟨s, t, rfl⟩ := List.append_of_mem hc
    exact permVarsRaw_clause_later (pre := s) (c := c) (mid := t) (d := a) (post := post) (by rw [he]) hk hv

theorem compileQuery_fine {ord : HashOrder} (ho : ord.OK) {atoms st} (h : Node.defined [] atoms = true) : Only (compileQuery ord atoms st) :=
  Only.bind (atoms_fine yOf_inj (shares_query ho atoms) (by simp) h) fun _ _ => .pure _

theorem compileQuery_exact {ord : HashOrder} (ho : ord.OK) {atoms st r} (h : compileQuery ord atoms st = .ok r) : Node.defined [] atoms = true := by
  simp only [compileQuery, bind_ok, pure_ok] at h
  obtain ⟨⟨cs, g⟩, h1, _⟩ := h
  exact atoms_exact yOf_inj (shares_query ho atoms) (by simp) (by simp) h1

/-- The variables with registers in the head are those that occur in it. -/
theorem head_lookup (head : Node) {v} : ((assignAtom [] head).2.varX.lookup v).isSome ↔ v ∈ Node.varss head.children := by
  have R : Regs head _ _ _ := assignSingle_regs (assignSingle_eq head)
  have N := assignAtom_nodes [] head
  rw [← varss_atomArgs, ← N.itemVar]
  constructor
  · intro h
    obtain ⟨r, hr⟩ := Option.isSome_iff_exists.1 h
    exact R.varMem v r hr
  · rintro ⟨a, ha, hn⟩
    have := R.var a ha v hn
    rw [this]; rfl

theorem assignAtom_keep {varX atom v r} (h : varX.lookup v = some r) : (assignAtom varX atom).2.varX.lookup v = some r :=
  (assignItems_spec (nargs := (atomArgs atom).length) (its := items atom) (st := ⟨varX, (atomArgs atom).length⟩) (Prod.eta _).symm).keep v r h

/-- The registers of the first goal. -/
theorem pair_first (head b : Node) : ∃ varX : List (Name × Nat),
    (assignPair head b).1.1 = (assignAtom [] head).1 ∧
    (assignPair head b).2.1 = ((assignAtom varX b).1, (assignAtom varX b).2.varX) ∧
    (∀ v ∈ Node.varss b.children, (varX.lookup v).isSome ↔ v ∈ Node.varss head.children) ∧
    ∀ v ∈ Node.varss b.children, ∀ r, (assignAtom [] head).2.varX.lookup v = some r → (assignAtom varX b).2.varX.lookup v = some r := by
  by_cases hb : b.isCons = true
  · cases b with
    | cons c => exact ⟨[], rfl, rfl, by simp [Node.children, Node.varss], by simp [Node.children, Node.varss]⟩
    | _ => cases hb
  · have hb : b.isCons = false := by simpa using hb
    by_cases hh : head.isCons = true
    · cases head with
      | cons c =>
        refine ⟨[], ?_, ?_, by simp [Node.children, Node.varss], ?_⟩
        · cases b <;> rfl
        · cases b <;> rfl
        · intro v _ r hr
          have := (head_lookup (.cons c) (v := v)).1 (by rw [hr]; rfl)
          simp [Node.children, Node.varss] at this
      | _ => cases hh
    · have hh : head.isCons = false := by simpa using hh
      refine ⟨(assignAtom [] head).2.varX, ?_, ?_, fun v _ => head_lookup head, fun v _ r hr => assignAtom_keep hr⟩
      · rw [assignPair_eq hh hb]
      · rw [assignPair_eq hh hb]

section
variable {yOf : Name → Option Nat} (yinj : ∀ n m y, yOf n = some y → yOf m = some y → n = m)
include yinj

/-- After the head its variables count as seen. -/
theorem head_places {head is g'} {st : Storage} (h : toProgram yOf head (assignAtom [] head).1 ⟨[], st⟩ = .ok (is, g')) {v}
    (hv : v ∈ Node.varss head.children) :
    (∀ y, yOf v = some y → SReg.y y ∈ eraseStructRegs head (assignAtom [] head).1 g'.seen) ∧
    ∀ r, (assignAtom [] head).2.varX.lookup v = some r → SReg.x r ∈ eraseStructRegs head (assignAtom [] head).1 g'.seen := by
  have R : Regs head _ _ _ := assignSingle_regs (assignSingle_eq head)
  have N := assignAtom_nodes [] head
  simp only [toProgram, bind_ok, pure_ok] at h
  obtain ⟨⟨js, g1⟩, h1, h2⟩ := h
  cases h2
  obtain ⟨m1, m2⟩ := headMarks_spec yinj R.varInj R N
  rw [programItems_seen h1]
  constructor
  · intro y hy
    rw [mem_eraseStructRegs_y, m2 v y hy, varss_atomArgs]; exact hv
  · intro r hr
    unfold eraseStructRegs
    split
    · exact m1 v r hr
    · rw [List.mem_filter]
      refine ⟨m1 v r hr, ?_⟩
      simp only [Bool.not_eq_true', List.any_eq_false, Bool.and_eq_true, Bool.or_eq_true, beq_iff_eq, SReg.x.injEq, not_and]
      intro a ha hn hx
      have hnv : a.node.isVar = false := by
        cases hh : a.node <;> rw [hh] at hn <;> simp [Node.isFn, Node.isCons] at hn <;> rfl
      by_cases hid : a.id < (atomArgs head).length
      · have h1 := R.arg a ha hnv hid
        have h2 := (R.varR v r hr).1
        omega
      · exact (R.sReg a ha hnv (by omega)).2.2 v (by rw [← hx]; exact hr)

/-- Only permanent variables of the head are in seen permanent registers. -/
theorem head_ymarks {head is g'} {st : Storage} (h : toProgram yOf head (assignAtom [] head).1 ⟨[], st⟩ = .ok (is, g')) {v y}
    (hy : yOf v = some y) (hm : SReg.y y ∈ eraseStructRegs head (assignAtom [] head).1 g'.seen) : v ∈ Node.varss head.children := by
  have R : Regs head _ _ _ := assignSingle_regs (assignSingle_eq head)
  have N := assignAtom_nodes [] head
  simp only [toProgram, bind_ok, pure_ok] at h
  obtain ⟨⟨js, g1⟩, h1, h2⟩ := h
  cases h2
  obtain ⟨m1, m2⟩ := headMarks_spec yinj R.varInj R N
  rw [programItems_seen h1, mem_eraseStructRegs_y, m2 v y hy, varss_atomArgs] at hm
  exact hm

omit yinj in
/-- The other seen registers belong to variables or arithmetic expressions of the head. -/
theorem head_xmarks {head is g'} {st : Storage} (hc : head.isCons = false) (h : toProgram yOf head (assignAtom [] head).1 ⟨[], st⟩ = .ok (is, g')) {r}
    (hm : SReg.x r ∈ eraseStructRegs head (assignAtom [] head).1 g'.seen) :
    ∃ a ∈ (assignAtom [] head).1, a.x = r ∧ (a.node.isVar = true ∨ (a.node.isEfn = true ∧ (atomArgs head).length ≤ a.id)) := by
  have R : Regs head _ _ _ := assignSingle_regs (assignSingle_eq head)
  simp only [toProgram, bind_ok, pure_ok] at h
  obtain ⟨⟨js, g1⟩, h1, h2⟩ := h
  cases h2
  refine headSym_has (yOf := yOf) R hc ?_
  simp only [Sym.has, List.contains_iff_mem, headSym]
  rw [← programItems_seen h1]; exact hm

omit yinj in
theorem head_const_xmarks {c : Name} {is g'} {st : Storage} (h : toProgram yOf (.cons c) (assignAtom [] (.cons c)).1 ⟨[], st⟩ = .ok (is, g')) : g'.seen = [] := by
  simp only [toProgram, bind_ok, pure_ok] at h
  obtain ⟨⟨js, g1⟩, h1, h2⟩ := h
  cases h2
  rw [programItems_seen h1]
  rfl

end

/-- A new variable of the first goal gets a register that no variable and no expression of the head has. -/
theorem apart_new {head b : Node} {later : List Name} (hh : head.isCons = false) (hb : b.isCons = false)
    (h : Node.apart head b later = true) {w r} (hl : w ∉ later) (hn : (assignAtom [] head).2.varX.lookup w = none)
    (hr : (assignAtom (assignAtom [] head).2.varX b).2.varX.lookup w = some r) {a} (ha : a ∈ (assignAtom [] head).1) (hx : a.x = r)
    (hk : a.node.isVar = true ∨ (a.node.isEfn = true ∧ (atomArgs head).length ≤ a.id)) : False := by
  have R : Regs head _ _ _ := assignSingle_regs (assignSingle_eq head)
  have hknown : ∀ v, v ∈ Node.varss head.children ↔ ((assignAtom [] head).2.varX.lookup v).isSome := fun v => (head_lookup head).symm
  simp only [Node.apart, hh, hb, Bool.false_or, List.all_eq_true] at h
  have hargsH := atomArgs_children hh
  have hargsB := atomArgs_children hb
  simp only [assignAtom] at R hknown hn hr ha
  have gh := assignItems_given (nargs := (atomArgs head).length) (its := items head) (known := []) (st := ⟨[], (atomArgs head).length⟩)
    (Prod.eta _).symm (by simp)
  have sh := assignItems_spec (nargs := (atomArgs head).length) (its := items head) (st := ⟨[], (atomArgs head).length⟩) (Prod.eta _).symm
  generalize (assignItems (atomArgs head).length (items head) ⟨[], (atomArgs head).length⟩).2 = hst at *
  generalize (assignItems (atomArgs head).length (items head) ⟨[], (atomArgs head).length⟩).1 = hxs at *
  have gb := assignItems_given (nargs := (atomArgs b).length) (its := items b) (known := Node.varss head.children)
    (st := ⟨hst.varX, (atomArgs b).length⟩) (Prod.eta _).symm hknown
  obtain ⟨c1, c2, c3, c4⟩ := annotate_spec head hxs
  have hxh : ∀ {k : Nat} {a : AItem}, (annotate (items head) hxs)[k]? = some a → hxs[k]? = some a.x := by
    intro k a ha
    obtain ⟨_, h2, it, h3, _⟩ := c1 k a ha
    have hlt : k < hxs.length := by rw [sh.len]; exact (List.getElem?_eq_some_iff.1 h3).1
    rw [h2, List.getD_eq_getElem?_getD, List.getElem?_eq_getElem hlt]; rfl
  have hm : (a.node, r) ∈ head.headRegs := by
    subst hx
    rcases hk with hk | ⟨hk, hid⟩
    · cases hv : a.node with
      | var v =>
        have h0 := R.var a ha v hv
        rcases gh.var v _ h0 with h1 | ⟨j, h1, h2⟩
        · simp at h1
        · rw [items_claimants hh] at h1
          have := mem_zipIdx_of (k := head.children.length) h1
          rw [hargsH] at h2
          rw [h2]; exact this
      | _ => rw [hv] at hk; cases hk
    · have hv : a.node.isVar = false := by
        cases hh : a.node <;> rw [hh] at hk <;> simp [Node.isEfn] at hk; rfl
      obtain ⟨k, hk'⟩ := List.getElem?_of_mem ha
      obtain ⟨h1, _, it, h3, h4, h5⟩ := c1 k a hk'
      obtain ⟨j, g1, g2⟩ := gh.struct k it a.x h3 (hxh hk') (by rw [h4]; exact hv) (by omega)
      rw [items_claimants hh] at g1
      have := mem_zipIdx_of (k := head.children.length) g1
      rw [hargsH] at g2
      rw [g2, ← h4]; exact this
  have hmb : (Node.var w, r) ∈ Node.bodyRegs head b := by
    rcases gb.var w r hr with h1 | ⟨j, h1, h2⟩
    · simp only [] at h1; rw [hn] at h1; cases h1
    · rw [items_claimants hb] at h1
      have := mem_zipIdx_of (k := b.children.length) h1
      rw [hargsB] at h2
      rw [h2]; exact this
  have h1 := h _ hm _ hmb
  simp only [ne_eq, not_true_eq_false, decide_false, hl, Bool.or_self, Bool.false_or, Bool.not_eq_true', Bool.or_eq_false_iff] at h1
  rcases hk with hk | ⟨hk, _⟩
  · rw [h1.1] at hk; cases hk
  · rw [h1.2] at hk; cases hk

theorem Clause.apart_of_untangled {c : Clause} (h : c.untangled = true) : c.apart = true := by
  unfold Clause.untangled at h
  unfold Clause.apart
  split at h
  · rename_i hb; rw [hb]
  · rename_i b bs hb
    rw [hb]
    simp only [Node.untangled, Bool.or_eq_true, List.all_eq_true, Bool.and_eq_true] at h
    simp only [Node.apart, Bool.or_eq_true, List.all_eq_true]
    rcases h with h | h
    · exact .inl h
    · refine .inr fun x hx y hy => ?_
      have := (h x hx).1 y hy
      split
      · rename_i w hw
        rcases this with this | this
        · simp only [this, Bool.true_or]
        · rw [hw] at this
          simp only [Node.mayShare] at this
          rw [Bool.or_assoc, this, Bool.or_true]
      · rfl

theorem compileClause_fine {ord : HashOrder} (ho : ord.OK) {bi head body st} (hr : (!bi && redefines head) = false)
    (h : Node.defined (Node.varss head.children) body = true) : Only (compileClause ord bi head body st) := by
  unfold compileClause
  simp only [hr, Bool.false_eq_true, if_false]
  cases body with
  | nil => exact Only.bind toProgram_only fun _ _ => .pure _
  | cons b bs =>
    obtain ⟨varX, e1, e2, e3, e4⟩ := pair_first head b
    have hsh := shares_clause ho head b bs
    simp only [Node.defined, Bool.and_eq_true] at h
    have yinj : ∀ n m y, indexOf? n (permVars ord true (head :: b :: bs)) = some y →
      indexOf? m (permVars ord true (head :: b :: bs)) = some y → n = m := yOf_inj
    generalize hyOf : (indexOf? · (permVars ord true (head :: b :: bs))) = yOf at *
    replace yinj : ∀ n m y, yOf n = some y → yOf m = some y → n = m := by subst hyOf; exact yinj
    simp only [e1, e2]
    refine Only.bind toProgram_only ?_
    rintro ⟨is, g1⟩ h1
    refine Only.bind (toQuery_fine yinj (K := Node.varss head.children) ?_ h.1) ?_
    · intro v hv hb
      obtain ⟨p1, p2⟩ := head_places yinj h1 hv
      unfold placed
      cases hy : yOf v with
      | some y => exact p1 y hy
      | none =>
        obtain ⟨r, hr⟩ := Option.isSome_iff_exists.1 ((head_lookup head).2 hv)
        exact ⟨r, e4 v hb r hr, p2 r hr⟩
    · rintro ⟨js, g2⟩ h2
      obtain ⟨a1, a2⟩ := toQuery_places yinj h2
      refine Only.bind (atoms_fine yinj hsh ?_ h.2) fun _ _ => .pure _
      intro v hv y hy
      simp only [mem_dropX]
      refine ⟨?_, y, rfl⟩
      rcases List.mem_append.1 hv with hv | hv
      · have := a2 v hv
        unfold placed at this
        rwa [hy] at this
      · exact a1 _ ((head_places yinj h1 hv).1 y hy)

theorem compileClause_exact {ord : HashOrder} (ho : ord.OK) {bi head body st r} (hu : (Clause.mk head body).apart = true)
    (h : compileClause ord bi head body st = .ok r) : Node.defined (Node.varss head.children) body = true := by
  cases body with
  | nil => rfl
  | cons b bs =>
    unfold compileClause at h
    obtain ⟨varX, e1, e2, e3, e4⟩ := pair_first head b
    have hsh := shares_clause ho head b bs
    have hper : ∀ v, indexOf? v (permVars ord true (head :: b :: bs)) = none → v ∈ Node.varss b.children →
        v ∉ bs.flatMap fun a => Node.varss a.children := by
      intro v hy hv hbs
      obtain ⟨a, ha, hva⟩ := List.mem_flatMap.1 hbs
      exact yOf_none ho hy (permVarsRaw_clause_first (.inr hv) ha hva)
    have yinj : ∀ n m y, indexOf? n (permVars ord true (head :: b :: bs)) = some y →
      indexOf? m (permVars ord true (head :: b :: bs)) = some y → n = m := yOf_inj
    have hpair : b.isCons = false → head.isCons = false → (assignPair head b).2.1.2 = (assignAtom (assignAtom [] head).2.varX b).2.varX := by
      intro h1 h2
      rw [assignPair_eq h2 h1]
    simp only [] at h
    generalize hyOf : (indexOf? · (permVars ord true (head :: b :: bs))) = yOf at *
    replace yinj : ∀ n m y, yOf n = some y → yOf m = some y → n = m := by subst hyOf; exact yinj
    replace hper : ∀ v, yOf v = none → v ∈ Node.varss b.children → v ∉ bs.flatMap fun a => Node.varss a.children := by subst hyOf; exact hper
    simp only [e1, e2] at h hpair
    split at h
    · cases h
    simp only [bind_ok, pure_ok] at h
    obtain ⟨⟨is, g1⟩, h1, ⟨js, g2⟩, h2, ⟨cs, g3⟩, h3, _⟩ := h
    have hpl : ∀ v ∈ Node.varss b.children, placed yOf ((assignAtom varX b).2.varX.lookup ·) (eraseStructRegs head (assignAtom [] head).1 g1.seen) v →
        v ∈ Node.varss head.children := by
      intro v hv hp
      unfold placed at hp
      cases hy : yOf v with
      | some y => rw [hy] at hp; exact head_ymarks yinj h1 hy hp
      | none =>
        rw [hy] at hp
        obtain ⟨x, hx, hp⟩ := hp
        by_cases hc : head.isCons = true
        · cases head with
          | cons c =>
            rw [head_const_xmarks h1] at hp
            simp [eraseStructRegs, Node.isCons] at hp
          | _ => cases hc
        · have hc : head.isCons = false := by simpa using hc
          have hb : b.isCons = false := by
            cases b with
            | cons c => simp [Node.children, Node.varss] at hv
            | _ => rfl
          obtain ⟨a, ha, hax, hak⟩ := head_xmarks hc h1 hp
          refine (head_lookup head).1 ?_
          by_contra hn
          refine apart_new hc hb hu (hper v hy hv) (not_isSome.1 hn) ?_ ha hax hak
          rw [← hpair hb hc]; exact hx
    obtain ⟨b1, b2⟩ := toQuery_exact yinj (K := Node.varss head.children) (fun v hk hv => by
        have hv' := (e3 v hv).1 hk
        obtain ⟨p1, p2⟩ := head_places yinj h1 hv'
        unfold placed
        cases hy : yOf v with
        | some y => exact p1 y hy
        | none =>
          obtain ⟨r, hr⟩ := Option.isSome_iff_exists.1 ((head_lookup head).2 hv')
          exact ⟨r, e4 v hv r hr, p2 r hr⟩) hpl h2
    simp only [Node.defined, Bool.and_eq_true]
    refine ⟨b1, atoms_exact yinj hsh ?_ ?_ h3⟩
    · intro v y hy hm
      simp only [mem_dropX] at hm
      rcases b2 v y hy hm.1 with h | h
      · exact List.mem_append.2 (.inr (head_ymarks yinj h1 hy h))
      · exact List.mem_append.2 (.inl h)
    · intro x hm
      simp [mem_dropX] at hm

end PBfs
