import Verif.Proof.Rename2
/-! # Replacing names: the instructions made by the compiler, programs and queries -/
namespace PBfs
variable {ρ : Name → Name}

theorem CR.bind_congr {x : CR α} {k k' : α → CR β} (h : ∀ a, k a = k' a) : (x >>= k) = (x >>= k') := by
  rw [show k = k' from funext h]

def genOne (ρ : Name → Name) (r : Instr × GenSt) : Instr × GenSt := (r.1.rename ρ, r.2.rename ρ)
def genMany (ρ : Name → Name) (r : List Instr × GenSt) : List Instr × GenSt := (r.1.map (Instr.rename ρ), r.2.rename ρ)

theorem pushVar_rename (g : GenSt) (n : Name) : (g.rename ρ).st.pushBackVar (ρ n) = ((g.st.pushBackVar n).1, (g.st.pushBackVar n).2.rename ρ) :=
  pushBackVar_rename g.st n

theorem GenSt.rename_has (g : GenSt) (r) : (g.rename ρ).has r = g.has r := rfl
theorem GenSt.rename_mark (g : GenSt) (r) : (g.rename ρ).mark r = (g.mark r).rename ρ := rfl

section
variable {yOf xOf yOf' xOf' : Name → Option Nat}

theorem queryKid_rename (h : Renaming ρ) (hy : ∀ n, yOf' (ρ n) = yOf n) (c : Node) (x : Nat) (g : GenSt) :
    queryKid yOf' (c.rename ρ) x (g.rename ρ) = CR.rename ρ (genOne ρ) (queryKid yOf c x g) := by
  have hx : ∀ nm : Name, (if (g.rename ρ).has (.x x) = true then pure (.setValue x, g.rename ρ)
      else
        let g := (g.rename ρ).mark (.x x)
        let (v, st) := g.st.pushBackVar (ρ nm)
        pure (.setVariable x v, { g with st := st }) : CR (Instr × GenSt)) = CR.rename ρ (genOne ρ) (if g.has (.x x) = true then pure (.setValue x, g)
      else
        let g := g.mark (.x x)
        let (v, st) := g.st.pushBackVar nm
        pure (.setVariable x v, { g with st := st })) := by
    intro nm
    rw [CR.rename_ite, GenSt.rename_has]
    split
    · rfl
    · simp only [GenSt.rename_mark, pushVar_rename]; rfl
  cases c with
  | int v =>
    have e := structCell_rename h (.int v) g
    rw [Node.rename] at e ⊢
    simp only [queryKid, e, CR.bind_rename, CR.rename_bind]
    rfl
  | cons v =>
    have e := structCell_rename h (.cons v) g
    rw [Node.rename] at e ⊢
    simp only [queryKid, e, CR.bind_rename, CR.rename_bind]
    rfl
  | var n =>
    rw [Node.rename]
    simp only [queryKid, hy]
    cases yOf n with
    | some y =>
      simp only []
      rw [CR.rename_ite]
      show (if g.has _ = true then _ else _) = _
      split
      · rfl
      · simp only [GenSt.rename_mark, pushVar_rename]; rfl
    | none => exact hx n
  | fn n cs => rw [Node.rename]; exact hx n
  | efn n cs => rw [Node.rename]; exact hx n

theorem queryKids_rename (h : Renaming ρ) (hy : ∀ n, yOf' (ρ n) = yOf n) : ∀ (ks : List (Node × Nat)) (g : GenSt),
    queryKids yOf' (ks.map fun k => (k.1.rename ρ, k.2)) (g.rename ρ) = CR.rename ρ (genMany ρ) (queryKids yOf ks g)
  | [], g => rfl
  | (c, x) :: ks, g => by
    simp only [List.map_cons, queryKids, queryKid_rename h hy, CR.bind_rename, CR.rename_bind]
    refine CR.bind_congr fun a => ?_
    simp only [genOne, queryKids_rename h hy ks, CR.bind_rename]
    rfl

theorem structKids_rename (h : Renaming ρ) (hy : ∀ n, yOf' (ρ n) = yOf n) (mk : Cell → Instr) (hmk : ∀ c, (mk c).rename ρ = mk c) (n : Node) (ks : List (Node × Nat)) (g : GenSt) :
    (do let (cell, g) ← structCell (n.rename ρ) (g.rename ρ)
        let (is, g) ← queryKids yOf' (ks.map fun k => (k.1.rename ρ, k.2)) g
        pure (mk cell :: is, g) : CR (List Instr × GenSt)) =
    CR.rename ρ (genMany ρ) (do
        let (cell, g) ← structCell n g
        let (is, g) ← queryKids yOf ks g
        pure (mk cell :: is, g)) := by
  rw [structCell_rename h]
  simp only [CR.bind_rename, CR.rename_bind]
  refine CR.bind_congr fun a => ?_
  simp only [queryKids_rename h hy ks, CR.bind_rename]
  refine CR.bind_congr fun b => ?_
  simp only [CR.rename_pure, genMany, List.map_cons, hmk]

theorem queryItem_rename (h : Renaming ρ) (hy : ∀ n, yOf' (ρ n) = yOf n) (hx : ∀ n, xOf' (ρ n) = xOf n) (a : AItem) (g : GenSt) :
    queryItem yOf' xOf' (a.rename ρ) (g.rename ρ) = CR.rename ρ (genMany ρ) (queryItem yOf xOf a g) := by
  obtain ⟨id, node, x, kids⟩ := a
  cases node with
  | var n =>
    simp only [AItem.rename, Node.rename, queryItem, hy]
    cases yOf n with
    | some y =>
      simp only []
      rw [CR.rename_ite]
      show (if g.has _ = true then _ else _) = _
      split
      · rfl
      · simp only [GenSt.rename_mark, pushVar_rename]; rfl
    | none =>
      simp only []
      rw [CR.rename_ite]
      show (if g.has _ = true then _ else _) = _
      split
      · rfl
      · simp only [GenSt.rename_mark, pushVar_rename]; rfl
  | efn n cs =>
    have e := structKids_rename h hy (fun c => .putStructure c x) (fun _ => rfl) (.efn n cs) kids (g.mark (.x x))
    simp only [Node.rename] at e
    simp only [AItem.rename, Node.rename, queryItem, GenSt.rename_mark, definedVars_rename hy hx]
    rw [CR.rename_ite, ← e]
    rfl
  | int n =>
    have e := structKids_rename h hy (fun c => .putStructure c x) (fun _ => rfl) (.int n) kids (g.mark (.x x))
    simp only [Node.rename] at e
    simp only [AItem.rename, Node.rename, queryItem, GenSt.rename_mark]
    exact e
  | cons n =>
    have e := structKids_rename h hy (fun c => .putStructure c x) (fun _ => rfl) (.cons n) kids (g.mark (.x x))
    simp only [Node.rename] at e
    simp only [AItem.rename, Node.rename, queryItem, GenSt.rename_mark]
    exact e
  | fn n cs =>
    have e := structKids_rename h hy (fun c => .putStructure c x) (fun _ => rfl) (.fn n cs) kids (g.mark (.x x))
    simp only [Node.rename] at e
    simp only [AItem.rename, Node.rename, queryItem, GenSt.rename_mark]
    exact e

theorem queryItems_rename (h : Renaming ρ) (hy : ∀ n, yOf' (ρ n) = yOf n) (hx : ∀ n, xOf' (ρ n) = xOf n) : ∀ (as : List AItem) (g : GenSt),
    queryItems yOf' xOf' (as.map (AItem.rename ρ)) (g.rename ρ) = CR.rename ρ (genMany ρ) (queryItems yOf xOf as g)
  | [], g => rfl
  | a :: as, g => by
    simp only [List.map_cons, queryItems, queryItem_rename h hy hx, CR.bind_rename, CR.rename_bind]
    refine CR.bind_congr fun r => ?_
    simp only [genMany, queryItems_rename h hy hx as, CR.bind_rename]
    refine CR.bind_congr fun r => ?_
    simp only [CR.rename_pure, genMany, List.map_append]

theorem AItem.rename_kept (nargs) (a : AItem) : (a.rename ρ).kept nargs = a.kept nargs := by
  simp only [AItem.kept, AItem.rename, Node.rename_isFn, Node.rename_isEfn]; rfl

theorem flattenProgram_rename (nargs) (as : List AItem) : flattenProgram nargs (as.map (AItem.rename ρ)) = (flattenProgram nargs as).map (AItem.rename ρ) := by
  unfold flattenProgram
  rw [List.filter_map]
  congr 1
  congr 1
  funext a
  exact AItem.rename_kept nargs a

theorem flattenQuery_rename (nargs) (as : List AItem) : flattenQuery nargs (as.map (AItem.rename ρ)) = (flattenQuery nargs as).map (AItem.rename ρ) := by
  simp only [flattenQuery, flattenProgram_rename, List.map_append, List.map_reverse, List.map_drop, List.map_take]

theorem toQuery_rename (h : Renaming ρ) (hy : ∀ n, yOf' (ρ n) = yOf n) (hx : ∀ n, xOf' (ρ n) = xOf n) (atom : Node) (as : List AItem) (g : GenSt) :
    toQuery yOf' xOf' (atom.rename ρ) (as.map (AItem.rename ρ)) (g.rename ρ) = CR.rename ρ (genMany ρ) (toQuery yOf xOf atom as g) := by
  unfold toQuery
  rw [atomArgs_rename, List.length_map, flattenQuery_rename, queryItems_rename h hy hx]
  simp only [CR.bind_rename, CR.rename_bind, Node.rename_fv h]
  refine CR.bind_congr fun r => ?_
  simp only [CR.rename_pure, genMany, List.map_append]
  rfl

theorem programKid_rename (h : Renaming ρ) (hy : ∀ n, yOf' (ρ n) = yOf n) (c : Node) (x : Nat) (g : GenSt) :
    programKid yOf' (c.rename ρ) x (g.rename ρ) = CR.rename ρ (genOne ρ) (programKid yOf c x g) := by
  cases c with
  | int v =>
    have e := structCell_rename h (.int v) g
    rw [Node.rename] at e ⊢
    simp only [programKid, e, CR.bind_rename, CR.rename_bind]
    rfl
  | cons v =>
    have e := structCell_rename h (.cons v) g
    rw [Node.rename] at e ⊢
    simp only [programKid, e, CR.bind_rename, CR.rename_bind]
    rfl
  | var n =>
    rw [Node.rename]
    simp only [programKid, hy, Node.name]
    rw [CR.rename_ite, GenSt.rename_has]
    split
    · cases yOf n <;> rfl
    · simp only [GenSt.rename_mark, pushVar_rename]
      cases yOf n <;> rfl
  | fn n cs =>
    rw [Node.rename]
    simp only [programKid, Node.name]
    rw [CR.rename_ite, GenSt.rename_has]
    split
    · rfl
    · simp only [GenSt.rename_mark, pushVar_rename]; rfl
  | efn n cs =>
    rw [Node.rename]
    simp only [programKid, Node.name]
    rw [CR.rename_ite, GenSt.rename_has]
    split
    · rfl
    · simp only [GenSt.rename_mark, pushVar_rename]; rfl

theorem programKids_rename (h : Renaming ρ) (hy : ∀ n, yOf' (ρ n) = yOf n) : ∀ (ks : List (Node × Nat)) (g : GenSt),
    programKids yOf' (ks.map fun k => (k.1.rename ρ, k.2)) (g.rename ρ) = CR.rename ρ (genMany ρ) (programKids yOf ks g)
  | [], g => rfl
  | (c, x) :: ks, g => by
    simp only [List.map_cons, programKids, programKid_rename h hy, CR.bind_rename, CR.rename_bind]
    refine CR.bind_congr fun a => ?_
    simp only [genOne, programKids_rename h hy ks, CR.bind_rename]
    rfl

theorem programStruct_rename (h : Renaming ρ) (hy : ∀ n, yOf' (ρ n) = yOf n) (x : Nat) (n : Node) (ks : List (Node × Nat)) (g : GenSt) :
    (do let (cell, g) ← structCell (n.rename ρ) (g.rename ρ)
        let (is, g) ← programKids yOf' (ks.map fun k => (k.1.rename ρ, k.2)) g
        pure (.getStructure cell x :: is, g) : CR (List Instr × GenSt)) =
    CR.rename ρ (genMany ρ) (do
        let (cell, g) ← structCell n g
        let (is, g) ← programKids yOf ks g
        pure (.getStructure cell x :: is, g)) := by
  rw [structCell_rename h]
  simp only [CR.bind_rename, CR.rename_bind]
  refine CR.bind_congr fun a => ?_
  simp only [programKids_rename h hy ks, CR.bind_rename]
  rfl

theorem programItem_rename (h : Renaming ρ) (hy : ∀ n, yOf' (ρ n) = yOf n) (a : AItem) (g : GenSt) :
    programItem yOf' (a.rename ρ) (g.rename ρ) = CR.rename ρ (genMany ρ) (programItem yOf a g) := by
  obtain ⟨id, node, x, kids⟩ := a
  cases node with
  | var n =>
    simp only [AItem.rename, Node.rename, programItem, hy]
    rw [CR.rename_ite, GenSt.rename_has]
    split
    · cases yOf n <;> rfl
    · cases yOf n <;> rfl
  | efn n cs =>
    have e := programStruct_rename h hy x (.efn n cs) kids g
    simp only [Node.rename] at e
    simp only [AItem.rename, Node.rename, programItem]
    exact e
  | int n =>
    have e := programStruct_rename h hy x (.int n) kids g
    simp only [Node.rename] at e
    simp only [AItem.rename, Node.rename, programItem]
    exact e
  | cons n =>
    have e := programStruct_rename h hy x (.cons n) kids g
    simp only [Node.rename] at e
    simp only [AItem.rename, Node.rename, programItem]
    exact e
  | fn n cs =>
    have e := programStruct_rename h hy x (.fn n cs) kids g
    simp only [Node.rename] at e
    simp only [AItem.rename, Node.rename, programItem]
    exact e

theorem programItems_rename (h : Renaming ρ) (hy : ∀ n, yOf' (ρ n) = yOf n) : ∀ (as : List AItem) (g : GenSt),
    programItems yOf' (as.map (AItem.rename ρ)) (g.rename ρ) = CR.rename ρ (genMany ρ) (programItems yOf as g)
  | [], g => rfl
  | a :: as, g => by
    simp only [List.map_cons, programItems, programItem_rename h hy, CR.bind_rename, CR.rename_bind]
    refine CR.bind_congr fun r => ?_
    simp only [genMany, programItems_rename h hy as, CR.bind_rename]
    refine CR.bind_congr fun r => ?_
    simp only [CR.rename_pure, genMany, List.map_append]

theorem toProgram_rename (h : Renaming ρ) (hy : ∀ n, yOf' (ρ n) = yOf n) (atom : Node) (as : List AItem) (g : GenSt) :
    toProgram yOf' (atom.rename ρ) (as.map (AItem.rename ρ)) (g.rename ρ) = CR.rename ρ (genMany ρ) (toProgram yOf atom as g) := by
  unfold toProgram
  rw [atomArgs_rename, List.length_map, flattenProgram_rename, programItems_rename h hy]
  simp only [CR.bind_rename, CR.rename_bind]
  refine CR.bind_congr fun r => ?_
  simp only [CR.rename_pure, genMany, List.map_append]
  rfl

theorem contains_rename (h : Renaming ρ) (l : List Name) (n) : (l.map ρ).contains (ρ n) = l.contains n := by
  rw [Bool.eq_iff_iff]
  simp only [List.contains_iff_mem, List.mem_map]
  exact ⟨fun ⟨a, ha, e⟩ => h.inj _ _ e ▸ ha, fun ha => ⟨n, ha, rfl⟩⟩

theorem varRegs_rename (h : Renaming ρ) (hy : ∀ n, yOf' (ρ n) = yOf n) : ∀ (as : List AItem) (handled : List Name),
    varRegs yOf' (as.map (AItem.rename ρ)) (handled.map ρ) = (varRegs yOf as handled).map (VarReg.rename ρ)
  | [], _ => rfl
  | ⟨id, node, x, kids⟩ :: as, handled => by
    cases node with
    | var n =>
      simp only [List.map_cons, AItem.rename, Node.rename, varRegs, contains_rename h, hy]
      have e := varRegs_rename h hy as handled
      have e' := varRegs_rename h hy as (n :: handled)
      simp only [List.map_cons] at e'
      split
      · exact e
      · cases yOf n with
        | some y => simp only [e', List.map_cons]; rfl
        | none => simp only [e', List.map_cons]; rfl
    | _ =>
      simp only [List.map_cons, AItem.rename, Node.rename, varRegs]
      exact varRegs_rename h hy as handled

theorem compileQueryAtom_rename (h : Renaming ρ) (hy : ∀ n, yOf' (ρ n) = yOf n) (pre fromQuery) (hpre : pre.map (Instr.rename ρ) = pre) (atom : Node) (g : GenSt) :
    compileQueryAtom yOf' pre fromQuery (atom.rename ρ) (g.rename ρ) =
      CR.rename ρ (fun r => (r.1.rename ρ, r.2.rename ρ)) (compileQueryAtom yOf pre fromQuery atom g) := by
  unfold compileQueryAtom
  rw [assignSingle_rename h]
  simp only [CR.rename_bind]
  rw [toQuery_rename h hy (xOf := fun n => (assignSingle atom).2.1.lookup n) (fun n => lookup_rename h n _), CR.bind_rename]
  refine CR.bind_congr fun r => ?_
  have e := varRegs_rename h hy (assignSingle atom).1 []
  simp only [List.map_nil] at e
  simp only [genMany, e, CR.rename_pure, CAtom.rename, List.map_append, hpre]
  rfl

theorem compileQueryAtoms_rename (h : Renaming ρ) (hy : ∀ n, yOf' (ρ n) = yOf n) (fromQuery) : ∀ (atoms : List Node) (pre) (_ : pre.map (Instr.rename ρ) = pre) (g : GenSt),
    compileQueryAtoms yOf' pre fromQuery (atoms.map (Node.rename ρ)) (g.rename ρ) =
      CR.rename ρ (fun r => (r.1.map (CAtom.rename ρ), r.2.rename ρ)) (compileQueryAtoms yOf pre fromQuery atoms g)
  | [], _, _, g => rfl
  | a :: as, pre, hpre, g => by
    simp only [List.map_cons, compileQueryAtoms, compileQueryAtom_rename h hy pre fromQuery hpre, CR.bind_rename, CR.rename_bind]
    refine CR.bind_congr fun r => ?_
    simp only [compileQueryAtoms_rename h hy fromQuery as [] rfl, CR.bind_rename]
    refine CR.bind_congr fun r => ?_
    simp only [CR.rename_pure, List.map_cons]

theorem allocInstrs_rename (n : Nat) : (allocInstrs n).map (Instr.rename ρ) = allocInstrs n := by
  unfold allocInstrs; split <;> rfl

theorem indexOf_rename (h : Renaming ρ) (ys : List Name) (n : Name) : indexOf? (ρ n) (ys.map ρ) = indexOf? n ys := indexOf?_map (fun _ _ => h.eq_iff) n ys

theorem compileQuery_rename (h : Renaming ρ) (atoms : List Node) (st : Storage) :
    compileQuery id (atoms.map (Node.rename ρ)) (st.rename ρ) = CR.rename ρ (fun r => (Rule.rename ρ r.1, r.2.rename ρ)) (compileQuery id atoms st) := by
  simp only [compileQuery, permVars, id, permVarsRaw_rename h, List.length_map]
  have e := compileQueryAtoms_rename h (yOf := (indexOf? · (permVarsRaw false atoms))) (yOf' := (indexOf? · ((permVarsRaw false atoms).map ρ))) (fun n => indexOf_rename h (permVarsRaw false atoms) n) true atoms
    (allocInstrs (permVarsRaw false atoms).length) (allocInstrs_rename _) ⟨[], st⟩
  rw [show (⟨[], st.rename ρ⟩ : GenSt) = (⟨[], st⟩ : GenSt).rename ρ from rfl, e]
  simp only [CR.bind_rename, CR.rename_bind]
  rfl

end

theorem eraseStructRegs_rename (head : Node) (as : List AItem) (seen) :
    eraseStructRegs (head.rename ρ) (as.map (AItem.rename ρ)) seen = eraseStructRegs head as seen := by
  simp only [eraseStructRegs, Node.rename_isCons, List.any_map]
  congr 2
  funext r
  congr 2
  funext a
  simp only [Function.comp, AItem.rename, Node.rename_isFn, Node.rename_isCons]

theorem deallocAtoms_rename (h : Renaming ρ) (n : Nat) : (deallocAtoms n).map (CAtom.rename ρ) = deallocAtoms n := by
  unfold deallocAtoms
  split
  · rfl
  · have := h.fixed n!"DEALLOCATE" (by decide)
    simp only [List.map_cons, List.map_nil, deallocAtom, CAtom.rename, Node.rename, this]
    rfl

theorem redefines_rename (h : Renaming ρ) (head : Node) : redefines (head.rename ρ) = redefines head := by
  have e : ∀ (n : Name) (k : Nat), n ∈ reservedNames → decide ((head.rename ρ).fv = ⟨n, k⟩) = decide (head.fv = ⟨n, k⟩) := by
    intro n k hn
    rw [Node.rename_fv h]
    refine decide_eq_decide.2 ?_
    simp only [FV.rename]
    cases head.fv
    simp only [FV.mk.injEq, h.fix hn]
  unfold redefines
  rw [e _ _ (by decide), e _ _ (by decide)]

def clauseOut (ρ : Name → Name) (r : FV × Rule × Storage) : FV × Rule × Storage := (r.1.rename ρ, Rule.rename ρ r.2.1, r.2.2.rename ρ)

theorem compileClause_rename (h : Renaming ρ) (builtIn) (head : Node) (body : List Node) (st : Storage) :
    compileClause id builtIn (head.rename ρ) (body.map (Node.rename ρ)) (st.rename ρ) = CR.rename ρ (clauseOut ρ) (compileClause id builtIn head body st) := by
  simp only [compileClause, permVars, id, ← List.map_cons (f := Node.rename ρ), permVarsRaw_rename h, List.length_map, redefines_rename h]
  generalize permVarsRaw true (head :: body) = ys
  have hy : ∀ n, (indexOf? · (ys.map ρ)) (ρ n) = (indexOf? · ys) n := fun n => indexOf_rename h ys n
  cases hb : (!builtIn && redefines head) with
  | true => rfl
  | false =>
    have hg : (⟨[], st.rename ρ⟩ : GenSt) = (⟨[], st⟩ : GenSt).rename ρ := rfl
    cases body with
    | nil =>
      simp only [List.map_nil, Bool.false_eq_true, if_false]
      rw [assignSingle_rename h]
      simp only [hg]
      rw [toProgram_rename h (yOf := (indexOf? · ys)) (yOf' := (indexOf? · (ys.map ρ))) hy, CR.rename_bind, CR.bind_rename]
      refine CR.bind_congr fun r => ?_
      have e := varRegs_rename h (yOf := (indexOf? · ys)) (yOf' := (indexOf? · (ys.map ρ))) hy (assignSingle head).1 []
      simp only [List.map_nil] at e
      simp only [genMany, e, CR.rename_pure, clauseOut, Rule.rename, List.map_append, List.map_cons, List.map_nil, deallocAtoms_rename h, CAtom.rename, allocInstrs_rename,
        Node.rename_fv h]
      rfl
    | cons b bs =>
      simp only [List.map_cons, Bool.false_eq_true, if_false]
      rw [assignPair_rename h]
      generalize assignPair head b = q
      obtain ⟨⟨hs, hv⟩, ⟨fs, fv⟩, n⟩ := q
      simp only [pairRename, hg]
      rw [toProgram_rename h (yOf := (indexOf? · ys)) (yOf' := (indexOf? · (ys.map ρ))) hy, CR.rename_bind, CR.bind_rename]
      refine CR.bind_congr fun r => ?_
      have e1 := toQuery_rename h (yOf := (indexOf? · ys)) (yOf' := (indexOf? · (ys.map ρ))) hy (xOf' := fun v => (fv.map fun e => (ρ e.1, e.2)).lookup v) (fun v => lookup_rename h v fv) b fs
        { r.2 with seen := eraseStructRegs head hs r.2.seen }
      simp only [genMany, eraseStructRegs_rename]
      rw [CR.rename_bind]
      refine Eq.trans (b := (toQuery (indexOf? · (ys.map ρ)) (fun v => (fv.map fun e => (ρ e.1, e.2)).lookup v) (b.rename ρ) (fs.map (AItem.rename ρ))
        (GenSt.rename ρ { r.2 with seen := eraseStructRegs head hs r.2.seen }) >>= _)) rfl ?_
      rw [e1, CR.bind_rename]
      refine CR.bind_congr fun r2 => ?_
      have e2 := compileQueryAtoms_rename h (yOf := (indexOf? · ys)) (yOf' := (indexOf? · (ys.map ρ))) hy false bs [] rfl { r2.2 with seen := dropX r2.2.seen }
      rw [CR.rename_bind]
      refine Eq.trans (b := (compileQueryAtoms (indexOf? · (ys.map ρ)) [] false (bs.map (Node.rename ρ))
        (GenSt.rename ρ { r2.2 with seen := dropX r2.2.seen }) >>= _)) rfl ?_
      rw [e2, CR.bind_rename]
      refine CR.bind_congr fun r3 => ?_
      have e3 := varRegs_rename h (yOf := (indexOf? · ys)) (yOf' := (indexOf? · (ys.map ρ))) hy hs []
      have e4 := varRegs_rename h (yOf := (indexOf? · ys)) (yOf' := (indexOf? · (ys.map ρ))) hy fs []
      simp only [List.map_nil] at e3 e4
      simp only [genMany, e3, e4, CR.rename_pure, clauseOut, Rule.rename, List.map_append, List.map_cons, List.map_nil, deallocAtoms_rename h, CAtom.rename, allocInstrs_rename,
        Node.rename_fv h]
      rfl

theorem addRule_rename (h : Renaming ρ) (f : FV) (r : Rule) : ∀ p : Program, (p.rename ρ).addRule (f.rename ρ) (Rule.rename ρ r) = (p.addRule f r).rename ρ
  | [] => rfl
  | (g, qs) :: p => by
    simp only [Program.rename, List.map_cons, Program.addRule, h.fv]
    split
    · simp
    · have := addRule_rename h f r p
      simp only [Program.rename] at this
      simp only [this, List.map_cons]

theorem assign_rename (h : Renaming ρ) (f : FV) (rs : List Rule) : ∀ p : Program, (p.rename ρ).assign (f.rename ρ) (rs.map (Rule.rename ρ)) = (p.assign f rs).rename ρ
  | [] => rfl
  | (g, qs) :: p => by
    simp only [Program.rename, List.map_cons, Program.assign, h.fv]
    split
    · simp
    · have := assign_rename h f rs p
      simp only [Program.rename] at this
      simp only [this, List.map_cons]

theorem mergeBuiltins_rename (h : Renaming ρ) : ∀ (b p : Program), Org.mergeBuiltins (b.rename ρ) (p.rename ρ) = (Org.mergeBuiltins b p).rename ρ
  | [], _ => rfl
  | e :: b, p => by
    have := mergeBuiltins_rename h b (p.assign e.1 e.2)
    unfold Org.mergeBuiltins at this ⊢
    rw [List.foldl_cons, ← this, ← assign_rename h]
    rfl

theorem rules?_rename (h : Renaming ρ) (f : FV) : ∀ p : Program, (p.rename ρ).rules? (f.rename ρ) = (p.rules? f).map (·.map (Rule.rename ρ))
  | [] => rfl
  | (g, qs) :: p => by
    have ih := rules?_rename h f p
    simp only [Program.rename, Program.rules?] at ih
    simp only [Program.rename, Program.rules?, List.map_cons, List.lookup_cons, ih]
    have : (f.rename ρ == g.rename ρ) = (f == g) := by
      rw [Bool.eq_iff_iff]; simp only [beq_iff_eq]; exact h.fv
    rw [this]
    cases f == g <;> rfl

theorem compileProgram_rename (h : Renaming ρ) : ∀ (cs : List Clause) (p : Program) (st : Storage),
    compileProgram id (cs.map (Clause.rename ρ)) (p.rename ρ) (st.rename ρ) = CR.rename ρ (fun r => (Program.rename ρ r.1, r.2.rename ρ)) (compileProgram id cs p st)
  | [], _, _ => rfl
  | c :: cs, p, st => by
    simp only [List.map_cons, compileProgram, CR.rename_bind, Clause.rename, Node.renames_eq]
    rw [compileClause_rename h, CR.bind_rename]
    refine CR.bind_congr fun r => ?_
    simp only [clauseOut, addRule_rename h]
    exact compileProgram_rename h cs (p.addRule r.1 r.2.1) r.2.2

end PBfs
