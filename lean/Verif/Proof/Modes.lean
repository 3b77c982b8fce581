import Verif.Proof.Finite
import Verif.Spec.Modes
/-! # Modes: the inputs of the next goal are ground -/
namespace PBfs

/-! ## Members at some positions -/

theorem pick_map {α β} (g : α → β) : ∀ (J : Nat → Bool) (l : List α), pick J (l.map g) = (pick J l).map g := by
  intro J l
  induction l generalizing J with
  | nil => rfl
  | cons x l ih => simp only [List.map_cons, pick]; split <;> simp [ih]

theorem pick_mem {α} {J : Nat → Bool} {l : List α} {x : α} (h : x ∈ pick J l) : ∃ i, l[i]? = some x ∧ J i = true := by
  induction l generalizing J with
  | nil => cases h
  | cons y l ih =>
    simp only [pick] at h
    have step : x ∈ pick (fun i => J (i + 1)) l → ∃ i, (y :: l)[i]? = some x ∧ J i = true := fun h => by
      obtain ⟨i, h1, h2⟩ := ih h
      exact ⟨i + 1, by simpa using h1, h2⟩
    split at h
    · rename_i hJ
      rcases List.mem_cons.1 h with rfl | h
      · exact ⟨0, rfl, hJ⟩
      · exact step h
    · exact step h

theorem mem_pick {α} {J : Nat → Bool} {l : List α} {i : Nat} {x : α} (h : l[i]? = some x) (hJ : J i = true) : x ∈ pick J l := by
  induction l generalizing J i with
  | nil => cases h
  | cons y l ih =>
    cases i with
    | zero =>
      simp only [List.getElem?_cons_zero, Option.some.injEq] at h
      subst h
      simp [pick, hJ]
    | succ i =>
      have := ih (J := fun i => J (i + 1)) (by simpa using h) hJ
      simp only [pick]
      split <;> simp [this]

theorem pick_get {α} {J : Nat → Bool} {l m : List α} (hl : l.length = m.length) (h : pick J l = pick J m) : ∀ i, J i = true → l[i]? = m[i]? := by
  induction l generalizing J m with
  | nil =>
    obtain rfl : m = [] := List.length_eq_zero_iff.1 hl.symm
    intro i _; rfl
  | cons x l ih =>
    cases m with
    | nil => cases hl
    | cons y m =>
      simp only [List.length_cons, Nat.add_right_cancel_iff] at hl
      simp only [pick] at h
      intro i hi
      cases i with
      | zero =>
        simp only [hi, if_true, List.cons.injEq] at h
        simp [h.1]
      | succ i =>
        have : pick (fun i => J (i + 1)) l = pick (fun i => J (i + 1)) m := by
          split at h
          · exact (List.cons.inj h).2
          · exact h
        simpa using ih hl this i hi

theorem pick_of_get {α} {J : Nat → Bool} {l m : List α} (hl : l.length = m.length) (h : ∀ i, J i = true → l[i]? = m[i]?) : pick J l = pick J m := by
  induction l generalizing J m with
  | nil =>
    obtain rfl : m = [] := List.length_eq_zero_iff.1 hl.symm
    rfl
  | cons x l ih =>
    cases m with
    | nil => cases hl
    | cons y m =>
      simp only [List.length_cons, Nat.add_right_cancel_iff] at hl
      have := ih hl (J := fun i => J (i + 1)) fun i hi => by simpa using h (i + 1) hi
      simp only [pick]
      split
      · rename_i hJ
        have := h 0 hJ
        simp only [List.getElem?_cons_zero, Option.some.injEq] at this
        simp_all
      · exact this

theorem pick_congr {α} {J K : Nat → Bool} {l : List α} (h : ∀ i, i < l.length → J i = K i) : pick J l = pick K l := by
  induction l generalizing J K with
  | nil => rfl
  | cons x l ih =>
    simp only [pick]
    rw [h 0 (by simp), ih (J := fun i => J (i + 1)) (K := fun i => K (i + 1)) fun i hi => h (i + 1) (by simp; omega)]

theorem eq_of_pick {α} {J : Nat → Bool} {l m : List α} (hl : l.length = m.length) (h : pick J l = pick J m)
    (h' : pick (fun i => !J i) l = pick (fun i => !J i) m) : l = m := by
  apply List.ext_getElem?
  intro i
  cases hJ : J i with
  | true => exact pick_get hl h i hJ
  | false => exact pick_get hl h' i (by simp [hJ])

theorem forall₂_pick {α β} {R : α → β → Prop} : ∀ {J : Nat → Bool} {l : List α} {m : List β}, List.Forall₂ R l m → List.Forall₂ R (pick J l) (pick J m) := by
  intro J l m h
  induction h generalizing J with
  | nil => exact .nil
  | cons h _ ih =>
    simp only [pick]
    split
    · exact .cons h ih
    · exact ih

theorem evals_map {D} (A : Alg D) (ρ : Name → D) (cs : List Node) : Node.evals A ρ cs = cs.map (Node.eval A ρ) := by
  induction cs with
  | nil => rfl
  | cons c cs ih => rw [Node.evals, ih]; rfl

theorem pick_evals {D} (A : Alg D) (ρ : Name → D) (J : Nat → Bool) (cs : List Node) : pick J (Node.evals A ρ cs) = Node.evals A ρ (pick J cs) := by
  rw [evals_map, evals_map, pick_map]

mutual
/-- Equal values come from equal values of the variables. -/
theorem Node.eval_inj {D} {A : Alg D} (S : A.Sharp) {ρ ρ' : Name → D} : ∀ (n : Node), n.eval A ρ = n.eval A ρ' → ∀ v ∈ n.vars, ρ v = ρ' v
  | .var w, h, v, hv => by
    simp only [Node.vars, List.mem_singleton] at hv
    subst hv; exact h
  | .cons _, _, v, hv => by cases hv
  | .int _, _, v, hv => by cases hv
  | .fn f cs, h, v, hv => Node.evals_inj S cs (S.fn_inj h).2 v hv
  | .efn f cs, h, v, hv => Node.evals_inj S cs (S.efn_inj h).2 v hv
theorem Node.evals_inj {D} {A : Alg D} (S : A.Sharp) {ρ ρ' : Name → D} : ∀ (cs : List Node), Node.evals A ρ cs = Node.evals A ρ' cs →
    ∀ v ∈ Node.varss cs, ρ v = ρ' v
  | [], _, v, hv => by cases hv
  | c :: cs, h, v, hv => by
    simp only [Node.evals, List.cons.injEq] at h
    rcases List.mem_append.1 (by simpa [Node.varss] using hv) with hv | hv
    · exact Node.eval_inj S c h.1 v hv
    · exact Node.evals_inj S cs h.2 v hv
end

mutual
/-- The variables of a term that stands for a finite tree stand for finite trees that are not larger. -/
theorem Node.eval_fold {ρ : Name → ITree} : ∀ (n : Node) (t : Tree), n.eval itreeAlg ρ = t.fold itreeAlg →
    ∀ v ∈ n.vars, ∃ u : Tree, u.size ≤ t.size ∧ ρ v = u.fold itreeAlg
  | .var w, t, h, v, hv => by
    simp only [Node.vars, List.mem_singleton] at hv
    subst hv; exact ⟨t, Nat.le_refl _, h⟩
  | .cons _, _, _, v, hv => by cases hv
  | .int _, _, _, v, hv => by cases hv
  | .fn f cs, t, h, v, hv => by
    cases t with
    | cons n => exact absurd h.symm itreeAlg_sharp.cons_fn
    | int v => exact absurd h.symm itreeAlg_sharp.int_fn
    | efn g ts => exact absurd h itreeAlg_sharp.fn_efn
    | fn g ts =>
      obtain ⟨u, h1, h2⟩ := Node.evals_fold cs ts (itreeAlg_sharp.fn_inj h).2 v hv
      exact ⟨u, by simp only [Tree.size]; omega, h2⟩
  | .efn f cs, t, h, v, hv => by
    cases t with
    | cons n => exact absurd h.symm itreeAlg_sharp.cons_efn
    | int v => exact absurd h.symm itreeAlg_sharp.int_efn
    | fn g ts => exact absurd h.symm itreeAlg_sharp.fn_efn
    | efn g ts =>
      obtain ⟨u, h1, h2⟩ := Node.evals_fold cs ts (itreeAlg_sharp.efn_inj h).2 v hv
      exact ⟨u, by simp only [Tree.size]; omega, h2⟩
theorem Node.evals_fold {ρ : Name → ITree} : ∀ (cs : List Node) (ts : List Tree), Node.evals itreeAlg ρ cs = Tree.folds itreeAlg ts →
    ∀ v ∈ Node.varss cs, ∃ u : Tree, u.size ≤ Tree.sizes ts ∧ ρ v = u.fold itreeAlg
  | [], _, _, v, hv => by cases hv
  | c :: cs, [], h, v, hv => by cases h
  | c :: cs, t :: ts, h, v, hv => by
    simp only [Node.evals, Tree.folds, List.cons.injEq] at h
    simp only [Tree.sizes]
    rcases List.mem_append.1 (by simpa [Node.varss] using hv) with hv | hv
    · obtain ⟨u, h1, h2⟩ := Node.eval_fold c t h.1 v hv
      exact ⟨u, by omega, h2⟩
    · obtain ⟨u, h1, h2⟩ := Node.evals_fold cs ts h.2 v hv
      exact ⟨u, by omega, h2⟩
end

mutual
theorem Node.fold_eval {D} (A : Alg D) (ρ : Name → Tree) : ∀ n : Node, (n.eval treeAlg ρ).fold A = n.eval A (fun v => (ρ v).fold A)
  | .var w => rfl
  | .cons _ => rfl
  | .int _ => rfl
  | .fn f cs => by rw [Node.eval, Node.eval, ← Node.fold_evals A ρ cs]; rfl
  | .efn f cs => by rw [Node.eval, Node.eval, ← Node.fold_evals A ρ cs]; rfl
theorem Node.fold_evals {D} (A : Alg D) (ρ : Name → Tree) : ∀ cs : List Node,
    Tree.folds A (Node.evals treeAlg ρ cs) = Node.evals A (fun v => (ρ v).fold A) cs
  | [] => rfl
  | c :: cs => by rw [Node.evals, Node.evals, Tree.folds, Node.fold_eval A ρ c, Node.fold_evals A ρ cs]
end

theorem argVals_map {D E} (g : D → E) (σ : Nat → D) (a n : Nat) : (argVals σ a n).map g = argVals (fun a => g (σ a)) a n := by
  apply List.ext_getElem?
  intro i
  rw [List.getElem?_map, argVals_get, argVals_get]
  split <;> rfl

/-- A finite solution is a solution in every algebra. -/
theorem Mod.fold {D} {A : Alg D} {I : Int → FV} {H : HV} {σ : Nat → Tree} (m : Mod (toIAlg treeAlg I) H σ) :
    Mod (toIAlg A I) H fun a => (σ a).fold A := by
  intro a c hc
  have := m a c hc
  cases c with
  | ref b v => exact congrArg (Tree.fold A) this
  | str b => exact congrArg (Tree.fold A) this
  | cons i => exact congrArg (Tree.fold A) this
  | int i => exact congrArg (Tree.fold A) this
  | fn f n =>
    refine (congrArg (Tree.fold A) this).trans ?_
    simp only [toIAlg, treeAlg, Tree.fold, Tree.folds_eq, argVals_map]
  | efn f n =>
    refine (congrArg (Tree.fold A) this).trans ?_
    simp only [toIAlg, treeAlg, Tree.fold, Tree.folds_eq, argVals_map]

/-! ## Goals whose inputs do not depend on the open variables -/

/-- The predicate of a ground goal. -/
def GAtom.fv {D} (g : GAtom D) : FV := ⟨g.name, g.args.length⟩

/-- The lists of goals have the same inputs, as long as the goals before had the same outputs; if all have, then `E` holds. -/
def Modes.Alike {D} (M : Modes) (E : Prop) : List (GAtom D) → List (GAtom D) → Prop
  | g :: gs, g' :: gs' => g.fv = g'.fv ∧ pick (M.ins g.fv) g.args = pick (M.ins g.fv) g'.args ∧
      (pick (M.outs g.fv) g.args = pick (M.outs g.fv) g'.args → M.Alike E gs gs')
  | [], [] => E
  | _, _ => False

theorem fv_inst {D} (A : Alg D) (ρ : Name → D) (n : Node) : (n.inst A ρ).fv = n.fv := by
  simp [GAtom.fv, Node.inst, Node.fv, evals_length]

/-- Goals that respect the modes have the same inputs. -/
theorem Modes.Chain.alike {D} {A : Alg D} (S : A.Sharp) {M : Modes} {R : List Name} {ρ ρ' : Name → D} {E : Prop} {gs gs' : List (GAtom D)} : ∀ {as : List Node} {G : List Name},
    M.Chain R G as → (∀ v ∈ G, ρ v = ρ' v) → ((∀ v ∈ R, ρ v = ρ' v) → M.Alike E gs gs') →
    M.Alike E (as.map (Node.inst A ρ) ++ gs) (as.map (Node.inst A ρ') ++ gs') := by
  intro as
  induction as with
  | nil => intro G h hG hR; exact hR fun v hv => hG v (h v hv)
  | cons a as ih =>
    intro G h hG hR
    refine ⟨by rw [fv_inst, fv_inst], ?_, fun ho => ?_⟩
    · rw [fv_inst]
      simp only [Node.inst, pick_evals]
      exact Node.evals_congr _ _ fun v hv => hG v (h.1 v hv)
    · rw [fv_inst] at ho
      simp only [Node.inst, pick_evals] at ho
      refine ih h.2 (fun v hv => ?_) hR
      rcases List.mem_append.1 hv with hv | hv
      · exact Node.evals_inj S _ ho v hv
      · exact hG v hv

/-- All values of the goals left have the same inputs.  If all goals have the same outputs, then the variables `R` of the query have the same values. -/
def Kind.Moded (M : Modes) (R : List Name) (I : Int → FV) (H : HV) : Kind → Prop
  | .res _ fr fs => ∀ (τ τ' : Nat → ITree) ρq ρq' gs gs', Mod (toIAlg itreeAlg I) H τ → Mod (toIAlg itreeAlg I) H τ' →
      Goals itreeAlg τ ρq (fr :: fs) gs → Goals itreeAlg τ' ρq' (fr :: fs) gs' → M.Alike (∀ v ∈ R, ρq v = ρq' v) gs gs'
  | .head f ps fs _ => ∀ (τ τ' : Nat → ITree) ρq ρq' gs gs', Mod (toIAlg itreeAlg I) H τ → Mod (toIAlg itreeAlg I) H τ' →
      Goals itreeAlg τ ρq fs gs → Goals itreeAlg τ' ρq' fs gs' → M.Alike (∀ v ∈ R, ρq v = ρq' v) (gAtom f (ps.map τ) :: gs) (gAtom f (ps.map τ') :: gs')

end PBfs
