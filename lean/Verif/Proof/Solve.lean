import Verif.Proof.Terms
import Verif.Proof.Interp
import Verif.Spec.Answers
/-! # Solutions of heaps -/
namespace PBfs

theorem OTerm.evals_eq {D} (A : Alg D) (I : Int → FV) (ω : Nat → D) (ts : List OTerm) :
    OTerm.evals A I ω ts = ts.map (OTerm.eval A I ω) := by
  induction ts with
  | nil => rfl
  | cons t ts ih => simp [OTerm.evals, ih]

theorem argVals_eq {D} {σ : Nat → D} {a : Nat} : ∀ {n : Nat} {l : List D}, l.length = n →
    (∀ (i : Nat) x, l[i]? = some x → σ (a + i) = x) → argVals σ a n = l := by
  intro n
  induction n generalizing a with
  | zero =>
    intro l hl _
    cases l with
    | nil => rfl
    | cons => cases hl
  | succ n ih =>
    intro l hl h
    cases l with
    | nil => cases hl
    | cons x l =>
      have h0 : σ a = x := h 0 x rfl
      rw [argVals, h0, ih (by simpa using hl) fun i y hy => by
        have := h (i + 1) y (by simpa using hy)
        rw [← this]; congr 1; omega]

/-- The value of an address is the value of the term found there. -/
theorem Reads.eval {D} {A : Alg D} {I : Int → FV} {H : HV} {σ ω : Nat → D} (m : Mod (toIAlg A I) H σ)
    (hω : ∀ a v, H a = some (.ref a v) → σ a = ω a) {a t} (h : Reads H a t) : σ a = t.eval A I ω := by
  induction h with
  | ref h1 _ _ ih => exact (m _ _ h1).trans ih
  | str h1 _ ih => exact (m _ _ h1).trans ih
  | var h1 => exact hω _ _ h1
  | cons h1 => exact m _ _ h1
  | int h1 => exact m _ _ h1
  | @fn a f n ts h1 hl _ ih =>
    have := m _ _ h1
    rw [CellEq] at this
    rw [this, OTerm.eval, OTerm.evals_eq]
    show A.fn _ _ = _
    congr 1
    refine argVals_eq (by simpa using hl) fun i x hx => ?_
    simp only [List.getElem?_map, Option.map_eq_some_iff] at hx
    obtain ⟨t, ht, rfl⟩ := hx
    exact ih i t ht
  | @efn a f n ts h1 hl _ ih =>
    have := m _ _ h1
    rw [CellEq] at this
    rw [this, OTerm.eval, OTerm.evals_eq]
    show A.efn _ _ = _
    congr 1
    refine argVals_eq (by simpa using hl) fun i x hx => ?_
    simp only [List.getElem?_map, Option.map_eq_some_iff] at hx
    obtain ⟨t, ht, rfl⟩ := hx
    exact ih i t ht

/-! ## Infinite trees -/

theorem ITree.node_inj {l l' : Label} {ts ts' : List ITree} (h : ITree.node l ts = ITree.node l' ts') (hl : ts.length = ts'.length) :
    l = l' ∧ ts = ts' := by
  constructor
  · have := congrFun h []
    simpa [ITree.node] using this
  · apply List.ext_getElem hl
    intro i h1 h2
    funext p
    have := congrFun h (i :: p)
    simpa [ITree.node, h1, h2] using this

theorem ITree.node_label {l l' : Label} {ts ts' : List ITree} (h : ITree.node l ts = ITree.node l' ts') : l = l' := by
  have := congrFun h []
  simpa [ITree.node] using this

theorem itreeAlg_sharp : itreeAlg.Sharp where
  cons_inj h := by simpa using ITree.node_label h
  int_inj h := by simpa using ITree.node_label h
  fn_inj h := by
    have h1 := ITree.node_label h
    simp only [Label.fn.injEq] at h1
    exact ⟨h1.1, (ITree.node_inj h h1.2).2⟩
  efn_inj h := by
    have h1 := ITree.node_label h
    simp only [Label.efn.injEq] at h1
    exact ⟨h1.1, (ITree.node_inj h h1.2).2⟩
  cons_int h := by have := ITree.node_label h; cases this
  cons_fn h := by have := ITree.node_label h; cases this
  cons_efn h := by have := ITree.node_label h; cases this
  int_fn h := by have := ITree.node_label h; cases this
  int_efn h := by have := ITree.node_label h; cases this
  fn_efn h := by have := ITree.node_label h; cases this

open Classical in
/-- The end of the chain from `a`. -/
noncomputable def endOf (H : HV) (a : Nat) : Nat := if h : ∃ d, DerefTo H a d then h.choose else a

theorem endOf_eq {H : HV} {a d} (h : DerefTo H a d) : endOf H a = d := by
  have he : ∃ d, DerefTo H a d := ⟨d, h⟩
  rw [endOf, dif_pos he]
  exact he.choose_spec.det h

/-- The label of the tree at `a` that is found at a path. -/
noncomputable def labelAt (I : Int → FV) (H : HV) (ω : Nat → ITree) : List Nat → Nat → Option Label
  | [], a =>
    match H (endOf H a) with
    | some (.cons i) => some (.cons (I i).name)
    | some (.int v) => some (.int v)
    | some (.fn f n) => some (.fn (I f).name n)
    | some (.efn f n) => some (.efn (arithNames.getD f []) n)
    | some (.ref _ _) => ω (endOf H a) []
    | _ => none
  | i :: p, a =>
    match H (endOf H a) with
    | some (.fn _ n) => if i < n then labelAt I H ω p (endOf H a + 1 + i) else none
    | some (.efn _ n) => if i < n then labelAt I H ω p (endOf H a + 1 + i) else none
    | some (.ref _ _) => ω (endOf H a) (i :: p)
    | _ => none

theorem labelAt_congr {I H ω} {a b : Nat} (h : endOf H a = endOf H b) : ∀ p, labelAt I H ω p a = labelAt I H ω p b
  | [] => by rw [labelAt, labelAt, h]
  | _ :: _ => by rw [labelAt, labelAt, h]

theorem argVals_get {D} {σ : Nat → D} {n a i : Nat} : (argVals σ a n)[i]? = if i < n then some (σ (a + i)) else none := by
  induction n generalizing a i with
  | zero => simp [argVals]
  | succ n ih =>
    cases i with
    | zero => simp [argVals]
    | succ i =>
      rw [argVals, List.getElem?_cons_succ, ih]
      by_cases h : i < n
      · simp [h]; congr 1; omega
      · simp [h]

/-- Every heap has a solution in infinite trees, whatever values the open variables have. -/
theorem Good.solve_itree {V H size lim} (g : Good V H size lim) (I : Int → FV) (ω : Nat → ITree) :
    ∃ σ : Nat → ITree, Mod (toIAlg itreeAlg I) H σ ∧ ∀ a v, H a = some (.ref a v) → σ a = ω a := by
  have self : ∀ {a c}, H a = some c → c.isPtr = false → endOf H a = a := fun h1 h2 => endOf_eq ⟨0, .val h1 h2⟩
  refine ⟨fun a p => labelAt I H ω p a, fun a c h => ?_, fun a v h => ?_⟩
  · have ptr : ∀ {b}, (∀ d, DerefTo H b d → DerefTo H a d) → (∀ d, DerefTo H a d → b ≠ a → DerefTo H b d) →
        (fun p => labelAt I H ω p a) = fun p => labelAt I H ω p b := by
      intro b h1 h2
      funext p
      refine labelAt_congr ?_ p
      by_cases hab : b = a
      · rw [hab]
      · obtain ⟨d, hd⟩ := g.ends a (g.lt h)
        rw [endOf_eq hd, endOf_eq (h2 d hd hab)]
    cases c with
    | ref b v =>
      show (fun p => labelAt I H ω p a) = fun p => labelAt I H ω p b
      by_cases hb : b = a
      · subst hb; rfl
      · refine ptr (fun d ⟨n, hn⟩ => ⟨n + 1, .ref h hb hn⟩) fun d ⟨n, hn⟩ _ => ?_
        cases hn with
        | val h1 h2 => rw [h] at h1; cases h1; cases h2
        | self h1 => rw [h] at h1; cases h1; exact absurd rfl hb
        | ref h1 _ h3 => rw [h] at h1; cases h1; exact ⟨_, h3⟩
        | str h1 _ h3 => rw [h] at h1; cases h1
    | str b =>
      show (fun p => labelAt I H ω p a) = fun p => labelAt I H ω p b
      by_cases hb : b = a
      · subst hb; rfl
      · refine ptr (fun d ⟨n, hn⟩ => ⟨n + 1, .str h hb hn⟩) fun d ⟨n, hn⟩ _ => ?_
        cases hn with
        | val h1 h2 => rw [h] at h1; cases h1; cases h2
        | self h1 => rw [h] at h1; cases h1
        | ref h1 _ h3 => rw [h] at h1; cases h1
        | str h1 _ h3 => rw [h] at h1; cases h1; exact ⟨_, h3⟩
    | cons i =>
      funext p
      show labelAt I H ω p a = ITree.node _ [] p
      cases p <;> simp [labelAt, self h rfl, h, ITree.node]
    | int i =>
      funext p
      show labelAt I H ω p a = ITree.node _ [] p
      cases p <;> simp [labelAt, self h rfl, h, ITree.node]
    | fn f n =>
      funext p
      show labelAt I H ω p a = ITree.node _ _ p
      cases p with
      | nil => simp [labelAt, self h rfl, h, ITree.node]
      | cons i p =>
        simp only [labelAt, self h rfl, h, ITree.node, argVals_get]
        split <;> simp
    | efn f n =>
      funext p
      show labelAt I H ω p a = ITree.node _ _ p
      cases p with
      | nil => simp [labelAt, self h rfl, h, ITree.node]
      | cons i p =>
        simp only [labelAt, self h rfl, h, ITree.node, argVals_get]
        split <;> simp
  · have : endOf H a = a := endOf_eq ⟨0, .self h⟩
    funext p
    cases p <;> simp [labelAt, this, h]

/-! ## Finite trees -/

/-- A heap without cyclic terms has a solution in every algebra, whatever values the open variables have. -/
theorem solve_finite {D} (A : Alg D) (I : Int → FV) {H : HV} {size : Nat} (hd : ∀ a, (H a).isSome ↔ a < size)
    (hr : ∀ a, a < size → ∃ t, Reads H a t) (ω : Nat → D) :
    ∃ σ : Nat → D, Mod (toIAlg A I) H σ ∧ ∀ a v, H a = some (.ref a v) → σ a = ω a := by
  classical
  let σ : Nat → D := fun a => if h : ∃ t, Reads H a t then h.choose.eval A I ω else ω a
  have hσ : ∀ {a t}, Reads H a t → σ a = t.eval A I ω := by
    intro a t h
    have he : ∃ t, Reads H a t := ⟨t, h⟩
    simp only [σ, dif_pos he]
    rw [he.choose_spec.det h]
  refine ⟨σ, fun a c h => ?_, fun a v h => hσ (.var h)⟩
  obtain ⟨t, ht⟩ := hr a ((hd a).1 (by simp [h]))
  have args : ∀ {n : Nat} {ts : List OTerm}, ts.length = n → (∀ (i : Nat) t, ts[i]? = some t → Reads H (a + 1 + i) t) →
      OTerm.evals A I ω ts = argVals σ (a + 1) n := by
    intro n ts hl hrs
    rw [OTerm.evals_eq]
    refine (argVals_eq (by simpa using hl) fun i x hx => ?_).symm
    simp only [List.getElem?_map, Option.map_eq_some_iff] at hx
    obtain ⟨t, ht, rfl⟩ := hx
    exact hσ (hrs i t ht)
  cases ht with
  | ref h1 h2 h3 => rw [h] at h1; cases h1; rw [CellEq, hσ (.ref h h2 h3), hσ h3]
  | str h1 h3 => rw [h] at h1; cases h1; rw [CellEq, hσ (.str h h3), hσ h3]
  | var h1 => rw [h] at h1; cases h1; rw [CellEq]
  | cons h1 => rw [h] at h1; cases h1; rw [CellEq, hσ (.cons h)]; rfl
  | int h1 => rw [h] at h1; cases h1; rw [CellEq, hσ (.int h)]; rfl
  | fn h1 hl hrs => rw [h] at h1; cases h1; rw [CellEq, hσ (.fn h hl hrs), OTerm.eval, args hl hrs]; rfl
  | efn h1 hl hrs => rw [h] at h1; cases h1; rw [CellEq, hσ (.efn h hl hrs), OTerm.eval, args hl hrs]; rfl

theorem Good.reads_of {V H size} (g : Good V H size size) {I : Int → FV} {σ : Nat → Tree} (m : Mod (toIAlg treeAlg I) H σ) :
    ∀ a, a < size → ∃ t, Reads H a t := by
  intro a ha
  generalize hn : sizeOf (σ a) = n
  induction n using Nat.strongRecOn generalizing a with
  | _ n ih =>
    subst hn
    obtain ⟨d, hd⟩ := g.ends a ha
    have hda : σ a = σ d := m.deref hd
    have fin : ∀ {t}, Reads H d t → ∃ t, Reads H a t := fun h => ⟨_, (Reads.deref hd).2 h⟩
    rcases hd.end_cell.2 with ⟨v, hv⟩ | ⟨c, hc, hp⟩
    · exact fin (.var hv)
    · cases c with
      | cons => exact fin (.cons hc)
      | int => exact fin (.int hc)
      | ref => cases hp
      | str => cases hp
      | fn f n =>
        have e : σ d = Tree.fn (I f).name (argVals σ (d + 1) n) := m _ _ hc
        have hlt := g.fnArgs _ _ _ hc
        obtain ⟨ts, t1, t2⟩ := exists_list (k := n) (P := fun j t => Reads H (d + 1 + j) t) fun j hj => by
          refine ih _ ?_ (d + 1 + j) (by omega) rfl
          have : sizeOf (σ (d + 1 + j)) < sizeOf (argVals σ (d + 1) n) :=
            List.sizeOf_lt_of_mem (List.mem_iff_getElem?.2 ⟨j, by rw [argVals_get, if_pos hj]⟩)
          rw [hda, e]
          simp only [Tree.fn.sizeOf_spec]
          omega
        exact fin (.fn hc t1 t2)
      | efn f n =>
        have e : σ d = Tree.efn (arithNames.getD f []) (argVals σ (d + 1) n) := m _ _ hc
        have hlt := g.efnArgs _ _ _ hc
        obtain ⟨ts, t1, t2⟩ := exists_list (k := n) (P := fun j t => Reads H (d + 1 + j) t) fun j hj => by
          refine ih _ ?_ (d + 1 + j) (by omega) rfl
          have : sizeOf (σ (d + 1 + j)) < sizeOf (argVals σ (d + 1) n) :=
            List.sizeOf_lt_of_mem (List.mem_iff_getElem?.2 ⟨j, by rw [argVals_get, if_pos hj]⟩)
          rw [hda, e]
          simp only [Tree.efn.sizeOf_spec]
          omega
        exact fin (.efn hc t1 t2)

end PBfs
