import Verif.Proof.Solve
import Verif.Proof.Builtin
/-! # Solutions that tell terms apart -/
namespace PBfs

/-- A value for the open variable `a` that nothing else has. -/
def mark (a : Nat) : ITree := .node (.efn (List.replicate a 'v') 0) []

theorem mark_inj {a b : Nat} (h : mark a = mark b) : a = b := by
  have := ITree.node_label h
  simp only [Label.efn.injEq, and_true] at this
  have := congrArg List.length this
  simpa using this

theorem mark_evals {a v} (h : Evals itreeAlg (mark a) v) : False := by
  generalize hx : mark a = x at h
  cases h with
  | int => have := ITree.node_label hx; cases this
  | op => have := ITree.node_label hx; simp at this

/-- A solution in which the open variables have values that nothing else has. -/
structure Marks (I : Int → FV) (H : HV) (σ : Nat → ITree) : Prop where
  mod : Mod (toIAlg itreeAlg I) H σ
  mark : ∀ a v, H a = some (.ref a v) → σ a = mark a

theorem Good.marks {V H size lim} (g : Good V H size lim) (I : Int → FV) : ∃ σ, Marks I H σ := by
  obtain ⟨σ, h1, h2⟩ := g.solve_itree I mark
  exact ⟨σ, h1, h2⟩

/-- The head of a tree that is not an open variable. -/
theorem mark_node {st : Storage} {I : Int → FV} {H : HV} {σ : Nat → ITree} (m : Mod (toIAlg itreeAlg I) H σ) {d c x} (hc : H d = some c)
    (hv : ValidCell st c) (hp : c.isPtr = false) : σ d ≠ mark x := by
  intro h
  have e := m _ _ hc
  cases c with
  | ref => cases hp
  | str => cases hp
  | int => have := ITree.node_label (h.symm.trans e); cases this
  | cons => have := ITree.node_label (h.symm.trans e); cases this
  | fn => have := ITree.node_label (h.symm.trans e); cases this
  | efn f k =>
    obtain ⟨_, rfl⟩ := hv
    have := ITree.node_label (h.symm.trans e)
    simp [argVals] at this

/-- Different cells that are no pointers have different values. -/
theorem cell_ne {D} {B : IAlg D} {V : Cell → Prop} (F : Free B V) {σ : Nat → D} {d1 d2 c1 c2} (v1 : V c1) (v2 : V c2) (p1 : c1.isPtr = false)
    (p2 : c2.isPtr = false) (hne : c1 ≠ c2) (e1 : CellEq B σ d1 c1) (e2 : CellEq B σ d2 c2) : σ d1 ≠ σ d2 := by
  intro h
  cases c1 <;> first | (cases p1; done) | skip
  all_goals cases c2 <;> first | (cases p2; done) | skip
  all_goals (have e := e1.symm.trans (h.trans e2))
  case cons.cons => exact hne (by rw [F.cons_inj v1 v2 e])
  case int.int => exact hne (by rw [F.int_inj e])
  case fn.fn f n g k =>
    have hl := F.fn_inj v1 v2 (argVals_length ..) (argVals_length ..) e
    have := congrArg List.length hl.2
    simp only [argVals_length] at this
    exact hne (by rw [hl.1, this])
  case efn.efn f n g k =>
    have hl := F.efn_inj v1 v2 (argVals_length ..) (argVals_length ..) e
    have := congrArg List.length hl.2
    simp only [argVals_length] at this
    exact hne (by rw [hl.1, this])
  case cons.int => exact F.cons_int e
  case cons.fn => exact F.cons_fn e
  case cons.efn => exact F.cons_efn e
  case int.cons => exact F.cons_int e.symm
  case int.fn => exact F.int_fn e
  case int.efn => exact F.int_efn e
  case fn.cons => exact F.cons_fn e.symm
  case fn.int => exact F.int_fn e.symm
  case fn.efn => exact F.fn_efn e
  case efn.cons => exact F.cons_efn e.symm
  case efn.int => exact F.int_efn e.symm
  case efn.fn => exact F.fn_efn e.symm

/-- Terms that are not identical have different values where the open variables have values that nothing else has. -/
theorem heapRegEquals_marks {st : Storage} {I : Int → FV} (hst : StOK st) (hI : Interp I st) {pre} {h : Hp}
    (g : Good (ValidCell st) (h.at? pre) h.size h.size) {σ} (M : Marks I (h.at? pre) σ) :
    ∀ n {a b}, a < h.size → b < h.size → heapRegEquals pre h n a b = .ok false → σ a ≠ σ b := by
  have F := itreeAlg_sharp.free hst hI
  intro n
  induction n with
  | zero => intro a b _ _ h; cases h
  | succ n ih =>
    intro a b ha hb hr
    obtain ⟨d1, d2, c1, c2, t1, t2, h1, h2, e⟩ := heapRegEquals_deref g (n := n) ha hb
    rw [e] at hr
    rw [M.mod.deref t1, M.mod.deref t2]
    have e1 := t1.end_cell.2
    have e2 := t2.end_cell.2
    rw [h1] at e1
    rw [h2] at e2
    have m1 := M.mod _ _ h1
    have m2 := M.mod _ _ h2
    have v1 := g.valid _ _ h1
    have v2 := g.valid _ _ h2
    have args : ∀ {k}, d1 + k < h.size → d2 + k < h.size → functorEquals (heapRegEquals pre h n) d1 d2 0 k = .ok false →
        argVals σ (d1 + 1) k ≠ argVals σ (d2 + 1) k := by
      intro k l1 l2 hr he
      obtain ⟨m, hm, _, m2⟩ := functorEquals_ok hr
      simp only [Bool.false_eq_true, if_false] at m2
      refine ih (a := d1 + 1 + m) (b := d2 + 1 + m) (by omega) (by omega) (by simpa using m2.2) ?_
      have := congrArg (fun l => l[m]?) he
      simp only [argVals_get] at this
      simpa [m2.1] using this
    split at hr
    · rename_i hne
      rcases e1 with ⟨v, e1⟩ | ⟨c, e1, p1⟩
      · cases e1
        rw [M.mark _ _ h1]
        rcases e2 with ⟨w, e2⟩ | ⟨c, e2, p2⟩
        · cases e2
          rw [M.mark _ _ h2]
          intro hm
          have := mark_inj hm
          subst this
          rw [h1] at h2; cases h2; exact hne rfl
        · cases e2
          exact fun hm => mark_node M.mod h2 v2 p2 hm.symm
      · cases e1
        rcases e2 with ⟨w, e2⟩ | ⟨c, e2, p2⟩
        · cases e2
          rw [M.mark _ _ h2]
          exact mark_node M.mod h1 v1 p1
        · cases e2
          exact cell_ne F v1 v2 p1 p2 hne m1 m2
    · rename_i heq
      have heq : c1 = c2 := by simpa using heq
      subst heq
      cases c1 with
      | ref x v =>
        simp only [pure_ok] at hr
        rcases e1 with ⟨v, e1⟩ | ⟨c, e1, p1⟩
        · cases e1
          rcases e2 with ⟨w, e2⟩ | ⟨c, e2, p2⟩
          · cases e2
            simp at hr
          · cases e2; cases p2
        · cases e1; cases p1
      | fn f k =>
        intro he
        refine args (g.fnArgs _ _ _ h1) (g.fnArgs _ _ _ h2) hr ?_
        exact (F.fn_inj v1 v2 (argVals_length ..) (argVals_length ..) (m1.symm.trans (he.trans m2))).2
      | efn f k =>
        intro he
        refine args (g.efnArgs _ _ _ h1) (g.efnArgs _ _ _ h2) hr ?_
        exact (F.efn_inj v1 v2 (argVals_length ..) (argVals_length ..) (m1.symm.trans (he.trans m2))).2
      | _ => simp only [pure_ok] at hr; cases hr

/-- An expression of which the evaluation stops at an open variable has no value where the open variables have values
that nothing else has. -/
theorem evalArith_marks {st : Storage} {I : Int → FV} {pre} {h : Hp} (g : Good (ValidCell st) (h.at? pre) h.size h.size)
    {σ} (M : Marks I (h.at? pre) σ) : ∀ n {a err}, a < h.size → evalArith pre st h n a = .ok (.inl err) → err.kind = .notInstantiated →
      ∀ v, ¬ Evals itreeAlg (σ a) v := by
  intro n
  induction n with
  | zero => intro a err _ h; cases h
  | succ n ih =>
    intro a err ha hr hk v hv
    obtain ⟨d, e1, t1⟩ := deref_ok g ha
    obtain ⟨c, hc⟩ := g.get (t1.lt g)
    rw [M.mod.deref t1] at hv
    have hd := M.mod _ _ hc
    rw [evalArith] at hr
    simp only [e1, hc, orFault_some, ok_bind] at hr
    cases c with
    | int w => simp [checkEvaluable, pure, Except.pure, bind, Except.bind] at hr
    | ref b k =>
      rcases t1.end_cell.2 with ⟨w, hw⟩ | ⟨c, hw, hp⟩
      · rw [M.mark _ _ hw] at hv
        exact mark_evals hv
      · rw [hc] at hw; cases hw; cases hp
    | str b =>
      rcases t1.end_cell.2 with ⟨w, hw⟩ | ⟨c, hw, hp⟩
      · rw [hc] at hw; cases hw
      · rw [hc] at hw; cases hw; cases hp
    | cons i =>
      have hd : σ d = itreeAlg.cons (I i).name := hd
      rw [hd] at hv
      exact hv.cons_inv itreeAlg_sharp
    | fn f k =>
      have hd : σ d = itreeAlg.fn (I f).name _ := hd
      rw [hd] at hv
      exact hv.fn_inv itreeAlg_sharp
    | efn f k =>
      obtain ⟨hf, rfl⟩ := g.valid _ _ hc
      have hl := g.efnArgs _ _ _ hc
      have hd : σ d = itreeAlg.efn _ [σ (d + 1), σ (d + 2)] := hd
      rw [hd] at hv
      obtain ⟨l, r, x, y, hx, h1, h2, h3⟩ := hv.efn_inv itreeAlg_sharp
      simp only [List.cons.injEq, and_true] at hx
      obtain ⟨rfl, rfl⟩ := hx
      simp only [checkEvaluable, pure_bind, bind_ok] at hr
      obtain ⟨l, hl1, hr⟩ := hr
      cases l with
      | inl e =>
        simp only [pure_ok] at hr; cases hr
        exact ih (by omega) hl1 hk _ h1
      | inr l =>
        simp only [bind_ok] at hr
        obtain ⟨r, hr1, hr⟩ := hr
        cases r with
        | inl e =>
          simp only [pure_ok] at hr; cases hr
          exact ih (by omega) hr1 hk _ h2
        | inr r =>
          simp only at hr
          split at hr
          · simp only [pure_ok] at hr; cases hr; cases hk
          · simp only [bind_ok, pure_ok] at hr
            obtain ⟨w, hw, hr⟩ := hr
            cases hr

end PBfs
