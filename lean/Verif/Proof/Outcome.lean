import Verif.Spec.Resolution
import Verif.Proof.Separate
/-! # What the evaluation of expressions comes to -/
namespace PBfs

theorem Outcome.efn_inv {D} {A : Alg D} (S : A.Sharp) {f l r k} (h : Outcome A (A.efn f [l, r]) (.inl k)) :
    Outcome A l (.inl k) ∨ (∃ a, Evals A l a ∧ Outcome A r (.inl k)) ∨
      ∃ a, Evals A l a ∧ Evals A r 0 ∧ f = n!"//" ∧ k = .divByZero := by
  generalize hx : A.efn f [l, r] = x at h
  generalize hy : (Sum.inl k : ErrKind ⊕ Int) = y at h
  cases h with
  | value => cases hy
  | cons => exact absurd hx.symm S.cons_efn
  | fn => exact absurd hx.symm S.fn_efn
  | left h1 =>
    cases hy
    obtain ⟨_, e⟩ := S.efn_inj hx
    simp only [List.cons.injEq, and_true] at e
    obtain ⟨rfl, rfl⟩ := e
    exact .inl h1
  | right h1 h2 =>
    cases hy
    obtain ⟨_, e⟩ := S.efn_inj hx
    simp only [List.cons.injEq, and_true] at e
    obtain ⟨rfl, rfl⟩ := e
    exact .inr (.inl ⟨_, h1, h2⟩)
  | zero h1 h2 =>
    cases hy
    obtain ⟨e1, e⟩ := S.efn_inj hx
    simp only [List.cons.injEq, and_true] at e
    obtain ⟨rfl, rfl⟩ := e
    exact .inr (.inr ⟨_, h1, h2, e1, rfl⟩)

theorem Outcome.value_inv {D} {A : Alg D} {d v} (h : Outcome A d (.inr v)) : Evals A d v := by
  cases h; assumption

/-- An error excludes a value. -/
theorem Outcome.no_value {D} {A : Alg D} (S : A.Sharp) {d x} (h : Outcome A d x) : ∀ {k v}, x = .inl k → ¬ Evals A d v := by
  induction h with
  | value => intro k v h; cases h
  | cons => intro k v _ h; exact h.cons_inv S
  | fn => intro k v _ h; exact h.fn_inv S
  | left _ ih =>
    intro k v hx h
    obtain ⟨_, _, _, _, e, h1, _⟩ := h.efn_inv S
    simp only [List.cons.injEq, and_true] at e
    obtain ⟨rfl, rfl⟩ := e
    exact ih rfl h1
  | right _ _ ih =>
    intro k v hx h
    obtain ⟨_, _, _, _, e, _, h2, _⟩ := h.efn_inv S
    simp only [List.cons.injEq, and_true] at e
    obtain ⟨rfl, rfl⟩ := e
    exact ih rfl h2
  | zero h1 h2 =>
    intro k v hx h
    obtain ⟨_, _, _, _, e, _, h4, h5⟩ := h.efn_inv S
    simp only [List.cons.injEq, and_true] at e
    obtain ⟨rfl, rfl⟩ := e
    cases h2.det S h4
    cases h5 with
    | div hz => exact hz rfl

/-- An evaluation comes to one thing. -/
theorem Outcome.det {D} {A : Alg D} (S : A.Sharp) {d x y} (h : Outcome A d x) (h' : Outcome A d y) : x = y := by
  induction h generalizing y with
  | value h =>
    cases y with
    | inl k => exact absurd h (h'.no_value S rfl)
    | inr w => rw [h.det S h'.value_inv]
  | @cons n =>
    generalize hx : A.cons n = x at h'
    cases h' with
    | value h => subst hx; exact (h.cons_inv S).elim
    | cons => rfl
    | fn => rfl
    | _ => exact absurd hx S.cons_efn
  | @fn n ds =>
    generalize hx : A.fn n ds = x at h'
    cases h' with
    | value h => subst hx; exact (h.fn_inv S).elim
    | cons => rfl
    | fn => rfl
    | _ => exact absurd hx S.fn_efn
  | left h1 ih =>
    cases y with
    | inr w => exact absurd h'.value_inv ((Outcome.left h1).no_value S rfl)
    | inl k =>
      rcases h'.efn_inv S with h | ⟨a, h, _⟩ | ⟨a, h, _⟩
      · exact ih h
      · exact absurd h (h1.no_value S rfl)
      · exact absurd h (h1.no_value S rfl)
  | right h1 h2 ih =>
    cases y with
    | inr w => exact absurd h'.value_inv ((Outcome.right h1 h2).no_value S rfl)
    | inl k =>
      rcases h'.efn_inv S with h | ⟨a, _, h⟩ | ⟨a, _, h, _⟩
      · exact absurd h1 (h.no_value S rfl)
      · exact ih h
      · exact absurd h (h2.no_value S rfl)
  | zero h1 h2 =>
    cases y with
    | inr w => exact absurd h'.value_inv ((Outcome.zero h1 h2).no_value S rfl)
    | inl k =>
      rcases h'.efn_inv S with h | ⟨a, _, h⟩ | ⟨a, _, _, _, h⟩
      · exact absurd h1 (h.no_value S rfl)
      · exact absurd h2 (h.no_value S rfl)
      · rw [h]

theorem mark_outcome {a x} (h : Outcome itreeAlg (mark a) x) : False := by
  generalize hx : mark a = y at h
  cases h with
  | value h => subst hx; exact mark_evals h
  | cons => have := ITree.node_label hx; cases this
  | fn => have := ITree.node_label hx; cases this
  | left => have := ITree.node_label hx; simp at this
  | right => have := ITree.node_label hx; simp at this
  | zero => have := ITree.node_label hx; simp at this

/-- What an evaluation has come to in the machine. -/
theorem evalArith_outcome {st : Storage} {I : Int → FV} {pre} {h : Hp} (g : Good (ValidCell st) (h.at? pre) h.size h.size) :
    ∀ n {a err}, a < h.size → evalArith pre st h n a = .ok (.inl err) →
      (err.kind ≠ .notInstantiated ∧ ∀ σ : Nat → ITree, Mod (toIAlg itreeAlg I) (h.at? pre) σ → Outcome itreeAlg (σ a) (.inl err.kind)) ∨
      (err.kind = .notInstantiated ∧ ∀ σ, Marks I (h.at? pre) σ → ∀ x, ¬ Outcome itreeAlg (σ a) x) := by
  intro n
  induction n with
  | zero => intro a err _ h; cases h
  | succ n ih =>
    intro a err ha hr
    obtain ⟨d, e1, t1⟩ := deref_ok g ha
    obtain ⟨c, hc⟩ := g.get (t1.lt g)
    rw [evalArith] at hr
    simp only [e1, hc, orFault_some, ok_bind] at hr
    cases c with
    | int w => simp [checkEvaluable, pure, Except.pure, bind, Except.bind] at hr
    | str b =>
      rcases t1.end_cell.2 with ⟨w, hw⟩ | ⟨c, hw, hp⟩
      · rw [hc] at hw; cases hw
      · rw [hc] at hw; cases hw; cases hp
    | ref b k =>
      simp only [checkEvaluable, bind_ok, pure_ok] at hr
      obtain ⟨e, ⟨nm, _, rfl⟩, hr⟩ := hr
      simp only [pure_ok] at hr; cases hr
      refine .inr ⟨rfl, fun σ M x hx => ?_⟩
      rw [M.mod.deref t1] at hx
      rcases t1.end_cell.2 with ⟨w, hw⟩ | ⟨c, hw, hp⟩
      · rw [M.mark _ _ hw] at hx
        exact mark_outcome hx
      · rw [hc] at hw; cases hw; cases hp
    | cons i =>
      simp only [checkEvaluable, bind_ok, pure_ok] at hr
      obtain ⟨e, ⟨nm, _, rfl⟩, hr⟩ := hr
      simp only [pure_ok] at hr; cases hr
      refine .inl ⟨by simp, fun σ m => ?_⟩
      rw [m.deref t1, m _ _ hc]
      exact .cons
    | fn f k =>
      simp only [checkEvaluable, bind_ok, pure_ok] at hr
      obtain ⟨e, ⟨nm, _, rfl⟩, hr⟩ := hr
      simp only [pure_ok] at hr; cases hr
      refine .inl ⟨by simp, fun σ m => ?_⟩
      rw [m.deref t1, m _ _ hc]
      exact .fn
    | efn f k =>
      obtain ⟨hf, rfl⟩ := g.valid _ _ hc
      have hl := g.efnArgs _ _ _ hc
      have hd : ∀ {σ : Nat → ITree}, Mod (toIAlg itreeAlg I) (h.at? pre) σ → σ a = itreeAlg.efn (arithNames.getD f []) [σ (d + 1), σ (d + 2)] := by
        intro σ m
        rw [m.deref t1]
        exact m _ _ hc
      simp only [checkEvaluable, pure_bind, bind_ok] at hr
      obtain ⟨l, hl1, hr⟩ := hr
      cases l with
      | inl e =>
        simp only [pure_ok] at hr; cases hr
        rcases ih (a := d + 1) (by omega) hl1 with ⟨h1, h2⟩ | ⟨h1, h2⟩
        · exact .inl ⟨h1, fun σ m => by rw [hd m]; exact .left (h2 σ m)⟩
        · refine .inr ⟨h1, fun σ M x hx => ?_⟩
          rw [hd M.mod] at hx
          cases x with
          | inr v =>
            obtain ⟨_, _, _, _, e, k1, _⟩ := hx.value_inv.efn_inv itreeAlg_sharp
            simp only [List.cons.injEq, and_true] at e
            obtain ⟨rfl, rfl⟩ := e
            exact h2 σ M _ (.value k1)
          | inl k =>
            rcases hx.efn_inv itreeAlg_sharp with hx | ⟨a, hx, _⟩ | ⟨a, hx, _⟩
            · exact h2 σ M _ hx
            · exact h2 σ M _ (.value hx)
            · exact h2 σ M _ (.value hx)
      | inr l =>
        simp only [bind_ok] at hr
        obtain ⟨r, hr1, hr⟩ := hr
        have lv := (evalArith_spec (I := I) g n (a := d + 1) (by omega) hl1).2 ITree itreeAlg
        cases r with
        | inl e =>
          simp only [pure_ok] at hr; cases hr
          rcases ih (a := d + 2) (by omega) hr1 with ⟨h1, h2⟩ | ⟨h1, h2⟩
          · exact .inl ⟨h1, fun σ m => by rw [hd m]; exact .right (lv σ m) (h2 σ m)⟩
          · refine .inr ⟨h1, fun σ M x hx => ?_⟩
            rw [hd M.mod] at hx
            cases x with
            | inr v =>
              obtain ⟨_, _, _, _, e, _, k1, _⟩ := hx.value_inv.efn_inv itreeAlg_sharp
              simp only [List.cons.injEq, and_true] at e
              obtain ⟨rfl, rfl⟩ := e
              exact h2 σ M _ (.value k1)
            | inl k =>
              rcases hx.efn_inv itreeAlg_sharp with hx | ⟨a, _, hx⟩ | ⟨a, _, hx, _⟩
              · exact hx.no_value itreeAlg_sharp rfl (lv σ M.mod)
              · exact h2 σ M _ hx
              · exact h2 σ M _ (.value hx)
        | inr r =>
          have rv := (evalArith_spec (I := I) g n (a := d + 2) (by omega) hr1).2 ITree itreeAlg
          simp only at hr
          split at hr
          · rename_i h0
            simp only [pure_ok] at hr; cases hr
            obtain ⟨rfl, rfl⟩ := h0
            refine .inl ⟨by simp, fun σ m => ?_⟩
            rw [hd m]
            exact .zero (lv σ m) (rv σ m)
          · simp only [bind_ok, pure_ok] at hr
            obtain ⟨w, _, hr⟩ := hr
            cases hr

end PBfs
