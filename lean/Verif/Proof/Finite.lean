import Verif.Proof.Linear
/-! # Loops over finite terms end -/
namespace PBfs

section
variable {st : Storage} {pre : Nat → Option Cell} {h : Hp} {L : List (Name × Nat)}

theorem renderArgs_done {rep : Nat → R Name} {d : Nat} : ∀ {k i : Nat}, (∀ j, i ≤ j → j ≤ i + k → ∃ s, rep (d + j) = .ok s) →
    ∃ s, renderArgs rep d i k = .ok s := by
  intro k
  induction k with
  | zero => intro i h; exact h i (Nat.le_refl _) (by omega)
  | succ k ih =>
    intro i h
    obtain ⟨s, hs⟩ := h i (Nat.le_refl _) (by omega)
    obtain ⟨t, ht⟩ := ih (i := i + 1) fun j h1 h2 => h j (by omega) (by omega)
    exact ⟨_, by rw [renderArgs, hs, ok_bind, ht, ok_bind]; rfl⟩

/-- A finite term is printed. -/
theorem stringRep_finite (hst : Printable st) (g : Good (ValidCell st) (h.at? pre) h.size h.size) :
    ∀ n {b a s}, a < h.size → Reads (h.at? pre) a s → s.depth < n → ∃ r, stringRep pre h st L n b a = .ok r := by
  intro n
  induction n with
  | zero => intro b a s _ _ h; omega
  | succ n ih =>
    intro b a s ha hs hdep
    obtain ⟨d, hd1, hd2⟩ := deref_ok g ha
    have hdl := hd2.lt g
    obtain ⟨c, hc⟩ := g.get hdl
    have hv := g.valid _ _ hc
    rw [Reads.deref hd2] at hs
    rw [stringRep, hd1, ok_bind, hc, orFault_some, ok_bind]
    cases c with
    | ref x v =>
      obtain ⟨k, hk, rfl⟩ := hv
      have : st.varAt (toShort k) = some (st.vars[k]'hk) := by
        have := hst.vars
        rw [toShort_small (by omega)]
        simp [Storage.varAt, hk]
      simp only [this, orFault_some, ok_bind]
      exact ⟨_, rfl⟩
    | int v => exact ⟨_, rfl⟩
    | str x =>
      rcases hd2.end_cell.2 with ⟨v, hv⟩ | ⟨c, hv, hp⟩
      · rw [hc] at hv; cases hv
      · rw [hc] at hv; cases hv; cases hp
    | cons i =>
      obtain ⟨k, fv, h1, h2, rfl⟩ := hv
      simp only [functorAt_valid hst.functors h1, orFault_some, ok_bind]
      exact ⟨_, rfl⟩
    | efn f k =>
      have := g.efnArgs _ _ _ hc
      obtain ⟨_, rfl⟩ := hv
      cases hs with
      | @efn _ _ _ ts h' l r =>
        rw [hc] at h'; cases h'
        have arg : ∀ j, j < 2 → ∃ s, stringRep pre h st L n false (d + 1 + j) = .ok s := by
          intro j hj
          obtain ⟨t, ht⟩ : ∃ s, ts[j]? = some s := ⟨_, List.getElem?_eq_getElem (by omega)⟩
          have := OTerm.depth_le ht
          simp only [OTerm.depth] at hdep
          exact ih (by omega) (r j t ht) (by omega)
        obtain ⟨s1, e1⟩ := arg 0 (by omega)
        obtain ⟨s2, e2⟩ := arg 1 (by omega)
        rw [Nat.add_zero] at e1
        simp only [e1, e2, ok_bind]
        exact ⟨_, rfl⟩
      | _ h' => rw [hc] at h'; cases h'
    | fn i n' =>
      obtain ⟨k, fv, h1, rfl, rfl, h0⟩ := hv
      have hargs := g.fnArgs _ _ _ hc
      have hmem : fv ∈ st.functors := List.mem_iff_getElem?.2 ⟨k, h1⟩
      cases hs with
      | @fn _ _ _ ts h' l r =>
        rw [hc] at h'; cases h'
        have arg : ∀ j b, j < fv.arity → ∃ s, stringRep pre h st L n b (d + 1 + j) = .ok s := by
          intro j b hj
          obtain ⟨t, ht⟩ : ∃ s, ts[j]? = some s := ⟨_, List.getElem?_eq_getElem (by omega)⟩
          have := OTerm.depth_le ht
          simp only [OTerm.depth] at hdep
          exact ih (by omega) (r j t ht) (by omega)
        simp only [functorAt_valid hst.functors h1, orFault_some, ok_bind]
        split
        · exact ⟨_, rfl⟩
        · rename_i hne
          have hpos : fv.arity ≠ 0 := fun hz => hne (by simp [FV.isEmptyList, h0 hz, hz])
          rw [if_neg (hst.bar fv hmem)]
          split
          · rename_i hl
            have hl' : fv.name = n!"[" := by simpa [FV.isList] using hl
            have har : fv.arity = 2 := by
              rcases hst.list fv hmem hl' with h0 | h2
              · exact absurd h0 hpos
              · exact h2
            obtain ⟨s1, e1⟩ := arg 0 false (by omega)
            obtain ⟨s2, e2⟩ := arg 1 true (by omega)
            rw [Nat.add_zero] at e1
            obtain ⟨r, hr1, hr2⟩ := deref_ok g (show d + 2 < h.size by omega)
            obtain ⟨c, hc'⟩ := g.get (hr2.lt g)
            simp only [e1, hr1, hc', e2, orFault_some, ok_bind]
            exact ⟨_, rfl⟩
          · obtain ⟨k', hk'⟩ : ∃ k', fv.arity = k' + 1 := ⟨fv.arity - 1, by omega⟩
            rw [hk']
            obtain ⟨s, e⟩ := renderArgs_done (rep := stringRep pre h st L n false) (d := d) (i := 1) (k := k') fun j h1 h2 => by
              obtain ⟨s, e⟩ := arg (j - 1) false (by omega)
              rw [show d + 1 + (j - 1) = d + j by omega] at e
              exact ⟨s, e⟩
            simp only [e, ok_bind]
            exact ⟨_, rfl⟩
      | _ h' => rw [hc] at h'; cases h'

theorem renderSubs_done {rep : Nat → R Name} : ∀ {L acc}, (∀ p ∈ L, ∃ s, rep p.2 = .ok s) → ∃ bs, Org.renderSubs rep L acc = .ok bs := by
  intro L
  induction L with
  | nil => intro acc _; exact ⟨_, rfl⟩
  | cons p L ih =>
    intro acc h
    obtain ⟨v, a⟩ := p
    rw [Org.renderSubs]
    split
    · exact ih fun p hp => h p (by simp [hp])
    · obtain ⟨s, hs⟩ := h (v, a) (by simp)
      rw [hs, ok_bind]
      exact ih fun p hp => h p (by simp [hp])

/-- The evaluation of a finite expression ends. -/
theorem evalArith_finite (g : Good (ValidCell st) (h.at? pre) h.size h.size) :
    ∀ n {a s}, a < h.size → Reads (h.at? pre) a s → s.depth < n → evalArith pre st h n a ≠ .error .hang := by
  intro n
  induction n with
  | zero => intro a s _ _ h; omega
  | succ n ih =>
    intro a s ha hs hdep hr
    obtain ⟨d, e1, t1⟩ := deref_ok g ha
    obtain ⟨c, hc⟩ := g.get (t1.lt g)
    rw [Reads.deref t1] at hs
    rw [evalArith] at hr
    simp only [e1, hc, orFault_some, ok_bind] at hr
    have hmem : ∀ {α} {x : Option α}, orFault x = .error .hang → False := fun h => by cases (orFault_error h).1
    cases c with
    | int w => simp [checkEvaluable, pure, Except.pure, bind, Except.bind] at hr
    | str b => simp [checkEvaluable, pure, Except.pure, bind, Except.bind] at hr
    | ref b k =>
      simp only [checkEvaluable] at hr
      rcases error_of_bind hr with hr | ⟨_, h1, hr⟩
      · rcases error_of_bind hr with hr | ⟨_, _, hr⟩
        · exact hmem hr
        · cases hr
      · simp only [bind_ok, pure_ok] at h1
        obtain ⟨_, _, rfl⟩ := h1
        cases hr
    | cons i =>
      simp only [checkEvaluable] at hr
      rcases error_of_bind hr with hr | ⟨_, h1, hr⟩
      · rcases error_of_bind hr with hr | ⟨_, _, hr⟩
        · cases functorOfAddr_error hr
        · cases hr
      · simp only [bind_ok, pure_ok] at h1
        obtain ⟨_, _, rfl⟩ := h1
        cases hr
    | fn i k =>
      simp only [checkEvaluable] at hr
      rcases error_of_bind hr with hr | ⟨_, h1, hr⟩
      · rcases error_of_bind hr with hr | ⟨_, _, hr⟩
        · cases functorOfAddr_error hr
        · cases hr
      · simp only [bind_ok, pure_ok] at h1
        obtain ⟨_, _, rfl⟩ := h1
        cases hr
    | efn f k =>
      obtain ⟨hf, rfl⟩ := g.valid _ _ hc
      have hl := g.efnArgs _ _ _ hc
      cases hs with
      | @efn _ _ _ ts h' l r =>
        rw [hc] at h'; cases h'
        have arg : ∀ j, j < 2 → evalArith pre st h n (d + 1 + j) ≠ .error .hang := by
          intro j hj
          obtain ⟨t, ht⟩ : ∃ s, ts[j]? = some s := ⟨_, List.getElem?_eq_getElem (by omega)⟩
          have := OTerm.depth_le ht
          simp only [OTerm.depth] at hdep
          exact ih (by omega) (r j t ht) (by omega)
        simp only [checkEvaluable, pure_bind] at hr
        rcases error_of_bind hr with hr | ⟨l, hl1, hr⟩
        · exact arg 0 (by omega) hr
        · cases l with
          | inl e => cases hr
          | inr l =>
            rcases error_of_bind hr with hr | ⟨r, hr1, hr⟩
            · exact arg 1 (by omega) hr
            · cases r with
              | inl e => cases hr
              | inr r =>
                simp only at hr
                split at hr
                · cases hr
                · rename_i h0
                  rcases error_of_bind hr with hr | ⟨_, _, hr⟩
                  · have lv := evalArith_spec (I := fun _ => ⟨[], 0⟩) g n (a := d + 1) (by omega) hl1
                    cases (arithOp_error hr lv.1 hf fun h4 hz => h0 ⟨h4, hz⟩).1
                  · cases hr
      | _ h' => rw [hc] at h'; cases h'

end

end PBfs
