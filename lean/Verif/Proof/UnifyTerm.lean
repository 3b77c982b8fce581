import Verif.Proof.Interp
/-! # Termination of unification, independence of the step bound -/
namespace PBfs

mutual
/-- Number of nodes of a tree. -/
def Tree.size : Tree → Nat
  | .cons _ => 1
  | .int _ => 1
  | .fn _ ts => 1 + Tree.sizes ts
  | .efn _ ts => 1 + Tree.sizes ts
def Tree.sizes : List Tree → Nat
  | [] => 0
  | t :: ts => Tree.size t + Tree.sizes ts
end

theorem Tree.size_pos (t : Tree) : 0 < t.size := by
  cases t <;> simp [Tree.size] <;> omega

theorem sizes_argVals_last (σ : Nat → Tree) (a n) :
    Tree.sizes (argVals σ a (n + 1)) = Tree.sizes (argVals σ a n) + (σ (a + n)).size := by
  induction n generalizing a with
  | zero => simp [argVals, Tree.sizes]
  | succ n ih =>
    rw [argVals, Tree.sizes, ih (a + 1), argVals, Tree.sizes, show a + 1 + n = a + (n + 1) by omega]
    omega

/-- Total size of the terms still to be unified. -/
def pdlWeight (σ : Nat → Tree) : List Nat → Nat
  | a :: _ :: l => (σ a).size + pdlWeight σ l
  | _ => 0

theorem pdlWeight_pushArgs (σ : Nat → Tree) (d1 d2 k pdl) :
    pdlWeight σ (pushArgs d1 d2 k pdl) = Tree.sizes (argVals σ (d2 + 1) k) + pdlWeight σ pdl := by
  induction k with
  | zero => simp [pushArgs, argVals, Tree.sizes]
  | succ k ih =>
    rw [pushArgs, pdlWeight, ih, sizes_argVals_last, show d2 + k + 1 = d2 + 1 + k by omega]
    omega

variable {pre : Nat → Option Cell}

/-- If there is a common solution in finite trees, then unification needs at most as many steps as the
trees have nodes. -/
theorem unifyLoop_terminates {st : Storage} {I} (s : StOK st) (hI : Interp I st) :
    ∀ (n : Nat) (h : Hp) (pdl : List Nat) (σ : Nat → Tree),
      Good (ValidCell st) (h.at? pre) h.size h.size → (∀ x ∈ pdl, x < h.size) → pdl.length % 2 = 0 →
      Mod (toIAlg treeAlg I) (h.at? pre) σ → PairsEq σ pdl → pdlWeight σ pdl ≤ n →
      unifyLoop pre n h pdl ≠ .error .hang := by
  intro n
  have VL := ValidCell.laws s
  have fr := treeAlg_free s hI
  induction n with
  | zero =>
    intro h pdl σ g hlt hev m pe hw
    match pdl with
    | [] => simp [unifyLoop]
    | [x] => simp at hev
    | a :: b :: pdl =>
      have := Tree.size_pos (σ a)
      simp only [pdlWeight] at hw; omega
  | succ n ih =>
    intro h pdl σ g hlt hev m pe hw
    match pdl with
    | [] => simp [unifyLoop]
    | [x] => simp at hev
    | a :: b :: pdl =>
      have hlt' : ∀ x ∈ pdl, x < h.size := fun x hx => hlt x (by simp [hx])
      have hev' : pdl.length % 2 = 0 := by simp only [List.length_cons] at hev; omega
      obtain ⟨d1, e1, hd1⟩ := deref_ok g (hlt a (by simp))
      obtain ⟨d2, e2, hd2⟩ := deref_ok g (hlt b (by simp))
      have hpos := Tree.size_pos (σ a)
      simp only [pdlWeight] at hw
      have hw' : pdlWeight σ pdl ≤ n := by omega
      have had : σ a = σ d1 := m.deref hd1
      have hbd : σ b = σ d2 := m.deref hd2
      have hab : σ d1 = σ d2 := by rw [← had, ← hbd]; exact pe.1
      rw [unifyLoop]
      simp only [e1, e2, ok_bind]
      by_cases hdd : d1 = d2
      · simp only [hdd, if_true]
        exact ih h pdl σ g hlt' hev' m pe.2 hw'
      · simp only [hdd, if_false]
        obtain ⟨c1, hc1⟩ := g.get (hd1.lt g)
        obtain ⟨c2, hc2⟩ := g.get (hd2.lt g)
        simp only [hc1, hc2, orFault_some, ok_bind]
        by_cases hr1 : c1.isRef = true
        · simp only [hr1, if_true]
          obtain ⟨x, v, rfl⟩ := isRef_iff.1 hr1
          have hx : x = d1 := by
            rcases hd1.end_cell.2 with ⟨v', hv'⟩ | ⟨c, hc, hp⟩
            · rw [hc1] at hv'; cases hv'; rfl
            · rw [hc1] at hc; cases hc; simp [Cell.isPtr] at hp
          subst hx
          obtain ⟨h', hb, hs', hst', hv', g'⟩ := bind_step VL g hc1 hd2.end_cell.1 (Ne.symm hdd)
          simp only [hb, ok_bind]
          refine ih h' pdl σ (by rw [hs'] at g' ⊢; exact g') (by rw [hs']; exact hlt') hev' ?_ pe.2 hw'
          rw [hv', mod_bind hc1]
          exact ⟨m, hab⟩
        · have hr1' : c1.isRef = false := by simpa using hr1
          simp only [hr1', Bool.false_eq_true, if_false]
          by_cases hr2 : c2.isRef = true
          · simp only [hr2, if_true]
            obtain ⟨x, v, rfl⟩ := isRef_iff.1 hr2
            have hx : x = d2 := by
              rcases hd2.end_cell.2 with ⟨v', hv'⟩ | ⟨c, hc, hp⟩
              · rw [hc2] at hv'; cases hv'; rfl
              · rw [hc2] at hc; cases hc; simp [Cell.isPtr] at hp
            subst hx
            obtain ⟨h', hb, hs', hst', hv', g'⟩ := bind_step VL g hc2 hd1.end_cell.1 hdd
            simp only [hb, ok_bind]
            refine ih h' pdl σ (by rw [hs'] at g' ⊢; exact g') (by rw [hs']; exact hlt') hev' ?_ pe.2 hw'
            rw [hv', mod_bind hc2]
            exact ⟨m, hab.symm⟩
          · have hr2' : c2.isRef = false := by simpa using hr2
            simp only [hr2', Bool.false_eq_true, if_false]
            have args : ∀ k, (∀ i, i < k → d1 + 1 + i < h.size ∧ d2 + 1 + i < h.size) →
                (argVals σ (d1 + 1) k = argVals σ (d2 + 1) k) →
                (σ d2).size = 1 + Tree.sizes (argVals σ (d2 + 1) k) →
                unifyLoop pre n h (pushArgs d1 d2 k pdl) ≠ .error .hang := by
              intro k hk hargs hsz
              refine ih h _ σ g ?_ (pushArgs_even hev') m ?_ ?_
              · intro x hx
                rcases mem_pushArgs hx with hx | ⟨i, hi, rfl | rfl⟩
                · exact hlt' x hx
                · exact (hk i hi).1
                · exact (hk i hi).2
              · rw [pairsEq_pushArgs]
                exact ⟨argVals_inj hargs, pe.2⟩
              · rw [pdlWeight_pushArgs]
                have : (σ a).size = (σ d2).size := by rw [had, hab]
                omega
            have cont := ih h pdl σ g hlt' hev' m pe.2 hw'
            cases c1 <;> cases c2 <;> simp only [] <;> try (intro hcontra; cases hcontra)
            · split
              · exact cont
              · intro hcontra; cases hcontra
            · split
              · exact cont
              · intro hcontra; cases hcontra
            · rename_i f k f' k'
              split
              · rename_i hff; subst hff
                have hkk : k = k' := VL.fn _ _ _ (g.valid _ _ hc1) (g.valid _ _ hc2)
                subst hkk
                have b1 := g.fnArgs _ _ _ hc1
                have b2 := g.fnArgs _ _ _ hc2
                have q1 := m _ _ hc1
                have q2 := m _ _ hc2
                refine args k (fun i hi => by omega) ?_ ?_
                · exact (fr.fn_inj (g.valid _ _ hc1) (g.valid _ _ hc2) (argVals_length ..)
                    (argVals_length ..) (q1.symm.trans (hab.trans q2))).2
                · rw [q2]; rfl
              · intro hcontra; cases hcontra
            · rename_i f k f' k'
              split
              · rename_i hff; subst hff
                have hkk : k = k' := VL.efn _ _ _ (g.valid _ _ hc1) (g.valid _ _ hc2)
                subst hkk
                have b1 := g.efnArgs _ _ _ hc1
                have b2 := g.efnArgs _ _ _ hc2
                have q1 := m _ _ hc1
                have q2 := m _ _ hc2
                refine args k (fun i hi => by omega) ?_ ?_
                · exact (fr.efn_inj (g.valid _ _ hc1) (g.valid _ _ hc2) (argVals_length ..)
                    (argVals_length ..) (q1.symm.trans (hab.trans q2))).2
                · rw [q2]; rfl
              · intro hcontra; cases hcontra

/-- More steps do not change a result that has been reached. -/
theorem unifyLoop_mono : ∀ (n m : Nat) (h : Hp) (pdl : List Nat), n ≤ m →
    unifyLoop pre n h pdl ≠ .error .hang → unifyLoop pre m h pdl = unifyLoop pre n h pdl := by
  intro n
  induction n with
  | zero =>
    intro m h pdl hm hne
    match pdl with
    | [] => simp [unifyLoop]
    | [x] => simp [unifyLoop]
    | a :: b :: pdl => simp [unifyLoop] at hne
  | succ n ih =>
    intro m h pdl hm hne
    obtain ⟨m, rfl⟩ : ∃ k, m = k + 1 := ⟨m - 1, by omega⟩
    match pdl with
    | [] => simp [unifyLoop]
    | [x] => simp [unifyLoop]
    | a :: b :: pdl =>
      have hm' : n ≤ m := by omega
      rw [unifyLoop] at hne
      rw [unifyLoop, unifyLoop]
      cases e1 : PBfs.deref pre h a with
      | error => rfl
      | ok d1 =>
      cases e2 : PBfs.deref pre h b with
      | error => simp
      | ok d2 =>
      simp only [e1, e2, ok_bind] at hne ⊢
      split
      · rename_i hdd
        rw [if_pos hdd] at hne
        exact ih _ _ _ hm' hne
      · rename_i hdd
        rw [if_neg hdd] at hne
        cases q1 : orFault (h.at? pre d1) with
        | error => rfl
        | ok r1 =>
        cases q2 : orFault (h.at? pre d2) with
        | error => simp
        | ok r2 =>
        simp only [q1, q2, ok_bind] at hne ⊢
        split
        · rename_i hr1
          rw [if_pos hr1] at hne
          cases hb : h.bind pre d1 d2 with
          | error => simp
          | ok h' =>
            simp only [hb, ok_bind] at hne ⊢
            exact ih _ _ _ hm' hne
        · rename_i hr1
          rw [if_neg hr1] at hne
          split
          · rename_i hr2
            rw [if_pos hr2] at hne
            cases hb : h.bind pre d2 d1 with
            | error => simp
            | ok h' =>
              simp only [hb, ok_bind] at hne ⊢
              exact ih _ _ _ hm' hne
          · rename_i hr2
            rw [if_neg hr2] at hne
            cases r1 <;> cases r2 <;> simp only [] at hne ⊢
            all_goals
              split
              · rename_i hij
                rw [if_pos hij] at hne
                exact ih _ _ _ hm' hne
              · rfl

end PBfs
