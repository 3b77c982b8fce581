import Verif.Proof.UnifyTerm
import Verif.Proof.Solve
/-! # Unification with ground terms ends -/
namespace PBfs

mutual
/-- The value of a finite tree in an algebra. -/
def Tree.fold {D} (A : Alg D) : Tree → D
  | .cons n => A.cons n
  | .int v => A.int v
  | .fn f ts => A.fn f (Tree.folds A ts)
  | .efn f ts => A.efn f (Tree.folds A ts)
def Tree.folds {D} (A : Alg D) : List Tree → List D
  | [] => []
  | t :: ts => Tree.fold A t :: Tree.folds A ts
end

theorem Tree.folds_eq {D} (A : Alg D) (ts : List Tree) : Tree.folds A ts = ts.map (Tree.fold A) := by
  induction ts with
  | nil => rfl
  | cons t ts ih => rw [Tree.folds, ih]; rfl

mutual
theorem Tree.fold_tree : ∀ t : Tree, t.fold treeAlg = t
  | .cons _ => rfl
  | .int _ => rfl
  | .fn f ts => by rw [Tree.fold, Tree.folds_tree ts]; rfl
  | .efn f ts => by rw [Tree.fold, Tree.folds_tree ts]; rfl
theorem Tree.folds_tree : ∀ ts : List Tree, Tree.folds treeAlg ts = ts
  | [] => rfl
  | t :: ts => by rw [Tree.folds, Tree.fold_tree t, Tree.folds_tree ts]
end

theorem Tree.size_mem {t : Tree} {ts : List Tree} (h : t ∈ ts) : t.size ≤ Tree.sizes ts := by
  induction ts with
  | nil => simp at h
  | cons u ts ih =>
    rcases List.mem_cons.1 h with rfl | h
    · simp [Tree.sizes]
    · have := ih h; simp only [Tree.sizes]; omega

/-- The address stands for the finite ground term `t`, in all solutions. -/
def FixT (I : Int → FV) (H : HV) (a : Nat) (t : Tree) : Prop :=
  ∀ τ : Nat → ITree, Mod (toIAlg itreeAlg I) H τ → τ a = t.fold itreeAlg

/-- The address stands for a ground term of limited size. -/
def Fixed (I : Int → FV) (N : Nat) (H : HV) (a : Nat) : Prop := ∃ t : Tree, t.size ≤ N ∧ FixT I H a t

section
variable {I : Int → FV} {H H' : HV}

theorem FixT.mono {a t} (h : FixT I H a t) (hm : ∀ τ : Nat → ITree, Mod (toIAlg itreeAlg I) H' τ → Mod (toIAlg itreeAlg I) H τ) : FixT I H' a t :=
  fun τ m => h τ (hm τ m)

theorem FixT.eq {a b t} (h : FixT I H a t) (hm : ∀ τ : Nat → ITree, Mod (toIAlg itreeAlg I) H τ → τ a = τ b) : FixT I H b t :=
  fun τ m => by rw [← hm τ m]; exact h τ m

theorem Fixed.mono {N a} (h : Fixed I N H a) (hm : ∀ τ : Nat → ITree, Mod (toIAlg itreeAlg I) H' τ → Mod (toIAlg itreeAlg I) H τ) : Fixed I N H' a := by
  obtain ⟨t, h1, h2⟩ := h
  exact ⟨t, h1, h2.mono hm⟩

theorem Fixed.eq {N a b} (h : Fixed I N H a) (hm : ∀ τ : Nat → ITree, Mod (toIAlg itreeAlg I) H τ → τ a = τ b) : Fixed I N H b := by
  obtain ⟨t, h1, h2⟩ := h
  exact ⟨t, h1, h2.eq hm⟩

/-- A ground term is not an open variable. -/
theorem FixT.closed {V size lim} (g : Good V H size lim) {a t} (h : FixT I H a t) (v) : H a ≠ some (.ref a v) := by
  intro hv
  obtain ⟨σ, m, hω⟩ := g.solve_itree I fun _ => itreeAlg.int 0
  obtain ⟨σ', m', hω'⟩ := g.solve_itree I fun _ => itreeAlg.int 1
  have e : itreeAlg.int 0 = itreeAlg.int 1 := by
    rw [← hω a v hv, ← hω' a v hv, h σ m, h σ' m']
  have := itreeAlg_sharp.int_inj e
  omega

theorem folds_get {D} {A : Alg D} {ts : List Tree} {σ : Nat → D} {a n} (h : argVals σ a n = Tree.folds A ts) :
    ts.length = n ∧ ∀ i t, ts[i]? = some t → σ (a + i) = t.fold A := by
  rw [Tree.folds_eq] at h
  have hl := congrArg List.length h
  simp only [argVals_length, List.length_map] at hl
  refine ⟨hl.symm, fun i t ht => ?_⟩
  have := congrArg (·[i]?) h
  have hi : i < n := by have := (List.getElem?_eq_some_iff.1 ht).1; omega
  simp only [argVals_get, if_pos hi, List.getElem?_map, ht, Option.map_some, Option.some.injEq] at this
  exact this

theorem FixT.fn {V size lim} (g : Good V H size lim) {a t f n} (h : FixT I H a t) (hc : H a = some (.fn f n)) :
    ∃ ts, t = .fn (I f).name ts ∧ ts.length = n ∧ ∀ i u, ts[i]? = some u → FixT I H (a + 1 + i) u := by
  have key : ∀ τ, Mod (toIAlg itreeAlg I) H τ → itreeAlg.fn (I f).name (argVals τ (a + 1) n) = t.fold itreeAlg :=
    fun τ m => (m _ _ hc).symm.trans (h τ m)
  obtain ⟨σ, m, _⟩ := g.solve_itree I fun _ => itreeAlg.int 0
  have k0 := key σ m
  cases t with
  | cons n => exact absurd k0.symm itreeAlg_sharp.cons_fn
  | int v => exact absurd k0.symm itreeAlg_sharp.int_fn
  | efn f ts => exact absurd k0 itreeAlg_sharp.fn_efn
  | fn f' ts =>
    obtain ⟨rfl, hl⟩ := itreeAlg_sharp.fn_inj k0
    exact ⟨ts, rfl, (folds_get hl).1, fun i u hu τ m' => (folds_get (itreeAlg_sharp.fn_inj (key τ m')).2).2 i u hu⟩

theorem FixT.efn {V size lim} (g : Good V H size lim) {a t f n} (h : FixT I H a t) (hc : H a = some (.efn f n)) :
    ∃ ts, t = .efn (arithNames.getD f []) ts ∧ ts.length = n ∧ ∀ i u, ts[i]? = some u → FixT I H (a + 1 + i) u := by
  have key : ∀ τ, Mod (toIAlg itreeAlg I) H τ → itreeAlg.efn (arithNames.getD f []) (argVals τ (a + 1) n) = t.fold itreeAlg :=
    fun τ m => (m _ _ hc).symm.trans (h τ m)
  obtain ⟨σ, m, _⟩ := g.solve_itree I fun _ => itreeAlg.int 0
  have k0 := key σ m
  cases t with
  | cons n => exact absurd k0.symm itreeAlg_sharp.cons_efn
  | int v => exact absurd k0.symm itreeAlg_sharp.int_efn
  | fn f ts => exact absurd k0.symm itreeAlg_sharp.fn_efn
  | efn f' ts =>
    obtain ⟨rfl, hl⟩ := itreeAlg_sharp.efn_inj k0
    exact ⟨ts, rfl, (folds_get hl).1, fun i u hu τ m' => (folds_get (itreeAlg_sharp.efn_inj (key τ m')).2).2 i u hu⟩

/-- In every pair of addresses still to be unified one is ground; the total size of the ground terms. -/
inductive Weighed (I : Int → FV) (H : HV) : List Nat → Nat → Prop
  | nil : Weighed I H [] 0
  | cons {a b pdl t w} : FixT I H a t ∨ FixT I H b t → Weighed I H pdl w → Weighed I H (a :: b :: pdl) (t.size + w)

theorem Weighed.mono {pdl w} (h : Weighed I H pdl w) (hm : ∀ τ : Nat → ITree, Mod (toIAlg itreeAlg I) H' τ → Mod (toIAlg itreeAlg I) H τ) :
    Weighed I H' pdl w := by
  induction h with
  | nil => exact .nil
  | cons h _ ih => exact .cons (h.imp (·.mono hm) (·.mono hm)) ih

theorem sizes_concat (ts : List Tree) (t : Tree) : Tree.sizes (ts ++ [t]) = Tree.sizes ts + t.size := by
  induction ts with
  | nil => simp [Tree.sizes]
  | cons u ts ih => simp [Tree.sizes, ih]; omega

theorem Weighed.args {d1 d2 pdl w} (h : Weighed I H pdl w) : ∀ (k : Nat) (ts : List Tree), ts.length = k →
    (∀ i u, ts[i]? = some u → FixT I H (d1 + 1 + i) u) ∨ (∀ i u, ts[i]? = some u → FixT I H (d2 + 1 + i) u) →
    Weighed I H (pushArgs d1 d2 k pdl) (Tree.sizes ts + w) := by
  intro k
  induction k with
  | zero =>
    intro ts hl _
    obtain rfl := List.length_eq_zero_iff.1 hl
    simpa [pushArgs, Tree.sizes] using h
  | succ k ih =>
    intro ts hl hts
    have hne : ts ≠ [] := by rintro rfl; simp at hl
    obtain ⟨us, u, rfl⟩ : ∃ us u, ts = us ++ [u] := ⟨_, _, (List.dropLast_append_getLast hne).symm⟩
    simp only [List.length_append, List.length_singleton, Nat.add_right_cancel_iff] at hl
    have hus : ∀ i x, us[i]? = some x → (us ++ [u])[i]? = some x := fun i x hx => by
      rw [List.getElem?_append_left (List.getElem?_eq_some_iff.1 hx).1]; exact hx
    have hu : (us ++ [u])[k]? = some u := by rw [← hl]; simp
    have i1 := ih us hl (hts.imp (fun h i x hx => h i x (hus i x hx)) fun h i x hx => h i x (hus i x hx))
    have := Weighed.cons (a := d2 + k + 1) (b := d1 + k + 1) (t := u) (by
      rcases hts with h | h
      · right; have := h k u hu; rwa [show d1 + 1 + k = d1 + k + 1 by omega] at this
      · left; have := h k u hu; rwa [show d2 + 1 + k = d2 + k + 1 by omega] at this) i1
    rw [sizes_concat]
    rw [show Tree.sizes us + u.size + w = u.size + (Tree.sizes us + w) by omega]
    exact this

end

variable {pre : Nat → Option Cell}

/-- If in every pair one of the terms is ground, then unification needs at most as many steps as the ground terms have nodes. -/
theorem unifyLoop_ground {st : Storage} {I} (s : StOK st) : ∀ (n : Nat) (h : Hp) (pdl : List Nat) (w : Nat),
      Good (ValidCell st) (h.at? pre) h.size h.size → (∀ x ∈ pdl, x < h.size) → pdl.length % 2 = 0 →
      Weighed I (h.at? pre) pdl w → w ≤ n → unifyLoop pre n h pdl ≠ .error .hang := by
  intro n
  have VL := ValidCell.laws s
  induction n with
  | zero =>
    intro h pdl w g hlt hev hW hw
    cases hW with
    | nil => simp [unifyLoop]
    | @cons a b pdl t w _ _ => have := Tree.size_pos t; omega
  | succ n ih =>
    intro h pdl w g hlt hev hW hw
    cases hW with
    | nil => simp [unifyLoop]
    | @cons a b pdl t w hab hW =>
      have hlt' : ∀ x ∈ pdl, x < h.size := fun x hx => hlt x (by simp [hx])
      have hev' : pdl.length % 2 = 0 := by simp only [List.length_cons] at hev; omega
      obtain ⟨d1, e1, hd1⟩ := deref_ok g (hlt a (by simp))
      obtain ⟨d2, e2, hd2⟩ := deref_ok g (hlt b (by simp))
      have hpos := Tree.size_pos t
      have hw' : w ≤ n := by omega
      have hfix : FixT I (h.at? pre) d1 t ∨ FixT I (h.at? pre) d2 t :=
        hab.imp (·.eq fun τ m => m.deref hd1) (·.eq fun τ m => m.deref hd2)
      rw [unifyLoop]
      simp only [e1, e2, ok_bind]
      by_cases hdd : d1 = d2
      · simp only [hdd, if_true]
        exact ih h pdl w g hlt' hev' hW hw'
      · simp only [hdd, if_false]
        obtain ⟨c1, hc1⟩ := g.get (hd1.lt g)
        obtain ⟨c2, hc2⟩ := g.get (hd2.lt g)
        simp only [hc1, hc2, orFault_some, ok_bind]
        by_cases hr1 : c1.isRef = true
        · simp only [hr1, if_true]
          obtain ⟨x, v, rfl⟩ := isRef_iff.1 hr1
          have hx : x = d1 := by
            rcases hd1.end_cell.2 with ⟨v', hv'⟩ | ⟨c, hc, hp⟩
            · rw [hc1] at hv'; cases hv'; rfl
            · rw [hc1] at hc; cases hc; simp [Cell.isPtr] at hp
          subst hx
          obtain ⟨h', hb, hs', hst', hv', g'⟩ := bind_step VL g hc1 hd2.end_cell.1 (Ne.symm hdd)
          simp only [hb, ok_bind]
          refine ih h' pdl w (by rw [hs'] at g' ⊢; exact g') (by rw [hs']; exact hlt') hev' (hW.mono fun τ m => ?_) hw'
          rw [hv', mod_bind hc1] at m
          exact m.1
        · have hr1' : c1.isRef = false := by simpa using hr1
          simp only [hr1', Bool.false_eq_true, if_false]
          by_cases hr2 : c2.isRef = true
          · simp only [hr2, if_true]
            obtain ⟨x, v, rfl⟩ := isRef_iff.1 hr2
            have hx : x = d2 := by
              rcases hd2.end_cell.2 with ⟨v', hv'⟩ | ⟨c, hc, hp⟩
              · rw [hc2] at hv'; cases hv'; rfl
              · rw [hc2] at hc; cases hc; simp [Cell.isPtr] at hp
            subst hx
            obtain ⟨h', hb, hs', hst', hv', g'⟩ := bind_step VL g hc2 hd1.end_cell.1 hdd
            simp only [hb, ok_bind]
            refine ih h' pdl w (by rw [hs'] at g' ⊢; exact g') (by rw [hs']; exact hlt') hev' (hW.mono fun τ m => ?_) hw'
            rw [hv', mod_bind hc2] at m
            exact m.1
          · have hr2' : c2.isRef = false := by simpa using hr2
            simp only [hr2', Bool.false_eq_true, if_false]
            have args : ∀ k (ts : List Tree), (∀ i, i < k → d1 + 1 + i < h.size ∧ d2 + 1 + i < h.size) → ts.length = k →
                (∀ i u, ts[i]? = some u → FixT I (h.at? pre) (d1 + 1 + i) u) ∨ (∀ i u, ts[i]? = some u → FixT I (h.at? pre) (d2 + 1 + i) u) →
                t.size = 1 + Tree.sizes ts → unifyLoop pre n h (pushArgs d1 d2 k pdl) ≠ .error .hang := by
              intro k ts hk hl hts hsz
              refine ih h _ _ g ?_ (pushArgs_even hev') (hW.args k ts hl hts) (by omega)
              intro x hx
              rcases mem_pushArgs hx with hx | ⟨i, hi, rfl | rfl⟩
              · exact hlt' x hx
              · exact (hk i hi).1
              · exact (hk i hi).2
            have cont := ih h pdl w g hlt' hev' hW hw'
            cases c1 <;> cases c2 <;> simp only [] <;> try (intro hcontra; cases hcontra)
            · split
              · exact cont
              · intro hcontra; cases hcontra
            · split
              · exact cont
              · intro hcontra; cases hcontra
            · rename_i f k f' k'
              split
              · rename_i hff; subst hff
                have hkk : k = k' := VL.fn _ _ _ (g.valid _ _ hc1) (g.valid _ _ hc2)
                subst hkk
                have b1 := g.fnArgs _ _ _ hc1
                have b2 := g.fnArgs _ _ _ hc2
                rcases hfix with hf | hf
                · obtain ⟨ts, rfl, hl, hts⟩ := hf.fn g hc1
                  exact args k ts (fun i hi => by omega) hl (.inl hts) rfl
                · obtain ⟨ts, rfl, hl, hts⟩ := hf.fn g hc2
                  exact args k ts (fun i hi => by omega) hl (.inr hts) rfl
              · intro hcontra; cases hcontra
            · rename_i f k f' k'
              split
              · rename_i hff; subst hff
                have hkk : k = k' := VL.efn _ _ _ (g.valid _ _ hc1) (g.valid _ _ hc2)
                subst hkk
                have b1 := g.efnArgs _ _ _ hc1
                have b2 := g.efnArgs _ _ _ hc2
                rcases hfix with hf | hf
                · obtain ⟨ts, rfl, hl, hts⟩ := hf.efn g hc1
                  exact args k ts (fun i hi => by omega) hl (.inl hts) rfl
                · obtain ⟨ts, rfl, hl, hts⟩ := hf.efn g hc2
                  exact args k ts (fun i hi => by omega) hl (.inr hts) rfl
              · intro hcontra; cases hcontra

/-- Unification with a ground term ends. -/
theorem unify_ground {st : Storage} {I} (s : StOK st) {h : Hp} (g : Good (ValidCell st) (h.at? pre) h.size h.size) {a b N fuel}
    (ha : a < h.size) (hb : b < h.size) (hf : Fixed I N (h.at? pre) a ∨ Fixed I N (h.at? pre) b) (hN : N ≤ fuel) :
    unifyLoop pre fuel h [a, b] ≠ .error .hang := by
  obtain ⟨t, h1, h2⟩ : ∃ t : Tree, t.size ≤ N ∧ (FixT I (h.at? pre) a t ∨ FixT I (h.at? pre) b t) := by
    rcases hf with ⟨t, h1, h2⟩ | ⟨t, h1, h2⟩
    · exact ⟨t, h1, .inl h2⟩
    · exact ⟨t, h1, .inr h2⟩
  exact unifyLoop_ground s fuel h [a, b] _ g (by simp [ha, hb]) (by simp) (.cons h2 .nil) (by omega)

end PBfs
