import Verif.Proof.Modes
/-! # Searches in which no cyclic term arises -/
namespace PBfs

/-- The heap contains no cyclic term: it can be read as finite trees. -/
def Acyclic (I : Int → FV) (H : HV) : Prop := ∃ σ : Nat → Tree, Mod (toIAlg treeAlg I) H σ

/-- The goals left call predicates of the set `Q` only. -/
def Kind.Calls (Q : FV → Prop) : Kind → Prop
  | .res _ fr fs => ∀ f ∈ fr :: fs, ∀ a ∈ f.atoms, Q a.fv
  | .head f _ fs _ => Q f ∧ ∀ f ∈ fs, ∀ a ∈ f.atoms, Q a.fv

/-- The clauses of predicates in `Q` respect the modes, and their bodies call predicates in `Q`. -/
def Ctx.Moded (X : Ctx) (M : Modes) (Q : FV → Prop) : Prop :=
  M.BuiltinsOK ∧ ∀ c ∈ X.P, Q c.head.fv → M.ClauseOK c ∧ ∀ b ∈ c.body, Q b.fv

/-- What a pending executor of a tame search looks like. -/
structure TameE (X : Ctx) (M : Modes) (R : List Name) (Q : FV → Prop) (k : Kind) (H : HV) : Prop where
  within : k.Within X
  calls : k.Calls Q
  moded : k.Moded M R X.I H
  acyclic : Acyclic X.I H

/-- All pending executors have heaps without cyclic terms, call predicates of `Q` only and respect the modes. -/
def Tame (X : Ctx) (M : Modes) (R : List Name) (Q : FV → Prop) (o : Org) : Prop :=
  ∀ id ∈ o.queue, ∃ e k L, Pending X o id e k L ∧ TameE X M R Q k (e.hp.at? (preOf o.execs e))

theorem Agr.int_self {K v} : Agr K (itreeAlg.int v) (.int v) := by
  cases K with
  | zero => trivial
  | succ => rfl

/-- A solution of a later heap agrees in the first levels with a finite solution of the present one. -/
theorem Acyclic.cut {I : Int → FV} {V H size} (g : Good V H size size) (hac : Acyclic I H) {V' H' size'} (g' : Good V' H' size' size')
    (le : ∀ τ : Nat → ITree, Mod (toIAlg itreeAlg I) H' τ → Mod (toIAlg itreeAlg I) H τ) (K : Nat) :
    ∃ (τ : Nat → ITree) (σ : Nat → Tree), Mod (toIAlg itreeAlg I) H' τ ∧ Mod (toIAlg treeAlg I) H σ ∧ ∀ a, a < size → Agr K (τ a) (σ a) := by
  obtain ⟨τ0, m0, h0⟩ := g'.solve_itree I (fun _ => itreeAlg.int 0)
  let τ : Nat → ITree := fun a => if a < size' then τ0 a else itreeAlg.int 0
  have m : Mod (toIAlg itreeAlg I) H' τ := mod_congr g' (fun a ha => if_pos ha) m0
  have hp : ∀ K a, ∃ t, Agr K (τ a) t := by
    intro K a
    by_cases ha : a < size'
    · exact g'.proper m (fun a v hv => by
        have := g'.lt hv
        simp only [τ, if_pos this]
        exact h0 a v hv) K a ha
    · exact ⟨.int 0, by simp only [τ, if_neg ha]; exact .int_self⟩
  obtain ⟨σ', m'⟩ := hac
  obtain ⟨σ, ms, hσ⟩ := g.cut (I := I) (g.reads_of m') (le τ m) K fun a _ => hp K a
  exact ⟨τ, σ, m, ms, hσ⟩

theorem forall₂_map_take {α β γ} {R : β → γ → Prop} {f : α → β} {g : α → γ} : ∀ {l : List α} {n : Nat}, (∀ x ∈ l, R (f x) (g x)) →
    List.Forall₂ R ((l.map f).take n) ((l.map g).take n)
  | [], n, _ => by simp
  | x :: l, 0, _ => by simp
  | x :: l, n + 1, h => by
    simp only [List.map_cons, List.take_succ_cons]
    exact .cons (h x (by simp)) (forall₂_map_take fun y hy => h y (by simp [hy]))

theorem Tree.folds_inj : ∀ {ts us : List Tree}, Tree.folds itreeAlg ts = Tree.folds itreeAlg us → ts = us
  | [], [], _ => rfl
  | [], _ :: _, h => by cases h
  | _ :: _, [], h => by cases h
  | t :: ts, u :: us, h => by
    simp only [Tree.folds, List.cons.injEq] at h
    rw [Tree.fold_inj h.1, Tree.folds_inj h.2]

/-- What has the same value in all solutions is a ground term. -/
theorem Acyclic.fixed {I : Int → FV} {H : HV} (hac : Acyclic I H) {J : Nat → Bool} {ps : List Nat}
    (h : ∀ (τ τ' : Nat → ITree), Mod (toIAlg itreeAlg I) H τ → Mod (toIAlg itreeAlg I) H τ' → ∀ i p, ps[i]? = some p → J i = true → τ p = τ' p) :
    ∃ N, ∀ i p, ps[i]? = some p → J i = true → Fixed I N H p := by
  obtain ⟨σ, m⟩ := hac
  have key : ∀ l : List Nat, (∀ p ∈ l, FixT I H p (σ p)) → ∃ N, ∀ p ∈ l, Fixed I N H p := by
    intro l
    induction l with
    | nil => intro _; exact ⟨0, fun p hp => by cases hp⟩
    | cons q l ih =>
      intro hl
      obtain ⟨N, hN⟩ := ih fun p hp => hl p (by simp [hp])
      refine ⟨max N (σ q).size, fun p hp => ?_⟩
      rcases List.mem_cons.1 hp with rfl | hp
      · exact ⟨_, by omega, hl _ (by simp)⟩
      · obtain ⟨t, h1, h2⟩ := hN p hp
        exact ⟨t, by omega, h2⟩
  obtain ⟨N, hN⟩ := key (pick J ps) fun p hp τ m' => by
    obtain ⟨i, h1, h2⟩ := pick_mem hp
    exact h _ _ m' m.fold i p h1 h2
  exact ⟨N, fun i p h1 h2 => hN p (mem_pick h1 h2)⟩

/-- A call that can be unified with a head has a finite instance that can, if no variable occurs twice in the arguments of the head
other than those for which the call has ground terms. -/
theorem Acyclic.head {I : Int → FV} {V H size} (g : Good V H size size) (hac : Acyclic I H) {V' H' size'} (g' : Good V' H' size' size')
    {f : FV} {ps : List Nat} (hps : ∀ p ∈ ps, p < size) {cl : Clause} {J : Nat → Bool} {N : Nat}
    (hlin : (Node.varss (pick (fun i => !J i) cl.head.children)).Nodup) (hfix : ∀ i p, ps[i]? = some p → J i = true → Fixed I N H p)
    (le : ∀ τ : Nat → ITree, Mod (toIAlg itreeAlg I) H' τ → Mod (toIAlg itreeAlg I) H τ ∧ ∃ ρ, gAtom f (ps.map τ) = cl.head.inst itreeAlg ρ) :
    ∃ (σ : Nat → Tree) (ρ : Name → Tree), Mod (toIAlg treeAlg I) H σ ∧ gAtom f (ps.map σ) = cl.head.inst treeAlg ρ := by
  classical
  obtain ⟨τ, σ, m, ms, hag⟩ := hac.cut g g' (fun τ m => (le τ m).1) (Node.sizes (pick (fun i => !J i) cl.head.children) + N)
  obtain ⟨mτ, ρ, he⟩ := le τ m
  simp only [gAtom, Node.inst, GAtom.mk.injEq] at he
  have h2 := forall₂_map_take (R := Agr (Node.sizes (pick (fun i => !J i) cl.head.children) + N)) (f := τ) (g := σ) (l := ps) (n := f.arity)
    fun p hp => hag p (hps p hp)
  rw [he.2] at h2
  have hlen : (Node.evals itreeAlg ρ cl.head.children).length = ((ps.map σ).take f.arity).length := by rw [← he.2]; simp
  replace h2 := forall₂_pick (J := fun i => !J i) h2
  rw [pick_evals] at h2
  obtain ⟨ρ', h3, h4⟩ := Node.matches_agr (M := N) _ hlin (Nat.le_refl _) h2
  let ρ2 : Name → Tree := fun v => if h : ∃ u : Tree, u.size ≤ N ∧ ρ v = u.fold itreeAlg then h.choose else ρ' v
  refine ⟨σ, ρ2, ms, ?_⟩
  simp only [gAtom, Node.inst, GAtom.mk.injEq]
  refine ⟨he.1, (eq_of_pick (J := J) (by rw [← hlen, evals_length, evals_length]) ?_ ?_).symm⟩
  · rw [pick_evals]
    refine Tree.folds_inj ?_
    rw [Node.fold_evals]
    have e1 : Node.evals itreeAlg (fun v => (ρ2 v).fold itreeAlg) (pick J cl.head.children) = Node.evals itreeAlg ρ (pick J cl.head.children) := by
      refine Node.evals_congr _ _ fun v hv => ?_
      obtain ⟨c, hc, hv⟩ := Node.mem_varss.1 hv
      obtain ⟨i, hi, hJ⟩ := pick_mem hc
      have hi' : (Node.evals itreeAlg ρ cl.head.children)[i]? = some (c.eval itreeAlg ρ) := by rw [evals_map]; simp [hi]
      rw [← he.2, List.getElem?_take] at hi'
      split at hi'
      · rw [List.getElem?_map] at hi'
        cases hp : ps[i]? with
        | none => rw [hp] at hi'; cases hi'
        | some p =>
          rw [hp] at hi'
          simp only [Option.map_some, Option.some.injEq] at hi'
          obtain ⟨t, ht, hft⟩ := hfix i p hp hJ
          rw [hft τ mτ] at hi'
          obtain ⟨u, hu, hu'⟩ := Node.eval_fold c t hi'.symm v hv
          have hex : ∃ u : Tree, u.size ≤ N ∧ ρ v = u.fold itreeAlg := ⟨u, by omega, hu'⟩
          simp only [ρ2, dif_pos hex]
          exact hex.choose_spec.2.symm
      · cases hi'
    rw [e1, ← pick_evals, ← he.2, Tree.folds_eq, ← pick_map]
    refine pick_of_get (by simp) fun i hJ => ?_
    simp only [List.map_take, List.map_map, List.getElem?_take, List.getElem?_map]
    split
    · cases hp : ps[i]? with
      | none => rfl
      | some p =>
        obtain ⟨t, ht, hft⟩ := hfix i p hp hJ
        simp only [Option.map_some, Function.comp_apply, Option.some.injEq]
        rw [hft τ mτ]
        exact (hft _ ms.fold).symm
    · rfl
  · rw [pick_evals, ← h3]
    refine Node.evals_congr _ _ fun v hv => ?_
    by_cases hex : ∃ u : Tree, u.size ≤ N ∧ ρ v = u.fold itreeAlg
    · simp only [ρ2, dif_pos hex]
      exact (h4 v hv _ hex.choose_spec.1 hex.choose_spec.2).symm
    · simp only [ρ2, dif_neg hex]

/-- The inputs of a call: the positions below the arity. -/
def Modes.at (M : Modes) (f : FV) (i : Nat) : Bool := M.ins f i && decide (i < f.arity)

theorem Modes.at_pick {M : Modes} {n : Node} (h : (Node.varss (pick (fun i => !M.ins n.fv i) n.children)).Nodup) :
    (Node.varss (pick (fun i => !M.at n.fv i) n.children)).Nodup := by
  rw [pick_congr (K := fun i => !M.ins n.fv i) fun i hi => ?_]
  · exact h
  · simp only [Modes.at, show i < n.fv.arity from hi, decide_true, Bool.and_true]

theorem Modes.at_args {M : Modes} {n : Node} (h : (Node.varss (pick (fun i => !M.ins n.fv i) n.children)).Nodup) :
    (Node.varss (pick (fun i => !M.at n.fv i) (atomArgs n))).Nodup := by
  have := M.at_pick h
  cases n with
  | fn f cs => exact this
  | var => exact this
  | int => exact this
  | efn => exact this
  | cons =>
    simp only [atomArgs, pick]
    split <;> simp [Node.varss, Node.vars]

theorem Callee.lt {st I g H size regs envs rest f ps fs} (C : Callee st I g H size regs envs rest f ps fs) : ∀ p ∈ ps, p < size := by
  intro p hp
  obtain ⟨i, hi⟩ := List.mem_iff_getElem?.1 hp
  exact (C.args i p hi).1

/-- The variables `R` of the query have the same values in all solutions. -/
def Grounded (X : Ctx) (R : List Name) (H : HV) (L : List (Name × Nat)) : Prop :=
  ∀ τ τ' : Nat → ITree, Mod (toIAlg itreeAlg X.I) H τ → Mod (toIAlg itreeAlg X.I) H τ' → ∀ x ∈ L, x.1 ∈ R → τ x.2 = τ' x.2

theorem gAtom_fv {D} {σ : Nat → D} {f : FV} {ps : List Nat} (hl : ps.length = max 1 f.arity) : (gAtom f (ps.map σ)).fv = f := by
  simp only [GAtom.fv, gAtom, List.length_take, List.length_map, hl, show min f.arity (max 1 f.arity) = f.arity by omega]

/-- The inputs of a call are ground. -/
theorem Callee.fixed {X : Ctx} {M : Modes} {R} {H : HV} {size regs envs rest f ps fs r} (C : Callee X.st X.I X.g H size regs envs rest f ps fs)
    (hm : (Kind.head f ps fs r).Moded M R X.I H) (hac : Acyclic X.I H) :
    ∃ N, ∀ i p, ps[i]? = some p → M.at f i = true → Fixed X.I N H p := by
  refine hac.fixed fun τ τ' m m' i p hp hJ => ?_
  obtain ⟨ρq, gs, hg⟩ := C.frs.exists_goals itreeAlg τ
  obtain ⟨ρq', gs', hg'⟩ := C.frs.exists_goals itreeAlg τ'
  obtain ⟨_, h, _⟩ := hm τ τ' ρq ρq' gs gs' m m' hg hg'
  rw [gAtom_fv C.len] at h
  simp only [Modes.at, Bool.and_eq_true, decide_eq_true_eq] at hJ
  have := pick_get (by simp [gAtom]) h i hJ.1
  simpa [gAtom, List.getElem?_take, hJ.2, hp] using this

theorem pick_false {α} {J : Nat → Bool} {l : List α} (h : ∀ i, J i = false) : pick J l = [] := by
  induction l generalizing J with
  | nil => rfl
  | cons x l ih => rw [pick, h 0, if_neg (by simp)]; exact ih fun i => h (i + 1)

theorem Final.ends {X : Ctx} {pre hp L} (F : Final X (hp.at? pre) hp.size L) (hpr : Printable X.st) (hac : Acyclic X.I (hp.at? pre)) :
    ∃ fuel0, ∀ fuel, fuel0 ≤ fuel → ∃ bs, Org.renderSubs (stringRep pre hp X.st L fuel false) L [] = .ok bs := by
  obtain ⟨σ, m⟩ := hac
  have key : ∀ M : List (Name × Nat), (∀ p ∈ M, p.2 < hp.size) → ∃ N, ∀ p ∈ M, ∃ t, Reads (hp.at? pre) p.2 t ∧ t.depth < N := by
    intro M
    induction M with
    | nil => intro _; exact ⟨0, by simp⟩
    | cons p M ih =>
      intro hM
      obtain ⟨N, hN⟩ := ih fun p hp => hM p (by simp [hp])
      obtain ⟨t, ht⟩ := F.good.reads_of m p.2 (hM p (by simp))
      refine ⟨max N (t.depth + 1), fun p' hp' => ?_⟩
      rcases List.mem_cons.1 hp' with rfl | hp'
      · exact ⟨t, ht, by omega⟩
      · obtain ⟨t', h1, h2⟩ := hN p' hp'
        exact ⟨t', h1, by omega⟩
  obtain ⟨N, hN⟩ := key L F.lt
  refine ⟨N, fun fuel hf => renderSubs_done fun p hp => ?_⟩
  obtain ⟨t, h1, h2⟩ := hN p hp
  exact stringRep_finite hpr F.good fuel (F.lt p hp) h1 (by omega)

/-- After a call of a built-in predicate. -/
theorem builtin_acyclic {X : Ctx} (ok : X.OK) {pre} {e : Exec} {n : Name} {ps : List Nat} {fs : List Fr} {rest fuel} {b : Builtin}
    (C : Callee X.st X.I X.g (e.hp.at? pre) e.hp.size e.regs e.envs rest ⟨n, 2⟩ ps fs) (hrun : e.state = .running) {e1}
    (h : runData pre fuel X.st (builtinData b) { e with regs := Org.resize 4 e.regs } = .ok e1) (hr1 : e1.state = .running)
    (hac : Acyclic X.I (e.hp.at? pre)) : Acyclic X.I (e1.hp.at? pre) := by
  by_cases hb : b = .is
  · subst hb
    have B := builtin_run ok.st ok.interp C hrun h hr1
    obtain ⟨τ, σ, m, ms, hag⟩ := hac.cut C.good B.good (fun τ m => B.modLe _ _ τ m) 1
    obtain ⟨v, d, h1, h2⟩ := B.sound _ _ τ m
    obtain ⟨p0, p1, r, rfl, l0, l1, hev, hr⟩ := is_cases C hrun h
    simp only [List.map_cons, List.map_nil, List.cons.injEq, and_true] at h1
    obtain ⟨h1, rfl⟩ := h1
    rcases hr with ⟨w, rfl, _⟩ | ⟨err, rfl, hs, _⟩
    · have sp := (evalArith_spec (I := X.I) C.good _ l1 hev).2
      obtain rfl : v = w := h2.det itreeAlg_sharp (sp _ _ τ (B.modLe _ _ τ m))
      have hp0 : σ p0 = .int v := by
        have := hag p0 l0
        rw [h1] at this
        generalize σ p0 = t at this
        cases t with
        | cons n => exact absurd this.symm itreeAlg_sharp.cons_int
        | int x => rw [itreeAlg_sharp.int_inj this]
        | fn f ts => obtain ⟨ds, this, _⟩ := this; exact absurd this itreeAlg_sharp.int_fn
        | efn f ts => obtain ⟨ds, this, _⟩ := this; exact absurd this itreeAlg_sharp.int_efn
      rcases is_run ok.st ok.interp C hrun h treeAlg_sharp ms ⟨v, σ p1, by simp [hp0, treeAlg], sp _ _ σ ms⟩ with ⟨err, hs, _⟩ | ⟨_, σ', _, m'⟩
      · rw [hr1] at hs; cases hs
      · exact ⟨σ', m'⟩
    · rw [hr1] at hs; cases hs
  · obtain ⟨p0, p1, r, _, _, _, _, he, _⟩ := compare_run hb C hrun h
    rw [he]; exact hac

theorem builtin_moded {X : Ctx} (ok : X.OK) {M : Modes} {R} (hM : M.BuiltinsOK) {pre} {e : Exec} {ps : List Nat} {fs : List Fr} {rest fuel r} {b : Builtin}
    (C : Callee X.st X.I X.g (e.hp.at? pre) e.hp.size e.regs e.envs rest ⟨b.name, 2⟩ ps fs) (hrun : e.state = .running) {e1}
    (h : runData pre fuel X.st (builtinData b) { e with regs := Org.resize 4 e.regs } = .ok e1) (hr1 : e1.state = .running)
    (hm : (Kind.head ⟨b.name, 2⟩ ps fs r).Moded M R X.I (e.hp.at? pre)) {τ τ' : Nat → ITree} {ρq ρq' gs gs'}
    (m : Mod (toIAlg itreeAlg X.I) (e1.hp.at? pre) τ) (m' : Mod (toIAlg itreeAlg X.I) (e1.hp.at? pre) τ')
    (hg : Goals itreeAlg τ ρq fs gs) (hg' : Goals itreeAlg τ' ρq' fs gs') : M.Alike (∀ v ∈ R, ρq v = ρq' v) gs gs' := by
  have B := builtin_run ok.st ok.interp C hrun h hr1
  have n := B.modLe _ _ τ m
  have n' := B.modLe _ _ τ' m'
  obtain ⟨_, _, hA⟩ := hm τ τ' ρq ρq' gs gs' n n' hg hg'
  rw [gAtom_fv C.len] at hA
  refine hA ?_
  cases b with
  | eq => exact (pick_false hM.1).trans (pick_false hM.1).symm
  | neq => exact (pick_false hM.2.1).trans (pick_false hM.2.1).symm
  | is =>
    obtain ⟨v, d, h1, h2⟩ := B.sound _ _ τ m
    obtain ⟨v', d', h1', h2'⟩ := B.sound _ _ τ' m'
    obtain ⟨p0, p1, r, rfl, l0, l1, hev, hr⟩ := is_cases C hrun h
    simp only [List.map_cons, List.map_nil, List.cons.injEq, and_true] at h1 h1'
    rcases hr with ⟨w, rfl, _⟩ | ⟨err, rfl, hs, _⟩
    · have sp := (evalArith_spec (I := X.I) C.good _ l1 hev).2
      obtain rfl : v = w := h2.det itreeAlg_sharp (h1.2 ▸ sp _ _ τ n)
      obtain rfl : v' = v := h2'.det itreeAlg_sharp (h1'.2 ▸ sp _ _ τ' n')
      refine pick_of_get (by simp [gAtom]) fun i hi => ?_
      cases i with
      | zero => simp [gAtom, h1.1, h1'.1]
      | succ i => rw [show M.outs ⟨Builtin.is.name, 2⟩ (i + 1) = false from hM.2.2 _ (by omega)] at hi; cases hi
    · rw [hr1] at hs; cases hs

/-- The goals of a clause and the rest respect the modes. -/
theorem clause_moded {X : Ctx} {M : Modes} {R} {cl : Clause} (hcl : M.ClauseOK cl) {H : HV} {f : FV} {ps : List Nat} {fs : List Fr} {r}
    (hm : (Kind.head f ps fs r).Moded M R X.I H) {τ τ' : Nat → ITree} {ρq ρq' ρ ρ' gs gs'}
    (m : Mod (toIAlg itreeAlg X.I) H τ) (m' : Mod (toIAlg itreeAlg X.I) H τ') (hg : Goals itreeAlg τ ρq fs gs) (hg' : Goals itreeAlg τ' ρq' fs gs')
    (he : gAtom f (ps.map τ) = cl.head.inst itreeAlg ρ) (he' : gAtom f (ps.map τ') = cl.head.inst itreeAlg ρ') :
    M.Alike (∀ v ∈ R, ρq v = ρq' v) (cl.body.map (Node.inst itreeAlg ρ) ++ gs) (cl.body.map (Node.inst itreeAlg ρ') ++ gs') := by
  obtain ⟨_, h1, h2⟩ := hm τ τ' ρq ρq' gs gs' m m' hg hg'
  rw [he, he', fv_inst] at h1 h2
  simp only [Node.inst, pick_evals] at h1 h2
  exact hcl.2.alike itreeAlg_sharp (Node.evals_inj itreeAlg_sharp _ h1) fun h => h2 (Node.evals_congr _ _ h)

theorem Tame.others {X : Ctx} {M R Q} {o o' : Org} {id q} (w : Work X o) (t : Tame X M R Q o) (hq : o.queue = id :: q) (hk : Keeps o o' id) :
    ∀ j ∈ q, ∃ e k L, Pending X o' j e k L ∧ TameE X M R Q k (e.hp.at? (preOf o'.execs e)) := by
  intro j hj
  obtain ⟨e, k, L, h1, h2⟩ := t j (by simp [hq, hj])
  refine ⟨e, k, L, h1.other w.inv (by simp [hq]) hk ?_, ?_⟩
  · rintro rfl
    have := w.inv.qnd
    rw [hq] at this
    exact (List.nodup_cons.1 this).1 hj
  · rw [preOf_other w.inv (by simp [hq]) hk h1.get]; exact h2

/-- A turn keeps the search tame, and what it reports is a finite term. -/
theorem Tame.next {X : Ctx} (ok : X.OK) {M R Q} (hT : X.Moded M Q) {o o' : Org} (w : Work X o) (t : Tame X M R Q o) {fuel tn}
    (ht : o.turn fuel = .ok (o', tn)) :
    Tame X M R Q o' ∧ ∀ bs, tn = .answer bs → ∃ pre hp L, Reported X fuel bs pre hp L ∧ Acyclic X.I (hp.at? pre) ∧ Grounded X R (hp.at? pre) L := by
  have hfree := treeAlg_sharp.free ok.st ok.interp
  cases hq : o.queue with
  | nil =>
    simp only [Org.turn, hq, pure_ok, Prod.mk.injEq] at ht
    rw [← ht.1, ← ht.2]
    exact ⟨t, fun bs h => by cases h⟩
  | cons id q =>
  obtain ⟨e, k, L, hp, hw, hc, hmd, hac⟩ := t id (by simp [hq])
  have mk : ∀ {o' : Org} {news : List Nat}, Keeps o o' id → o'.queue = q ++ news →
      (∀ j ∈ news, ∃ e k L, Pending X o' j e k L ∧ TameE X M R Q k (e.hp.at? (preOf o'.execs e))) → Tame X M R Q o' := by
    intro o' news h4 h5 h6 j hj
    rw [h5] at hj
    rcases List.mem_append.1 hj with hj | hj
    · exact Tame.others w t hq h4 j hj
    · exact h6 j hj
  cases k with
  | res b fr fs =>
    cases hcd : fr.codes with
    | nil =>
      obtain ⟨rfl, o1, e', fr', fs', h1, h2, B, h3, h4, rfl, hp', h5, h6⟩ := step_dealloc (fuel := fuel) w.inv w.gen hq hp hcd
      rw [h1] at ht; cases ht
      refine ⟨mk B.keeps h3 ?_, fun bs h => by cases h⟩
      intro j hj
      simp only [List.mem_singleton] at hj
      subst hj
      refine ⟨_, _, _, hp', fun f hf => hw f (by simp [hf]), fun f hf => hc f (by simp [hf]), ?_, by rw [h5]; exact hac⟩
      rw [h5]
      have hqf : fr.query = false := by
        cases hqf : fr.query with
        | false => rfl
        | true => exact absurd (hp.exec.tail hqf) (by simp)
      have ext : ∀ (τ : Nat → ITree) ρq gs, Goals itreeAlg τ ρq (fr' :: fs') gs → Goals itreeAlg τ ρq (fr :: fr' :: fs') gs := by
        intro τ ρq gs hg
        obtain ⟨ρ, hρ⟩ := exists_agree (itreeAlg.int 0) fr.ν τ
        have := Goals.cons (fr := fr) ρ hρ (by simp [hqf]) hg
        rwa [h6] at this
      exact fun τ τ' ρq ρq' gs gs' m m' hg hg' => hmd τ τ' ρq ρq' gs gs' m m' (ext _ _ _ hg) (ext _ _ _ hg')
    | cons c cs =>
      obtain ⟨o1, f, ps, fs', L', h1, h2, h3, h4, h5, h6, h7, h8, ⟨a, as, g1, g2, g3, _⟩, h9⟩ := step_goal (fuel := fuel) ok w.inv w.st w.gen w.prog hq hp hcd
      rw [h1] at ht; cases ht
      refine ⟨mk h6 h7 ?_, fun bs h => by cases h⟩
      intro j hj
      simp only [List.mem_range'_1] at hj
      obtain ⟨i, rfl⟩ : ∃ i, j = o.execs.length + i := ⟨j - o.execs.length, by omega⟩
      obtain ⟨r, hr⟩ : ∃ r, ((X.prog.rules? f).getD [])[i]? = some r := ⟨_, List.getElem?_eq_getElem (by omega)⟩
      obtain ⟨e', hp', k2, k3, _⟩ := h9 i r hr
      refine ⟨_, _, _, hp', ⟨⟨a, hw fr (by simp) a (by simp [g1]), g2⟩, fun f' hf' b hb => ?_⟩,
        ⟨g2 ▸ hc fr (by simp) a (by simp [g1]), fun f' hf' b hb => ?_⟩, ?_, ?_⟩
      · rcases g3 f' hf' with hin | heq
        · exact hw f' (by simp [hin]) b hb
        · exact hw fr (by simp) b (by rw [g1, ← heq]; simp [hb])
      · rcases g3 f' hf' with hin | heq
        · exact hc f' (by simp [hin]) b hb
        · exact hc fr (by simp) b (by rw [g1, ← heq]; simp [hb])
      · intro τ τ' ρq ρq' gs gs' m m' hg hg'
        obtain ⟨n, hn⟩ := k3 _ _ τ ρq gs m hg
        obtain ⟨n', hn'⟩ := k3 _ _ τ' ρq' gs' m' hg'
        exact hmd τ τ' ρq ρq' _ _ n n' hn hn'
      · obtain ⟨σ, m⟩ := hac
        obtain ⟨ρq, gs, hg⟩ : ∃ ρq gs, Goals treeAlg σ ρq (fr :: fs) gs := by
          cases b with
          | false => exact (show Resume _ _ _ _ _ _ _ from hp.exec).exists_goals treeAlg σ
          | true =>
            obtain ⟨_, rfl, _⟩ := hp.exec
            obtain ⟨ρ, hρ⟩ := exists_agree (treeAlg.int 0) fr.ν σ
            exact ⟨ρ, _, .cons ρ hρ (fun _ => rfl) .nil⟩
        obtain ⟨σ', _, m', _⟩ := k2 _ _ σ ρq gs m hg
        exact ⟨σ', m'⟩
  | head f ps fs r =>
    obtain ⟨hrun, hr, rest, _, C⟩ := hp.exec
    cases hr with
    | @user cl h1 h2 h3 =>
      obtain ⟨hok, hbody⟩ := hT.2 cl h1 (by rw [h2]; exact hc.1)
      obtain ⟨N, hfix⟩ := C.fixed hmd hac
      have hlin := M.at_pick hok.1
      have harg := M.at_args hok.1
      rw [h2] at hlin harg
      rcases step_user (fuel := fuel) w.inv w.st w.gen hq hp h1 h2 h3 with ⟨h, _⟩ | ⟨o1, B, _, h⟩
      · rw [h] at ht; cases ht
      · rcases h with ⟨t1, t2, t3, _⟩ | ⟨e', fr', fs', t1, t2, t3, t4, t5, _, _, t8, t9⟩ | ⟨pre, hp', t1, t2, t3, t4, _, t6, t7, t8, _⟩
        · rw [t1] at ht; cases ht
          exact ⟨mk (news := []) B.keeps (by simp [t2]) (by simp), fun bs h => by cases h⟩
        · rw [t1] at ht; cases ht
          refine ⟨mk B.keeps t2 ?_, fun bs h => by cases h⟩
          intro j hj
          simp only [List.mem_singleton] at hj
          subst hj
          have R : Resume X.st X.I X.g (preOf o'.execs e') e' fr' fs' := t4.exec
          refine ⟨_, _, _, t4, fun f' hf' a ha => ?_, fun f' hf' a ha => ?_, ?_, ?_⟩
          · rcases t5 f' hf' with hin | heq
            · exact hw.2 f' hin a ha
            · exact .inr ⟨cl, h1, by rw [← heq]; exact ha⟩
          · rcases t5 f' hf' with hin | heq
            · exact hc.2 f' hin a ha
            · exact hbody a (by rw [← heq]; exact ha)
          · intro τ τ' ρq ρq' gs gs' m m' hg hg'
            obtain ⟨ρ, gs1, rfl, n, hn, he⟩ := t8 _ _ τ ρq gs m hg
            obtain ⟨ρ', gs1', rfl, n', hn', he'⟩ := t8 _ _ τ' ρq' gs' m' hg'
            exact clause_moded hok hmd n n' hn hn' he he'
          · obtain ⟨σ, ρ, m, he⟩ := hac.head C.good R.good (f := f) C.lt hlin hfix fun τ m => by
              obtain ⟨ρq, gs, hg⟩ := R.exists_goals itreeAlg τ
              obtain ⟨ρ, gs', _, m', _, he⟩ := t8 _ _ τ ρq gs m hg
              exact ⟨m', ρ, he⟩
            obtain ⟨ρq, gs, hg⟩ := C.frs.exists_goals treeAlg σ
            obtain ⟨σ', m', _⟩ := t9 _ _ σ ρq gs ρ hfree m hg he
            exact ⟨σ', m'⟩
        · rw [t1] at ht
          simp only [bind_ok] at ht
          obtain ⟨bs, hbs, ht⟩ := ht
          cases ht
          refine ⟨mk (news := []) B.keeps (by simp [t2]) (by simp), fun bs' h => ?_⟩
          cases h
          refine ⟨pre, hp', L, ⟨hbs, t4⟩, ?_, ?_⟩
          obtain ⟨σ, ρ, m, he⟩ := hac.head C.good t4.good (f := f) C.lt hlin hfix fun τ m => by
            obtain ⟨ρq, ρ, _, m', _, he⟩ := t7 _ _ τ m
            exact ⟨m', ρ, he⟩
          obtain ⟨ρq, gs, hg⟩ := C.frs.exists_goals treeAlg σ
          obtain ⟨σ', m', _⟩ := t8 _ _ σ ρq gs ρ hfree m hg he
          exact ⟨σ', m'⟩
          intro τ τ' m m' x hx hR
          obtain ⟨ρq, ρ, e1, n, hg, he⟩ := t7 _ _ τ m
          obtain ⟨ρq', ρ', e1', n', hg', he'⟩ := t7 _ _ τ' m'
          have := clause_moded hok hmd n n' hg hg' he he'
          rw [t6] at this
          rw [e1 x hx, e1' x hx]
          exact this x.1 hR
    | @builtin b sub src h1 h2 =>
      subst h1 h2
      have hbt := builtin_turn (fuel := fuel) ok w.inv w.st w.gen hq hp
      cases hr : runData (preOf o.execs e) fuel X.st (builtinData b) { e with regs := Org.resize 4 e.regs } with
      | error x =>
        rw [hr] at hbt
        rw [show o.turn fuel = .error x from hbt] at ht; cases ht
      | ok e1 =>
        rw [hr] at hbt
        obtain ⟨o1, B, _, h⟩ := hbt
        rcases h with ⟨s1, t1, t2, t3⟩ | ⟨err, s1, s2, t1, t2, t3⟩ | ⟨e', fr', fs', s1, t1, t2, t3, rfl, t5, t6⟩ | ⟨s1, t1, t2, t3, t4, _, _, t5⟩
        · rw [t1] at ht; cases ht
          exact ⟨mk (news := []) B.keeps (by simp [t2]) (by simp), fun bs h => by cases h⟩
        · rw [t1] at ht; cases ht
          exact ⟨mk (news := []) B.keeps (by simp [t2]) (by simp), fun bs h => by cases h⟩
        · rw [t1] at ht; cases ht
          refine ⟨mk B.keeps t2 ?_, fun bs h => by cases h⟩
          intro j hj
          simp only [List.mem_singleton] at hj
          subst hj
          refine ⟨_, _, _, t5, hw.2, hc.2, ?_, by rw [t6]; exact builtin_acyclic ok C hrun hr s1 hac⟩
          rw [t6]
          exact fun τ τ' ρq ρq' gs gs' m m' hg hg' => builtin_moded ok hT.1 C hrun hr s1 hmd m m' hg hg'
        · rw [t1] at ht
          simp only [bind_ok] at ht
          obtain ⟨bs, hbs, ht⟩ := ht
          cases ht
          refine ⟨mk (news := []) B.keeps (by simp [t2]) (by simp), fun bs' h => ?_⟩
          cases h
          refine ⟨_, _, L, ⟨hbs, t4⟩, builtin_acyclic ok C hrun hr s1 hac, ?_⟩
          intro τ τ' m m' x hx hR
          obtain ⟨ρq, hg, e1⟩ := t5 _ _ τ m
          obtain ⟨ρq', hg', e1'⟩ := t5 _ _ τ' m'
          rw [e1 x hx, e1' x hx]
          exact builtin_moded ok hT.1 C hrun hr s1 hmd m m' hg hg' x.1 hR

/-- A built-in predicate called with finite terms comes to an end. -/
theorem builtin_ends {X : Ctx} {pre} {e : Exec} {n : Name} {ps : List Nat} {fs : List Fr} {rest} {b : Builtin}
    (C : Callee X.st X.I X.g (e.hp.at? pre) e.hp.size e.regs e.envs rest ⟨n, 2⟩ ps fs) (hrun : e.state = .running)
    (hac : Acyclic X.I (e.hp.at? pre)) :
    ∃ fuel, runData pre fuel X.st (builtinData b) { e with regs := Org.resize 4 e.regs } ≠ .error .hang := by
  obtain ⟨σ, m⟩ := hac
  obtain ⟨p0, p1, c0, c1, regs, rfl, h0, h1, b0, b1, g2, g3, _⟩ := builtin_head (b := b) (fuel := 0) C hrun
  obtain ⟨t0, r0⟩ := C.good.reads_of m p0 h0
  obtain ⟨t1, r1⟩ := C.good.reads_of m p1 h1
  refine ⟨max t0.depth t1.depth + 1, fun h => ?_⟩
  obtain ⟨q0, q1, c0, c1, regs, hq, h0, h1, b0, b1, g2, g3, eq⟩ := builtin_head (b := b) (fuel := max t0.depth t1.depth + 1) C hrun
  cases hq
  unfold builtinData at h
  rw [eq] at h
  have a0 : c0.addr = .ok p0 := by simp [Cell.addr, b0, orFault_some]
  have a1 : c1.addr = .ok p1 := by simp [Cell.addr, b1, orFault_some]
  obtain ⟨r, hr⟩ := heapRegEquals_finite C.good (max t0.depth t1.depth + 1) h0 h1 r0 (by omega)
  cases b with
  | eq => simp only [stepData, equalsCheck, Exec.reg, g2, g3, orFault_some, ok_bind, a0, a1, hr] at h; cases h
  | neq => simp only [stepData, notEqualsCheck, equalsCheck, Exec.reg, g2, g3, orFault_some, ok_bind, a0, a1, hr] at h; cases h
  | is =>
    simp only [stepData, isPred, Exec.reg, g2, g3, orFault_some, ok_bind, a0, a1] at h
    rcases error_of_bind h with h | ⟨v, hv, h⟩
    · exact evalArith_finite C.good _ h1 r1 (by omega) h
    · cases v with
      | inl err => cases h
      | inr v =>
        obtain ⟨d, e1, t1⟩ := deref_ok C.good h0
        obtain ⟨c, hc⟩ := C.good.get (t1.lt C.good)
        simp only [Exec.deref, e1, Exec.heapAt, hc, orFault_some, ok_bind] at h
        cases c with
        | ref x k =>
          simp only at h
          split at h
          · cases h
          · simp only [Exec.push] at h
            rcases error_of_bind h with h | ⟨_, _, h⟩
            · rcases t1.end_cell.2 with ⟨w, hw⟩ | ⟨c, hw, hp⟩
              · have hne : d ≠ e.hp.size := by have := t1.lt C.good; omega
                have hw' : (e.hp.push (.int v)).at? pre d = some (.ref d w) := by
                  rw [Hp.at_push, HV.upd_ne _ _ hne]; exact hw
                rw [Hp.bind_eq hw'] at h
                cases h
              · rw [hc] at hw; cases hw; cases hp
            · cases h
        | _ => cases h

/-- Every turn of a tame search comes to an end. -/
theorem Tame.ends {X : Ctx} (ok : X.OK) (hpr : Printable X.st) {M R Q} (hT : X.Moded M Q) {o : Org} (w : Work X o) (t : Tame X M R Q o) :
    ∃ fuel0, ∀ fuel, fuel0 ≤ fuel → o.turn fuel ≠ .error .hang := by
  have hfree := treeAlg_sharp.free ok.st ok.interp
  suffices h : ∃ fuel0, o.turn fuel0 ≠ .error .hang by
    obtain ⟨n, hn⟩ := h
    exact ⟨n, fun m hm => by rw [Org.turn_fuel hm o hn]; exact hn⟩
  cases hq : o.queue with
  | nil => exact ⟨0, by simp [Org.turn, hq, pure, Except.pure]⟩
  | cons id q =>
  obtain ⟨e, k, L, hp, hw, hc, hmd, hac⟩ := t id (by simp [hq])
  cases k with
  | res b fr fs =>
    cases hcd : fr.codes with
    | nil =>
      obtain ⟨rfl, o1, e', fr', fs', h1, _⟩ := step_dealloc (fuel := 0) w.inv w.gen hq hp hcd
      exact ⟨0, by rw [h1]; simp⟩
    | cons c cs =>
      obtain ⟨o1, f, ps, fs', L', h1, _⟩ := step_goal (fuel := 0) ok w.inv w.st w.gen w.prog hq hp hcd
      exact ⟨0, by rw [h1]; simp⟩
  | head f ps fs r =>
    obtain ⟨hrun, hr, rest, _, C⟩ := hp.exec
    cases hr with
    | @user cl h1 h2 h3 =>
      obtain ⟨hok, hbody⟩ := hT.2 cl h1 (by rw [h2]; exact hc.1)
      obtain ⟨N, hfix⟩ := C.fixed hmd hac
      have hlin := M.at_pick hok.1
      have harg := M.at_args hok.1
      rw [h2] at hlin harg
      rcases step_user (fuel := N) w.inv w.st w.gen hq hp h1 h2 h3 with ⟨_, h⟩ | ⟨o1, B, _, h⟩
      · exact absurd harg (h _ N hfix (Nat.le_refl _))
      · rcases h with ⟨t1, _⟩ | ⟨e', fr', fs', t1, _⟩ | ⟨pre, hp', t1, t2, t3, t4, _, _, t7, t8, t9⟩
        · exact ⟨N, by rw [t1]; simp⟩
        · exact ⟨N, by rw [t1]; simp⟩
        · obtain ⟨σ, ρ, m, he⟩ := hac.head C.good t4.good (f := f) C.lt hlin hfix fun τ m => by
            obtain ⟨ρq, ρ, _, m', _, he⟩ := t7 _ _ τ m
            exact ⟨m', ρ, he⟩
          obtain ⟨ρq, gs, hg⟩ := C.frs.exists_goals treeAlg σ
          obtain ⟨σ', m', _⟩ := t8 _ _ σ ρq gs ρ hfree m hg he
          obtain ⟨N', hN⟩ := t4.ends hpr ⟨σ', m'⟩
          obtain ⟨o2, h⟩ := t9 (max N N') (by omega)
          obtain ⟨bs, hbs⟩ := hN (max N N') (by omega)
          exact ⟨max N N', by rw [h, hbs]; simp [bind, Except.bind]⟩
    | @builtin b sub src h1 h2 =>
      subst h1 h2
      obtain ⟨N, hN⟩ := builtin_ends (b := b) C hrun hac
      have hbt := fun fuel => builtin_turn (fuel := fuel) ok w.inv w.st w.gen hq hp
      cases hr : runData (preOf o.execs e) N X.st (builtinData b) { e with regs := Org.resize 4 e.regs } with
      | error x =>
        refine ⟨N, fun hh => ?_⟩
        have := hbt N
        rw [hr] at this
        rw [show o.turn N = .error x from this] at hh
        cases hh
        exact hN hr
      | ok e1 =>
        have all : ∀ fuel, N ≤ fuel → runData (preOf o.execs e) fuel X.st (builtinData b) { e with regs := Org.resize 4 e.regs } = .ok e1 :=
          fun fuel hle => (runData_fuel hle _ _ hN).trans hr
        by_cases hs : e1.state = .running ∧ Final X (e1.hp.at? (preOf o.execs e)) e1.hp.size L
        · obtain ⟨M, hM⟩ := hs.2.ends hpr (builtin_acyclic ok C hrun hr hs.1 hac)
          have h := hbt (max N M)
          rw [all _ (by omega)] at h
          obtain ⟨o1, B, _, h⟩ := h
          refine ⟨max N M, ?_⟩
          rcases h with ⟨s1, t1, _⟩ | ⟨err, s1, s2, t1, _⟩ | ⟨e', fr', fs', s1, t1, _⟩ | ⟨s1, t1, t2, t3, t4, _⟩
          · rw [t1]; simp
          · rw [t1]; simp
          · rw [t1]; simp
          · obtain ⟨bs, hbs⟩ := hM (max N M) (by omega)
            rw [t1, hbs]; simp [bind, Except.bind]
        · have h := hbt N
          rw [hr] at h
          obtain ⟨o1, B, _, h⟩ := h
          refine ⟨N, ?_⟩
          rcases h with ⟨s1, t1, _⟩ | ⟨err, s1, s2, t1, _⟩ | ⟨e', fr', fs', s1, t1, _⟩ | ⟨s1, t1, t2, t3, t4, _⟩
          · rw [t1]; simp
          · rw [t1]; simp
          · rw [t1]; simp
          · exact absurd ⟨s1, t4⟩ hs

/-- Any number of turns of a tame search comes to an end. -/
theorem Tame.iterates {X : Ctx} (ok : X.OK) (hpr : Printable X.st) {M R Q} (hT : X.Moded M Q) : ∀ (k : Nat) {o : Org}, Work X o → Tame X M R Q o →
    ∃ fuel0, ∀ fuel, fuel0 ≤ fuel → o.iterate fuel k ≠ .error .hang := by
  intro k
  induction k with
  | zero => intro o _ _; exact ⟨0, fun _ _ => by simp [Org.iterate, pure, Except.pure]⟩
  | succ k ih =>
    intro o w t
    obtain ⟨N, hN⟩ := t.ends ok hpr hT w
    cases hq : o.queue with
    | nil => exact ⟨0, fun _ _ => by simp [Org.iterate, hq, pure, Except.pure]⟩
    | cons id q =>
      cases ht : o.turn N with
      | error x =>
        refine ⟨N, fun fuel hf h => ?_⟩
        have := Org.turn_fuel hf o (hN N (Nat.le_refl _))
        unfold Org.iterate at h
        simp only [hq] at h
        rw [this, ht, error_bind] at h
        cases h
        exact hN N (Nat.le_refl _) ht
      | ok r =>
        obtain ⟨o1, tn⟩ := r
        obtain ⟨M, hM⟩ := ih (w.next ok ht) (t.next ok hT w ht).1
        refine ⟨max N M, fun fuel hf h => ?_⟩
        have := Org.turn_fuel (show N ≤ fuel by omega) o (hN N (Nat.le_refl _))
        unfold Org.iterate at h
        simp only [hq] at h
        rw [this, ht, ok_bind] at h
        rcases error_of_bind h with h | ⟨_, _, h⟩
        · exact hM fuel (by omega) h
        · cases h

end PBfs
