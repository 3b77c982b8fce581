import Verif.Proof.Head
/-! # Code of the head of a clause, continued: the generated instructions -/
namespace PBfs

theorem HStep.of_iff {Γ : QCtx} {lim e e'} {Φ Φ' : Asrt}
    (hm : ∀ (D : Type) (A : Alg D) σ, Mod (toIAlg A Γ.I) (Γ.H e') σ ↔ Mod (toIAlg A Γ.I) (Γ.H e) σ)
    (hs : e'.state = .running) (hz : e.hp.size ≤ e'.hp.size) (ht : e'.envs.tail = e.envs.tail)
    (h : ∀ D A σ ρ, Mod (toIAlg A Γ.I) (Γ.H e) σ → (Φ D A σ ρ ↔ Φ' D A σ ρ)) : HStep Γ lim Φ e Φ' e' where
  sound _ D A σ ρ m f := ⟨(hm D A σ).1 m, (h D A σ ρ ((hm D A σ).1 m)).2 f⟩
  complete D A σ ρ _ m f := ⟨hs, σ, fun _ _ => rfl, (hm D A σ).2 m, (h D A σ ρ m).1 f⟩
  state := .inl hs
  size := hz
  tail := ht

theorem programKid_le {yOf c x g i g'} (h : programKid yOf c x g = .ok (i, g')) (hw : c.wf = true) :
    StLe g.st g'.st := by
  have hv : ∀ n : Name, StLe g.st (g.st.pushBackVar n).2 := fun n => (pushBackVar_spec (Prod.eta _).symm).1
  cases c with
  | int v =>
    simp only [programKid, bind_ok, pure_ok] at h
    obtain ⟨⟨cell, g1⟩, h1, h2⟩ := h
    cases h2
    exact (structCell_spec h1 hw).1
  | cons v =>
    simp only [programKid, bind_ok, pure_ok] at h
    obtain ⟨⟨cell, g1⟩, h1, h2⟩ := h
    cases h2
    exact (structCell_spec h1 hw).1
  | var n =>
    simp only [programKid] at h
    split at h
    · split at h <;> cases h <;> exact .refl _
    · split at h <;> cases h <;> exact hv _
  | fn f cs =>
    simp only [programKid] at h
    split at h
    · cases h; exact .refl _
    · cases h; exact hv _
  | efn f cs =>
    simp only [programKid] at h
    split at h
    · cases h; exact .refl _
    · cases h; exact hv _

theorem programKids_le {yOf} : ∀ {ks : List (Node × Nat)} {g is g'}, programKids yOf ks g = .ok (is, g') →
    (∀ k ∈ ks, k.1.wf = true) → StLe g.st g'.st
  | [], g, is, g', h, _ => by cases h; exact .refl _
  | (c, x) :: ks, g, is, g', h, hw => by
    simp only [programKids, bind_ok, pure_ok] at h
    obtain ⟨⟨i, g1⟩, h1, ⟨is1, g2⟩, h2, h3⟩ := h
    cases h3
    exact (programKid_le h1 (hw (c, x) (by simp))).trans (programKids_le h2 fun k hk => hw k (by simp [hk]))

/-- What one kid does. -/
structure KidStep (Γ : HCtx) (k c0 n lim : Nat) (ν : VMap) (α : Nat → Option Nat) (e : Exec) (c : Node)
    (seen' : List SReg) (lim' : Nat) (ν' : VMap) (α' : Nat → Option Nat) (e' : Exec) : Prop where
  good : e'.state = .running → Good (ValidCell Γ.st) (Γ.H e') e'.hp.size lim'
  regs : e'.state = .running → HRegs Γ k (c0 + 1) ν' α' seen' e'
  room : e'.state = .running → Room e' n lim'
  kb : e'.state = .running → kb e' = kb e + 1
  le : lim ≤ lim'
  fix : e'.state = .running → ∀ a, Fixed Γ.I Γ.N (Γ.H e) a → Fixed Γ.I Γ.N (Γ.H e') a
  gr : e'.state = .running → HGr Γ k (c0 + 1) ν' α' e'
  step : HStep Γ.toQCtx lim (fun D A σ ρ => (Agree ν σ ρ ∧ Pend Γ k α D A σ ρ) ∧ σ (PBfs.kb e) = c.eval A ρ) e
    (fun D A σ ρ => Agree ν' σ ρ ∧ Pend Γ k α' D A σ ρ) e'

theorem Pend.congr {Γ k c0 ν α seen e} (h : HRegs Γ k c0 ν α seen e) {D} {A : Alg D} {σ τ : Nat → D} {ρ}
    (he : ∀ a, a < e.hp.size → τ a = σ a) (p : Pend Γ k α D A σ ρ) : Pend Γ k α D A τ ρ :=
  fun b hb hk q hq => by rw [he q (h.item b hb hk q hq).1]; exact p b hb hk q hq

theorem item_unique {Γ : HCtx} (ok : Γ.OK) {b b'} (hb : b ∈ Γ.ais) (hb' : b' ∈ Γ.ais) (h : b'.id = b.id) : b' = b := by
  obtain ⟨i, h1⟩ := List.getElem?_of_mem hb
  obtain ⟨j, h2⟩ := List.getElem?_of_mem hb'
  have e1 := ok.regs.id i b h1
  have e2 := ok.regs.id j b' h2
  have : i = j := by omega
  subst this
  rw [h1] at h2; exact (Option.some.inj h2).symm

theorem pend_set {Γ : HCtx} (ok : Γ.OK) {k α D} {A : Alg D} {σ : Nat → D} {ρ b p} (hb : b ∈ Γ.ais) (hk : k ≤ b.id)
    (hα : α b.id = none) : Pend Γ k (setα α b.id p) D A σ ρ ↔ Pend Γ k α D A σ ρ ∧ σ p = b.node.eval A ρ := by
  constructor
  · intro h
    refine ⟨fun b' hb' hk' q hq => h b' hb' hk' q ?_, h b hb hk p (by simp [setα])⟩
    unfold setα
    split
    · rename_i he; rw [he, hα] at hq; cases hq
    · exact hq
  · rintro ⟨h1, h2⟩ b' hb' hk' q hq
    unfold setα at hq
    split at hq
    · rename_i he
      cases hq
      rw [item_unique ok hb hb' he]; exact h2
    · exact h1 b' hb' hk' q hq

/-- `unify_structure` with a constant (instructions.cpp:77-105). -/
theorem unifyStructure_exec {Γ : HCtx} (ok : Γ.OK) {fuel k c0 n lim ν α seen e cell b}
    (hb : Γ.ais[c0]? = some b) (hna : (atomArgs Γ.atom).length ≤ c0) (hc : CellIs Γ.I cell b.node)
    (hv : ValidCell Γ.st cell) (hch : b.node.children = []) (hk : b.kept (atomArgs Γ.atom).length = false)
    (g : Good (ValidCell Γ.st) (Γ.H e) e.hp.size lim)
    (h : HRegs Γ k c0 ν α seen e) (gr : HGr Γ k c0 ν α e) (rm : Room e (n + 1) lim) (hr : e.state = .running) :
    ∃ e' lim', stepData Γ.pre fuel Γ.st (.unifyStructure cell b.x) e = .ok e' ∧
      KidStep Γ k c0 n lim ν α e b.node seen lim' ν α e' := by
  have hid := ok.regs.id _ _ hb
  have hmem := List.mem_of_getElem? hb
  obtain ⟨hcp, hnv⟩ := cellIs_notPtr hc
  have hr' := h.skipKid ok hmem hid hk
  have gr' : HGr Γ k (c0 + 1) ν α e := gr.skip (Nat.le_refl _) fun b' hb' v hv' hs => by
    left
    have : b'.id ≠ c0 := by
      intro hbb
      rw [item_unique ok hmem hb' (by omega)] at hv'
      rw [hv'] at hnv; simp [Node.isVar] at hnv
    unfold HCtx.Met at *; omega
  simp only [stepData, unifyStructure]
  cases hm : e.mode with
  | read =>
    have rm' := rm
    simp only [Room, hm] at rm'
    obtain ⟨rm1, rm2⟩ := rm'
    subst rm2
    have hkb : kb e = e.s := by simp only [kb, hm]
    obtain ⟨d, cl, d1, d2, d3, d4⟩ := matchCell ok.toOK g (show e.s < e.hp.size by omega) hc hv
    simp only [hm, d1, d2, ok_bind]
    rcases d4 with ⟨c1, hp, c2, c3, c4, c5, c6, _⟩ | ⟨c1, c2, c3, c4, c5⟩ | ⟨c1, c2, c3⟩
    · simp only [c1, if_true, c2, ok_bind]
      have hfix : ∀ a, Fixed Γ.I Γ.N (Γ.H e) a → Fixed Γ.I Γ.N (hp.at? Γ.pre) a := fun a ha =>
        ha.mono fun τ m => (c5 _ _ τ (fun _ => τ 0) m (by rw [hch]; rfl)).1
      refine ⟨{ (e.push cell) with hp := hp, s := e.s + 1 }, e.hp.size + 1, rfl, ?_, ?_, ?_, ?_, by omega, fun _ => hfix, fun _ => gr'.mono hfix, ?_⟩
      · intro _
        rw [hch] at c4
        show Good _ (hp.at? Γ.pre) hp.size _
        rw [c3]; exact c4
      · intro _
        exact hr'.grow rfl rfl (by simp only [c3]; omega)
      · intro _
        have hm' : (e.push cell).mode = .read := hm
        simp only [Room, hm', c3]; exact ⟨by omega, trivial⟩
      · intro _
        have hm' : (e.push cell).mode = .read := hm
        simp only [kb, hm', hm]
      · refine ⟨?_, ?_, .inl hr, by simp only [c3]; omega, rfl⟩
        · intro _ D A σ ρ m f
          obtain ⟨m1, m2⟩ := c5 D A σ ρ m (by rw [hch]; rfl)
          exact ⟨m1, f, by rw [hkb]; exact m2⟩
        · intro D A σ ρ _ m f
          obtain ⟨σ', a1, a2, _⟩ := c6 D A σ ρ m (by rw [← hkb]; exact f.2)
          exact ⟨hr, σ', a1, a2, agree_congr h.νlt a1 f.1.1, f.1.2.congr h a1⟩
    · subst c1
      simp only [c2, Bool.false_eq_true, if_false, if_true, ok_bind]
      refine ⟨{ e with s := e.s + 1 }, e.hp.size, rfl, ?_, ?_, ?_, ?_, Nat.le_refl _, fun _ _ h => h, fun _ => gr'.mono fun _ h => h, ?_⟩
      · intro _; exact g
      · intro _; exact hr'.grow rfl rfl (Nat.le_refl _)
      · intro _; simp only [Room, hm]; exact ⟨by omega, trivial⟩
      · intro _; simp only [kb, hm]
      · refine HStep.same rfl hr rfl ?_
        intro D A σ ρ m
        rw [hkb, c4 D A σ ρ m (by rw [hch]; rfl)]
        simp
    · simp only [c2, Bool.false_eq_true, if_false, c1, ok_bind]
      refine ⟨{ e.setFailed with s := e.s + 1 }, e.hp.size, rfl, ?_, ?_, ?_, ?_, Nat.le_refl _, ?_, ?_, ?_⟩
      · intro hs; cases hs
      · intro hs; cases hs
      · intro hs; cases hs
      · intro hs; cases hs
      · intro hs; cases hs
      · intro hs; cases hs
      · refine ⟨?_, ?_, .inr rfl, Nat.le_refl _, rfl⟩
        · intro hs; cases hs
        · intro D A σ ρ fr m f
          exact (c3 D A σ ρ fr m (by rw [← hkb]; exact f.2)).elim
  | write =>
    have rm' := rm
    simp only [Room, hm] at rm'
    have hsz : (e.push cell).hp.size = e.hp.size + 1 := Hp.size_push _ _
    have hkb : kb e = e.hp.size := by simp only [kb, hm]
    have hm' : (e.push cell).mode = .write := hm
    have h1 : HRegs Γ k (c0 + 1) ν α seen (e.push cell) := hr'.grow rfl rfl (by omega)
    obtain ⟨h2, h3⟩ := h1.constReg ok (cell := .str ((e.push cell).hp.size - 1)) hmem hk hnv
    simp only [h2, ok_bind]
    have hH : Γ.H (e.push cell) = (Γ.H e).upd e.hp.size cell := push_view
    have hfix : ∀ a, Fixed Γ.I Γ.N (Γ.H e) a → Fixed Γ.I Γ.N (Γ.H (e.push cell)) a := fun a ha =>
      ha.mono fun τ m => by rw [hH, mod_push g.none] at m; exact m.1
    refine ⟨_, lim, rfl, ?_, ?_, ?_, ?_, Nat.le_refl _, fun _ => hfix, fun _ => gr'.mono hfix, ?_⟩
    · intro _
      show Good _ (Γ.H (e.push cell)) (e.push cell).hp.size _
      rw [hH, hsz]
      exact g.push (pushable_top hc (by rw [hch]; simp; omega)) hv (Nat.le_refl _) (by omega)
    · intro _; exact h3.grow rfl rfl (Nat.le_refl _)
    · intro _; simp only [Room, hm', hsz]; omega
    · intro _; simp only [kb, hm', hsz, hm]
    · refine ⟨?_, ?_, .inl hr, by simp only [hsz]; omega, rfl⟩
      · intro _ D A σ ρ m f
        have m' : Mod (toIAlg A Γ.I) (Γ.H (e.push cell)) σ := m
        rw [hH, mod_push g.none, cellEq_iff hc] at m'
        refine ⟨m'.1, f, ?_⟩
        have h4 := m'.2
        have h5 := Node.eval_top A ρ hnv
        rw [hch] at h4 h5
        rw [hkb]
        simp only [List.length_nil, argVals, Node.evals] at h4 h5
        exact Option.some.inj (h4.symm.trans h5)
      · intro D A σ ρ _ m f
        refine ⟨hr, σ, fun _ _ => rfl, ?_, f.1⟩
        show Mod _ (Γ.H (e.push cell)) σ
        rw [hH, mod_push g.none, cellEq_iff hc]
        refine ⟨m, ?_⟩
        have h4 := f.2
        have h5 := Node.eval_top A ρ hnv
        rw [hch] at h5 ⊢
        rw [hkb] at h4
        simp only [List.length_nil, argVals, Node.evals] at h5 ⊢
        rw [h5, h4]

theorem reg_eq {e : Exec} {x c} (h : e.regs[x]? = some c) : e.reg x = .ok c := by
  unfold Exec.reg; rw [h]; rfl

/-- One kid of a structure of the head. -/
theorem programKid_exec {Γ : HCtx} (ok : Γ.OK) {fuel k c0 n lim ν α e g i g' c x b} (hN : Γ.N ≤ fuel)
    (hp : programKid Γ.yOf c x g = .ok (i, g')) (hst : StLe g'.st Γ.st)
    (hb : Γ.ais[c0]? = some b) (hbn : b.node = c) (hbx : b.x = x) (hna : (atomArgs Γ.atom).length ≤ c0)
    (hk0 : k ≤ c0)
    (gd : Good (ValidCell Γ.st) (Γ.H e) e.hp.size lim)
    (h : HRegs Γ k c0 ν α g.seen e) (gr : HGr Γ k c0 ν α e) (hin : Γ.inp c0 = true → Fixed Γ.I Γ.N (Γ.H e) (kb e)) (rm : Room e (n + 1) lim) (hr : e.state = .running) :
    (∃ e' lim' ν' α', stepData Γ.pre fuel Γ.st i e = .ok e' ∧
      KidStep Γ k c0 n lim ν α e c g'.seen lim' ν' α' e') ∨
    (stepData Γ.pre fuel Γ.st i e = .error .hang ∧ Γ.Twice) := by
  have hid := ok.regs.id _ _ hb
  have hmem := List.mem_of_getElem? hb
  have hw := ok.wf b hmem
  have hnk : ∀ {f : Bool}, (b.node.isFn = false ∧ b.node.isEfn = false) → b.kept (atomArgs Γ.atom).length = false := by
    rintro - ⟨h1, h2⟩
    unfold AItem.kept
    rw [h1, h2]
    simp only [Bool.or_false, decide_eq_false_iff_not]
    omega
  have konst : ∀ {cell g1}, structCell b.node g = .ok (cell, g1) → StLe g1.st Γ.st → b.node.children = [] →
      b.kept (atomArgs Γ.atom).length = false → g1.seen = g.seen →
      ∃ e' lim' ν' α', stepData Γ.pre fuel Γ.st (.unifyStructure cell b.x) e = .ok e' ∧
        KidStep Γ k c0 n lim ν α e b.node g1.seen lim' ν' α' e' := by
    intro cell g1 hc hs hch hk hseen
    obtain ⟨_, s2⟩ := structCell_spec hc hw
    obtain ⟨s3, s4⟩ := s2 hs ok.interp
    obtain ⟨e', lim', h1, h2⟩ := unifyStructure_exec ok (fuel := fuel) hb hna s3 s4 hch hk gd h gr rm hr
    exact ⟨e', lim', ν, α, h1, by rw [hseen]; exact h2⟩
  -- a structure: first and only occurrence
  have struct : ∀ {v : Int} {g1 : GenSt}, b.kept (atomArgs Γ.atom).length = true → (∀ a, ValidCell Γ.st (.ref a v)) →
      g1.seen = .x b.x :: g.seen →
      ∃ e' lim' ν' α', stepData Γ.pre fuel Γ.st (.unifyVariable b.x v) e = .ok e' ∧
        KidStep Γ k c0 n lim ν α e b.node g1.seen lim' ν' α' e' := by
    intro v g1 hk hval hseen
    obtain ⟨p1, p2, p3, p4, p5, p6, p7, p8, p9, p10⟩ := kidPlace_spec gd rm hval
    have h1 := h.grow p7 p8 p6
    obtain ⟨q1, q2⟩ := h1.newItem ok hmem hid hna hk p4 p5
    rw [unifyVariable_eq, q1, ok_bind]
    have hα : α b.id = none := by
      have := h.act b hmem (by omega) hk
      cases hh : α b.id with
      | none => rfl
      | some p => rw [hh] at this; simp at this; omega
    have hfix : ∀ a, Fixed Γ.I Γ.N (Γ.H e) a → Fixed Γ.I Γ.N (Γ.H (kidPlace e v).1) a := fun a ha =>
      ha.mono fun τ m => (p10 _ _ τ).1 m
    refine ⟨_, lim, ν, setα α c0 (kb e), rfl, fun _ => p1, fun _ => ?_, fun _ => p2, fun _ => p3, Nat.le_refl _, fun _ => hfix,
      fun _ => (gr.newItem hin ?_).mono hfix, ?_⟩
    · rw [hseen]; exact q2.grow rfl rfl (Nat.le_refl _)
    · intro b' hb' hbb
      rw [item_unique ok hmem hb' (by omega)]
      exact kept_nonvar hk (by omega)
    · refine HStep.of_iff p10 (by simp only [p9]; exact hr) p6 (by simp only [p8]) ?_
      intro D A σ ρ _
      rw [← hid, pend_set ok hmem (by omega) hα]
      constructor
      · rintro ⟨⟨a, b⟩, c⟩; exact ⟨a, b, c⟩
      · rintro ⟨a, b, c⟩; exact ⟨⟨a, b⟩, c⟩
  subst hbn; subst hbx
  cases hn : b.node with
  | int v =>
    rw [hn] at hp
    simp only [programKid, bind_ok, pure_ok] at hp
    obtain ⟨⟨cell, g1⟩, h1, h2⟩ := hp
    cases h2
    rw [← hn] at h1 ⊢
    exact .inl (konst h1 hst (by rw [hn]; rfl) (hnk (f := true) (by rw [hn]; exact ⟨rfl, rfl⟩)) (structCell_ok h1))
  | cons v =>
    rw [hn] at hp
    simp only [programKid, bind_ok, pure_ok] at hp
    obtain ⟨⟨cell, g1⟩, h1, h2⟩ := hp
    cases h2
    rw [← hn] at h1 ⊢
    exact .inl (konst h1 hst (by rw [hn]; rfl) (hnk (f := true) (by rw [hn]; exact ⟨rfl, rfl⟩)) (structCell_ok h1))
  | fn f cs =>
    rw [hn] at hp
    have hk : b.kept (atomArgs Γ.atom).length = true := by simp [AItem.kept, hn, Node.isFn]
    have hf := h.fresh b hmem (by rw [hn]; rfl) (by omega) (by omega)
    have hf' : g.has (.x b.x) = false := by simpa [GenSt.has] using hf
    simp only [programKid, hf', Bool.false_eq_true, if_false, pure_ok] at hp
    cases hp
    have := struct (g1 := ⟨SReg.x b.x :: g.seen, g.st⟩) hk (pushBackVar_valid (Prod.eta _).symm hst) rfl
    rw [hn] at this
    exact .inl this
  | efn f cs =>
    rw [hn] at hp
    have hk : b.kept (atomArgs Γ.atom).length = true := by simp [AItem.kept, hn, Node.isEfn]
    have hf := h.fresh b hmem (by rw [hn]; rfl) (by omega) (by omega)
    have hf' : g.has (.x b.x) = false := by simpa [GenSt.has] using hf
    simp only [programKid, hf', Bool.false_eq_true, if_false, pure_ok] at hp
    cases hp
    have := struct (g1 := ⟨SReg.x b.x :: g.seen, g.st⟩) hk (pushBackVar_valid (Prod.eta _).symm hst) rfl
    rw [hn] at this
    exact .inl this
  | var v =>
    rw [hn] at hp
    have hk := hnk (f := true) (by rw [hn]; exact ⟨rfl, rfl⟩)
    have hx := ok.regs.var b hmem v hn
    have hvx := h.vx v b.x hx
    by_cases hs : g.has (.x b.x) = true
    · have hs' : SReg.x b.x ∈ g.seen := by simpa [GenSt.has] using hs
      obtain ⟨a, ha⟩ := Option.isSome_iff_exists.1 (hvx.1 hs')
      have hlt := h.νlt v a ha
      -- the value of the register
      have val : ∀ {r}, PtrTo Γ.toQCtx r a →
          (∃ e' lim' ν' α', unifyVal Γ.pre fuel r e = .ok e' ∧
            KidStep Γ k c0 n lim ν α e (.var v) g.seen lim' ν' α' e') ∨ (unifyVal Γ.pre fuel r e = .error .hang ∧ Γ.Twice) := by
        intro r hpr
        rcases unifyVal_exec ok.toOK (fuel := fuel) gd rm hr hpr hlt with ⟨e', u1, u2, u3, u4, u5, u6, u7, u8⟩ | u
        · left
          have heq : e'.state = .running → ∀ τ : Nat → ITree, Mod (toIAlg itreeAlg Γ.I) (Γ.H e') τ →
              Mod (toIAlg itreeAlg Γ.I) (Γ.H e) τ ∧ τ (kb e) = τ a := fun hr' τ m =>
            (u8 (fun D A σ ρ => σ (kb e) = σ a) (fun _ _ _ _ => True) (fun D A σ ρ _ => by simp) lim).sound hr' _ itreeAlg τ
              (fun _ => τ 0) m trivial
          have hfix : e'.state = .running → ∀ a, Fixed Γ.I Γ.N (Γ.H e) a → Fixed Γ.I Γ.N (Γ.H e') a := fun hr' a ha =>
            ha.mono fun τ m => (heq hr' τ m).1
          refine ⟨e', lim, ν, α, u1, fun _ => u5, fun _ => (h.skipKid ok hmem hid hk).grow u3 u4 u2, fun _ => u6,
            fun _ => u7, Nat.le_refl _, hfix, fun hr' => (gr.mono (hfix hr')).skip (Nat.le_refl _) ?_, ?_⟩
          · intro b' hb' w hbw hs
            by_cases hbb : b'.id = c0
            · right
              obtain rfl := item_unique ok hmem hb' (by omega)
              obtain rfl : w = v := Node.var.inj (hbw.symm.trans hn)
              exact ⟨a, ha, fun hi => (hfix hr' _ (hin (hbb ▸ hi))).eq fun τ m => (heq hr' τ m).2⟩
            · left; unfold HCtx.Met at *; omega
          refine u8 _ _ ?_ lim
          intro D A σ ρ m
          rw [Node.eval]
          constructor
          · rintro ⟨f1, f2⟩; exact ⟨by rw [f2, f1.1 v a ha], f1⟩
          · rintro ⟨f1, f2⟩; exact ⟨f2, by rw [f1, f2.1 v a ha]⟩
        · obtain ⟨b', o1, o2, o3⟩ := h.occ v (by rw [ha]; rfl)
          refine .inr ⟨u.1, v, b', o1, b, hmem, by omega, o2, hn, ?_, ?_⟩
          · by_contra hi
            rw [Bool.not_eq_false] at hi
            obtain ⟨a', h1, h2⟩ := gr.met b' o1 v o2 o3
            rw [ha] at h1; cases h1
            exact u.2 Γ.N hN (.inr (h2 hi))
          · by_contra hi
            rw [Bool.not_eq_false, hid] at hi
            exact u.2 Γ.N hN (.inl (hin hi))
      simp only [programKid, hs, if_true] at hp
      cases hy : Γ.yOf v with
      | some y =>
        simp only [hy, pure_ok] at hp
        cases hp
        obtain ⟨cell, c1, c2⟩ := h.y v y a hy ha
        simp only [stepData, c1, ok_bind]
        exact val c2
      | none =>
        simp only [hy, pure_ok] at hp
        cases hp
        obtain ⟨cell, c1, c2⟩ := h.x v b.x a hy hx ha
        simp only [stepData, reg_eq c1, ok_bind]
        exact val c2
    · have hs1 : g.has (.x b.x) = false := by simpa using hs
      have hs' : SReg.x b.x ∉ g.seen := by simpa [GenSt.has] using hs1
      have hνn : ν v = none := by
        cases hh : ν v with
        | none => rfl
        | some a => exact absurd (hvx.2 (by rw [hh]; rfl)) hs'
      simp only [programKid, hs1, Bool.false_eq_true, if_false] at hp
      have sem : ∀ D (A : Alg D) (σ : Nat → D) ρ, ((Agree ν σ ρ ∧ Pend Γ k α D A σ ρ) ∧ σ (kb e) = (Node.var v).eval A ρ) ↔
          (Agree (ν.set v (kb e)) σ ρ ∧ Pend Γ k α D A σ ρ) := by
        intro D A σ ρ
        rw [agree_set hνn, Node.eval]
        constructor
        · rintro ⟨⟨a, b⟩, c⟩; exact ⟨⟨a, c⟩, b⟩
        · rintro ⟨⟨a, c⟩, b⟩; exact ⟨⟨a, b⟩, c⟩
      have grv : ∀ e' : Exec, (∀ a, Fixed Γ.I Γ.N (Γ.H e) a → Fixed Γ.I Γ.N (Γ.H e') a) →
          HGr Γ k (c0 + 1) (ν.set v (kb e)) α e' := fun e' hfix => (gr.newVar hνn (Nat.le_refl _) fun b' hb' w hbw hs => by
        by_cases hbb : b'.id = c0
        · right
          obtain rfl := item_unique ok hmem hb' (by omega)
          obtain rfl : w = v := Node.var.inj (hbw.symm.trans hn)
          exact ⟨rfl, fun hi => hin (hbb ▸ hi)⟩
        · left; unfold HCtx.Met at *; omega).mono hfix
      cases hy : Γ.yOf v with
      | some y =>
        simp only [hy, pure_ok] at hp
        cases hp
        have hval : ∀ a, ValidCell Γ.st (.ref a ((g.mark (SReg.x b.x)).st.pushBackVar v).1) :=
          pushBackVar_valid (Prod.eta _).symm hst
        obtain ⟨p1, p2, p3, p4, p5, p6, p7, p8, p9, p10⟩ := kidPlace_spec gd rm hval
        have h1 := (h.skipKid ok hmem hid hk).grow p7 p8 p6
        obtain ⟨e1, q1, q2, q3, q4, q5, q6, q7, q8⟩ := h1.newVarY ok hνn hx hy p4 p5 ⟨b, hmem, hn, by omega⟩
        left
        rw [unifyPermVariable_eq]
        simp only [Node.name] at q1 ⊢
        rw [q1, ok_bind]
        have hmod : ∀ (D : Type) (A : Alg D) σ, Mod (toIAlg A Γ.I) (Γ.H { e1 with s := e1.s + 1 }) σ ↔ Mod (toIAlg A Γ.I) (Γ.H e) σ := by
          intro D A σ
          have : Γ.H { e1 with s := e1.s + 1 } = e1.hp.at? Γ.pre := rfl
          rw [this, q3]; exact p10 D A σ
        have hfix : ∀ a, Fixed Γ.I Γ.N (Γ.H e) a → Fixed Γ.I Γ.N (Γ.H { e1 with s := e1.s + 1 }) a := fun a ha =>
          ha.mono fun τ m => (hmod _ _ τ).1 m
        refine ⟨_, lim, _, α, rfl, fun _ => ?_, fun _ => q2.grow rfl rfl (Nat.le_refl _), fun _ => ?_, fun _ => ?_,
          Nat.le_refl _, fun _ => hfix, fun _ => grv _ hfix, ?_⟩
        · show Good _ (e1.hp.at? Γ.pre) e1.hp.size _
          rw [q3]; exact p1
        · simp only [Room, q7, q8, q3] at p2 ⊢; exact p2
        · simp only [kb, q7, q8, q3] at p3 ⊢; exact p3
        · exact HStep.of_iff hmod (by simp only [q5, p9]; exact hr) (by simp only [q3]; exact p6)
            (by simp only [q6, p8]) fun D A σ ρ _ => sem D A σ ρ
      | none =>
        simp only [hy, pure_ok] at hp
        cases hp
        have hval : ∀ a, ValidCell Γ.st (.ref a ((g.mark (SReg.x b.x)).st.pushBackVar v).1) :=
          pushBackVar_valid (Prod.eta _).symm hst
        obtain ⟨p1, p2, p3, p4, p5, p6, p7, p8, p9, p10⟩ := kidPlace_spec gd rm hval
        have h1 := (h.skipKid ok hmem hid hk).grow p7 p8 p6
        obtain ⟨q1, q2⟩ := h1.newVarX ok hνn hx hy p4 p5 ⟨b, hmem, hn, by omega⟩
        left
        rw [unifyVariable_eq]
        simp only [Node.name] at q1 q2 ⊢
        rw [q1, ok_bind]
        have hfix : ∀ a, Fixed Γ.I Γ.N (Γ.H e) a →
            Fixed Γ.I Γ.N (Γ.H (kidPlace e ((g.mark (SReg.x b.x)).st.pushBackVar v).1).1) a := fun a ha =>
          ha.mono fun τ m => (p10 _ _ τ).1 m
        refine ⟨_, lim, _, α, rfl, fun _ => p1, fun _ => q2.grow rfl rfl (Nat.le_refl _), fun _ => p2, fun _ => p3,
          Nat.le_refl _, fun _ => hfix, fun _ => grv _ hfix, ?_⟩
        exact HStep.of_iff p10 (by simp only [p9]; exact hr) p6 (by simp only [p8]) fun D A σ ρ _ => sem D A σ ρ

/-- What all kids of a structure do. -/
structure KidsStep (Γ : HCtx) (k c0 lim : Nat) (ν : VMap) (α : Nat → Option Nat) (e : Exec) (ks : List (Node × Nat))
    (seen' : List SReg) (lim' : Nat) (ν' : VMap) (α' : Nat → Option Nat) (e' : Exec) : Prop where
  good : e'.state = .running → Good (ValidCell Γ.st) (Γ.H e') e'.hp.size e'.hp.size
  regs : e'.state = .running → HRegs Γ k (c0 + ks.length) ν' α' seen' e'
  le : lim ≤ lim'
  gr : e'.state = .running → HGr Γ k (c0 + ks.length) ν' α' e'
  step : HStep Γ.toQCtx lim (fun D A σ ρ => (Agree ν σ ρ ∧ Pend Γ k α D A σ ρ) ∧
      argVals σ (kb e) ks.length = Node.evals A ρ (ks.map (·.1))) e
    (fun D A σ ρ => Agree ν' σ ρ ∧ Pend Γ k α' D A σ ρ) e'

theorem programKids_exec {Γ : HCtx} (ok : Γ.OK) {fuel k} (hN : Γ.N ≤ fuel) : ∀ {ks : List (Node × Nat)} {c0 lim ν α e g is g'},
    programKids Γ.yOf ks g = .ok (is, g') → StLe g'.st Γ.st →
    (∀ (m : Nat) (c : Node) (x : Nat), ks[m]? = some (c, x) → ∃ b : AItem, Γ.ais[c0 + m]? = some b ∧ b.node = c ∧ b.x = x) →
    (atomArgs Γ.atom).length ≤ c0 → k ≤ c0 →
    Good (ValidCell Γ.st) (Γ.H e) e.hp.size lim →
    HRegs Γ k c0 ν α g.seen e → HGr Γ k c0 ν α e →
    (∀ j, j < ks.length → Γ.inp (c0 + j) = true → Fixed Γ.I Γ.N (Γ.H e) (kb e + j)) → Room e ks.length lim → e.state = .running →
    (∃ e' lim' ν' α', runData Γ.pre fuel Γ.st is e = .ok e' ∧
      KidsStep Γ k c0 lim ν α e ks g'.seen lim' ν' α' e') ∨
    (runData Γ.pre fuel Γ.st is e = .error .hang ∧ Γ.Twice) := by
  intro ks
  induction ks with
  | nil =>
    intro c0 lim ν α e g is g' hp hst hks hna hk0 gd h gr hin rm hr
    cases hp
    refine .inl ⟨e, lim, ν, α, rfl, fun _ => ?_, fun _ => h, Nat.le_refl _, fun _ => gr, ?_⟩
    · unfold Room at rm
      split at rm
      · rw [rm.2] at gd; exact gd
      · simp at rm; rw [rm] at gd; exact gd
    · exact HStep.same rfl hr rfl fun D A σ ρ _ => by simp [argVals, Node.evals]
  | cons cx ks ih =>
    obtain ⟨c, x⟩ := cx
    intro c0 lim ν α e g is g' hp hst hks hna hk0 gd h gr hin rm hr
    simp only [programKids, bind_ok, pure_ok] at hp
    obtain ⟨⟨i, g1⟩, h1, ⟨is', g2⟩, h2, h3⟩ := hp
    cases h3
    obtain ⟨b, b1, b2, b3⟩ := hks 0 c x rfl
    have hwks : ∀ k ∈ ks, k.1.wf = true := by
      intro kk hkk
      obtain ⟨m, hm⟩ := List.getElem?_of_mem hkk
      obtain ⟨b', c1, c2, _⟩ := hks (m + 1) kk.1 kk.2 (by simpa using hm)
      rw [← c2]; exact ok.wf b' (List.mem_of_getElem? c1)
    have hst1 := (programKids_le h2 hwks).trans hst
    simp only [runData]
    rcases programKid_exec ok (fuel := fuel) (n := ks.length) hN h1 hst1 b1 b2 b3 hna hk0 gd h gr (fun hi => hin 0 (by simp) hi) rm hr with
      ⟨e1, lim1, ν1, α1, s1, K⟩ | s1
    · simp only [s1, ok_bind]
      have hbase : kb e + 1 + ks.length ≤ lim := by
        unfold Room at rm
        unfold kb
        cases hm : e.mode <;> simp only [hm, List.length_cons] at rm ⊢ <;> omega
      -- the first kid, keeping the obligations of the others
      have K1 := K.step.frame (Ψ := fun D A σ ρ =>
          argVals σ (kb e + 1) ks.length = Node.evals A ρ (ks.map (·.1))) (by
        intro D A σ τ ρ hστ hΨ
        rw [← hΨ]
        exact argVals_congr fun i hi => hστ _ (by omega))
      have K2 : HStep Γ.toQCtx lim (fun D A σ ρ => (Agree ν σ ρ ∧ Pend Γ k α D A σ ρ) ∧
          argVals σ (kb e) (ks.length + 1) = Node.evals A ρ (c :: ks.map (·.1))) e
          (fun D A σ ρ => (Agree ν1 σ ρ ∧ Pend Γ k α1 D A σ ρ) ∧
            argVals σ (kb e + 1) ks.length = Node.evals A ρ (ks.map (·.1))) e1 := by
        refine K1.congr ?_ fun _ _ _ _ => Iff.rfl
        intro D A σ ρ
        simp only [argVals, Node.evals, List.cons.injEq]
        constructor
        · rintro ⟨⟨a, b⟩, c⟩; exact ⟨a, b, c⟩
        · rintro ⟨a, b, c⟩; exact ⟨⟨a, b⟩, c⟩
      rcases K.step.state with hr1 | hf1
      · have hnf : e1.failed = false := by simp [Exec.failed, hr1]
        simp only [hnf, Bool.false_eq_true, if_false]
        rcases ih h2 hst (fun m c' x' hm => by
            obtain ⟨b', d1, d2⟩ := hks (m + 1) c' x' (by simpa using hm)
            exact ⟨b', by rw [show c0 + 1 + m = c0 + (m + 1) by omega]; exact d1, d2⟩)
          (by omega) (by omega) (K.good hr1) (K.regs hr1) (K.gr hr1) (fun j hj hi => by
            have := K.fix hr1 _ (hin (j + 1) (by simp; omega) (by rw [show c0 + (j + 1) = c0 + 1 + j by omega]; exact hi))
            rw [K.kb hr1, show kb e + 1 + j = kb e + (j + 1) by omega]; exact this) (K.room hr1) hr1 with ⟨e2, lim2, ν2, α2, t1, L⟩ | t1
        · left
          refine ⟨e2, lim2, ν2, α2, t1, L.good, ?_, by have := K.le; have := L.le; omega, fun hr2 => ?_, ?_⟩
          · intro hr2
            have := L.regs hr2
            rw [show c0 + 1 + ks.length = c0 + (ks.length + 1) by omega] at this
            exact this
          · have := L.gr hr2
            rw [show c0 + 1 + ks.length = c0 + (ks.length + 1) by omega] at this
            exact this
          · have L' := L.step
            rw [K.kb hr1] at L'
            exact K2.trans L' K.le hr1
        · exact .inr t1
      · have hnf : e1.failed = true := by simp [Exec.failed, hf1]
        simp only [hnf, if_true]
        have hnr : e1.state ≠ .running := by rw [hf1]; decide
        left
        exact ⟨e1, lim1, ν1, α1, rfl, fun h => (hnr h).elim, fun h => (hnr h).elim, K.le, fun h => (hnr h).elim, K2.failed hnr⟩
    · exact .inr ⟨by simp only [s1.1, error_bind], s1.2⟩

/-- What one node of the flattened head does. -/
structure ItemStep (Γ : HCtx) (k c0' : Nat) (ν : VMap) (α : Nat → Option Nat) (e : Exec)
    (seen' : List SReg) (ν' : VMap) (α' : Nat → Option Nat) (e' : Exec) : Prop where
  good : e'.state = .running → Good (ValidCell Γ.st) (Γ.H e') e'.hp.size e'.hp.size
  regs : e'.state = .running → HRegs Γ (k + 1) c0' ν' α' seen' e'
  gr : e'.state = .running → HGr Γ (k + 1) c0' ν' α' e'
  step : HStep Γ.toQCtx e.hp.size (fun D A σ ρ => Agree ν σ ρ ∧ Pend Γ k α D A σ ρ) e
    (fun D A σ ρ => Agree ν' σ ρ ∧ Pend Γ (k + 1) α' D A σ ρ) e'

theorem pend_split {Γ : HCtx} (ok : Γ.OK) {k α D} {A : Alg D} {σ : Nat → D} {ρ a p} (ha : Γ.ais[k]? = some a)
    (hp : α k = some p) : Pend Γ k α D A σ ρ ↔ Pend Γ (k + 1) α D A σ ρ ∧ σ p = a.node.eval A ρ := by
  have hid := ok.regs.id k a ha
  have hm := List.mem_of_getElem? ha
  constructor
  · intro h
    exact ⟨fun b hb hk => h b hb (by omega), h a hm (by omega) p (by rw [hid]; exact hp)⟩
  · rintro ⟨h1, h2⟩ b hb hk q hq
    by_cases hbk : b.id = k
    · rw [item_unique ok hm hb (by omega)]
      rw [hbk, hp] at hq; cases hq
      exact h2
    · exact h1 b hb (by omega) q hq

theorem pend_none {Γ : HCtx} {k α D} {A : Alg D} {σ : Nat → D} {ρ}
    (hp : α k = none) : Pend Γ k α D A σ ρ ↔ Pend Γ (k + 1) α D A σ ρ := by
  constructor
  · intro h b hb hk
    exact h b hb (by omega)
  · intro h b hb hk q hq
    by_cases hbk : b.id = k
    · rw [hbk, hp] at hq; cases hq
    · exact h b hb (by omega) q hq

theorem programItem_exec {Γ : HCtx} (ok : Γ.OK) {cst} (T : KidTree (atomArgs Γ.atom).length Γ.ais cst)
    (hC : ∀ (k : Nat) (a : AItem), Γ.ais[k]? = some a → ∀ m, m < a.kids.length → Γ.inp (cst k + m) = Γ.inp k)
    {fuel k ν α e g is g' a} (hN : Γ.N ≤ fuel) (hp : programItem Γ.yOf a g = .ok (is, g')) (hst : StLe g'.st Γ.st)
    (ha : Γ.ais[k]? = some a) (hkept : a.kept (atomArgs Γ.atom).length = true)
    (gd : Good (ValidCell Γ.st) (Γ.H e) e.hp.size e.hp.size)
    (h : HRegs Γ k (cst k) ν α g.seen e) (gr : HGr Γ k (cst k) ν α e) (hr : e.state = .running) :
    (∃ e' ν' α', runData Γ.pre fuel Γ.st is e = .ok e' ∧
      ItemStep Γ k (cst (k + 1)) ν α e g'.seen ν' α' e') ∨
    (runData Γ.pre fuel Γ.st is e = .error .hang ∧ Γ.Twice) := by
  have hid := ok.regs.id _ _ ha
  have hmem := List.mem_of_getElem? ha
  have hw := ok.wf a hmem
  have hgt := T.gt k a ha
  obtain ⟨p, hα⟩ := Option.isSome_iff_exists.1 ((h.act a hmem (by omega) hkept).2 (by omega))
  obtain ⟨hplt, cell, hreg, hptr⟩ := h.item a hmem (by omega) p hα
  have hpin : Γ.inp k = true → Fixed Γ.I Γ.N (Γ.H e) p := fun hi => gr.item a hmem (by omega) p hα (by rw [hid]; exact hi)
  rw [hid] at hα
  have haddr : cell.addr = .ok p := by simp [Cell.addr, hptr.1]
  have single : ∀ {i e'}, stepData Γ.pre fuel Γ.st i e = .ok e' → runData Γ.pre fuel Γ.st [i] e = .ok e' := by
    intro i e' h
    simp only [runData, h, ok_bind]
    split <;> rfl
  have hcstart : (atomArgs Γ.atom).length ≤ cst k := by
    have : ∀ j, j ≤ k → (atomArgs Γ.atom).length ≤ cst j := by
      intro j
      induction j with
      | zero => intro _; rw [T.zero]
      | succ j ih =>
        intro hj
        have hlt : j < Γ.ais.length := by have := (List.getElem?_eq_some_iff.1 ha).1; omega
        rw [T.succ j _ (List.getElem?_eq_getElem hlt)]
        have := ih (by omega)
        omega
    exact this k (Nat.le_refl _)
  -- variables
  have var : ∀ {v}, a.node = .var v → a.id < (atomArgs Γ.atom).length ∧ e.regs[a.id]? = some cell ∧
      cst (k + 1) = cst k ∧ Γ.xOf v = some a.x := by
    intro v hv
    have hlt : a.id < (atomArgs Γ.atom).length := by
      unfold AItem.kept at hkept
      rw [hv] at hkept
      simpa [Node.isFn, Node.isEfn] using hkept
    refine ⟨hlt, ?_, ?_, ok.regs.var a hmem v hv⟩
    · unfold AItem.reg at hreg; rw [if_pos hlt] at hreg; exact hreg
    · rw [T.succ k a ha]
      have := congrArg List.length (ok.regs.kids a hmem)
      rw [hv] at this
      simp [Node.children] at this
      rw [this]; rfl
  -- structures and constants
  have struct : ∀ {cl g1 is1}, structCell a.node g = .ok (cl, g1) → programKids Γ.yOf a.kids g1 = .ok (is1, g') →
      a.node.isVar = false →
      (∃ e' ν' α', runData Γ.pre fuel Γ.st (.getStructure cl a.x :: is1) e = .ok e' ∧
        ItemStep Γ k (cst (k + 1)) ν α e g'.seen ν' α' e') ∨
      (runData Γ.pre fuel Γ.st (.getStructure cl a.x :: is1) e = .error .hang ∧ Γ.Twice) := by
    intro cl g1 is1 hc hks hnv
    have hkw : ∀ kk ∈ a.kids, kk.1.wf = true := by
      intro kk hkk
      refine Node.wf_child hw ?_
      rw [← ok.regs.kids a hmem]
      exact List.mem_map_of_mem hkk
    obtain ⟨_, s2⟩ := structCell_spec hc hw
    obtain ⟨s3, s4⟩ := s2 ((programKids_le hks hkw).trans hst) ok.interp
    have hseen : g1.seen = g.seen := structCell_ok hc
    have hx : e.reg a.x = .ok cell := by
      refine reg_eq ?_
      unfold AItem.reg at hreg
      split at hreg
      · rw [ok.regs.arg a hmem hnv (by assumption)]; exact hreg
      · exact hreg
    have hkl : a.kids.length = a.node.children.length := by rw [← ok.regs.kids a hmem, List.length_map]
    obtain ⟨d, cl', d1, d2, d3, d4⟩ := matchCell ok.toOK gd hplt s3 s4
    -- after the first instruction
    have gr0 : HGr Γ (k + 1) (cst k) ν α e := gr.skip (Nat.le_succ _) fun b hb v hv hs => by
      left
      have : b.id ≠ k := by
        intro hbb
        rw [item_unique ok hmem hb (by omega)] at hv
        rw [hv] at hnv; simp [Node.isVar] at hnv
      unfold HCtx.Met at *; omega
    have rest : ∀ (e1 : Exec) (lim : Nat), stepData Γ.pre fuel Γ.st (.getStructure cl a.x) e = .ok e1 →
        e1.state = .running → e1.regs = e.regs → e1.envs = e.envs → e.hp.size ≤ e1.hp.size → e.hp.size ≤ lim →
        Good (ValidCell Γ.st) (Γ.H e1) e1.hp.size lim → Room e1 a.kids.length lim → HGr Γ (k + 1) (cst k) ν α e1 →
        (∀ j, j < a.kids.length → Γ.inp (cst k + j) = true → Fixed Γ.I Γ.N (Γ.H e1) (kb e1 + j)) →
        HStep Γ.toQCtx e.hp.size (fun D A σ ρ => Agree ν σ ρ ∧ Pend Γ k α D A σ ρ) e
          (fun D A σ ρ => (Agree ν σ ρ ∧ Pend Γ (k + 1) α D A σ ρ) ∧
            argVals σ (kb e1) a.kids.length = Node.evals A ρ (a.kids.map (·.1))) e1 →
        (∃ e' ν' α', runData Γ.pre fuel Γ.st (.getStructure cl a.x :: is1) e = .ok e' ∧
          ItemStep Γ k (cst (k + 1)) ν α e g'.seen ν' α' e') ∨
        (runData Γ.pre fuel Γ.st (.getStructure cl a.x :: is1) e = .error .hang ∧ Γ.Twice) := by
      intro e1 lim f1 f2 f3 f4 f5 f6 f7 f8 fg fi f9
      have hnf : e1.failed = false := by simp [Exec.failed, f2]
      simp only [runData, f1, ok_bind, hnf, Bool.false_eq_true, if_false]
      have h1 : HRegs Γ (k + 1) (cst k) ν α g1.seen e1 := by
        rw [hseen]; exact h.advance.grow f3 f4 f5
      rcases programKids_exec ok (fuel := fuel) (k := k + 1) hN hks hst (fun m c x hm => T.kid k a ha m c x hm)
        hcstart (by omega) f7 h1 fg fi f8 f2 with ⟨e2, lim2, ν2, α2, t1, L⟩ | t1
      · left
        refine ⟨e2, ν2, α2, t1, L.good, ?_, ?_, f9.trans L.step f6 f2⟩
        · rw [T.succ k a ha]; exact L.regs
        · rw [T.succ k a ha]; exact L.gr
      · exact .inr t1
    have hgs : stepData Γ.pre fuel Γ.st (.getStructure cl a.x) e = getStructure Γ.pre cl a.x e := rfl
    rw [getStructure, hx, ok_bind, haddr, ok_bind, d1, ok_bind, d2, ok_bind] at hgs
    rcases d4 with ⟨c1, hpn, c2, c3, c4, c5, c6, c7⟩ | ⟨c1, c2, c3, c4, c5⟩ | ⟨c1, c2, c3⟩
    · simp only [c1, if_true, c2, ok_bind] at hgs
      have hfix : ∀ a, Fixed Γ.I Γ.N (Γ.H e) a → Fixed Γ.I Γ.N (hpn.at? Γ.pre) a := fun a ha => ha.mono fun τ m => c7 _ _ τ m
      refine rest { (e.push cl) with hp := hpn, mode := .write } (e.hp.size + 1 + a.node.children.length) hgs hr
        rfl rfl (by simp only [c3]; omega) (by omega) (by
          show Good _ (hpn.at? Γ.pre) hpn.size _
          rw [c3]; exact c4) (by simp only [Room, c3, hkl]) (gr0.mono hfix) (fun j hj hi => ?_) ?_
      · have := (hpin (by rw [← hC k a ha j hj]; exact hi)).closed gd d3.1 d3.2
        rw [c1] at this; cases this
      have hkb : kb { (e.push cl) with hp := hpn, mode := .write } = e.hp.size + 1 := by simp only [kb, c3]
      rw [hkb, hkl, ok.regs.kids a hmem]
      refine ⟨?_, ?_, .inl hr, by simp only [c3]; omega, rfl⟩
      · intro _ D A σ ρ m f
        obtain ⟨m1, m2⟩ := c5 D A σ ρ m f.2
        exact ⟨m1, f.1.1, (pend_split ok ha hα).2 ⟨f.1.2, m2⟩⟩
      · intro D A σ ρ _ m f
        obtain ⟨f1, f2⟩ := (pend_split ok ha hα).1 f.2
        obtain ⟨σ', a1, a2, a3⟩ := c6 D A σ ρ m f2
        exact ⟨hr, σ', a1, a2, ⟨agree_congr h.νlt a1 f.1, f1.congr h.advance a1⟩, a3⟩
    · subst c1
      simp only [c2, Bool.false_eq_true, if_false, if_true] at hgs
      refine rest { e with s := d + 1, mode := .read } e.hp.size hgs hr rfl rfl (Nat.le_refl _) (Nat.le_refl _) gd
        (by simp only [Room, hkl]; exact ⟨by omega, trivial⟩) (gr0.mono fun _ h => h) (fun j hj hi => ?_) ?_
      · exact (hpin (by rw [← hC k a ha j hj]; exact hi)).kids gd d3.1 d3.2 (by rw [cellIs_args s3]; omega)
      have hkb : kb { e with s := d + 1, mode := .read } = d + 1 := rfl
      rw [hkb, hkl, ok.regs.kids a hmem]
      refine ⟨?_, ?_, .inl hr, Nat.le_refl _, rfl⟩
      · intro _ D A σ ρ m f
        exact ⟨m, f.1.1, (pend_split ok ha hα).2 ⟨f.1.2, c4 D A σ ρ m f.2⟩⟩
      · intro D A σ ρ fr m f
        obtain ⟨f1, f2⟩ := (pend_split ok ha hα).1 f.2
        exact ⟨hr, σ, fun _ _ => rfl, m, ⟨f.1, f1⟩, c5 D A σ ρ fr m f2⟩
    · simp only [c2, Bool.false_eq_true, if_false, c1] at hgs
      left
      refine ⟨e.setFailed, ν, α, ?_, ⟨fun hh => absurd hh (by simp [Exec.setFailed]), fun hh => absurd hh (by simp [Exec.setFailed]), fun hh => absurd hh (by simp [Exec.setFailed]), ⟨fun hh => absurd hh (by simp [Exec.setFailed]), ?_, .inr rfl, Nat.le_refl _, rfl⟩⟩⟩
      · simp only [runData, hgs]; rfl
      · intro D A σ ρ fr m f
        exact (c3 D A σ ρ fr m ((pend_split ok ha hα).1 f.2).2).elim
  cases hn : a.node with
  | var v =>
    obtain ⟨v1, v2, v3, v4⟩ := var hn
    have hvx := h.vx v a.x v4
    simp only [programItem, hn] at hp
    by_cases hs : g.has (.x a.x) = true
    · have hs' : SReg.x a.x ∈ g.seen := by simpa [GenSt.has] using hs
      obtain ⟨q, hq⟩ := Option.isSome_iff_exists.1 (hvx.1 hs')
      have hqlt := h.νlt v q hq
      have uni : ∀ {i}, stepData Γ.pre fuel Γ.st i e = e.unify Γ.pre fuel q p →
          (∃ e' ν' α', runData Γ.pre fuel Γ.st [i] e = .ok e' ∧
            ItemStep Γ k (cst (k + 1)) ν α e g.seen ν' α' e') ∨
          (runData Γ.pre fuel Γ.st [i] e = .error .hang ∧ Γ.Twice) := by
        intro i hi
        rcases unify_exec ok.toOK (fuel := fuel) gd hqlt hplt hr with ⟨e', u1, u2, u3, u4, u5, u6, u7, u8⟩ | u
        · left
          have heq : e'.state = .running → ∀ τ : Nat → ITree, Mod (toIAlg itreeAlg Γ.I) (Γ.H e') τ →
              Mod (toIAlg itreeAlg Γ.I) (Γ.H e) τ ∧ τ q = τ p := fun hr' τ m =>
            (u8 (fun D A σ ρ => σ q = σ p) (fun _ _ _ _ => True) (fun D A σ ρ _ => by simp) 0).sound hr' _ itreeAlg τ
              (fun _ => τ 0) m trivial
          have hfix : e'.state = .running → ∀ a, Fixed Γ.I Γ.N (Γ.H e) a → Fixed Γ.I Γ.N (Γ.H e') a := fun hr' a ha =>
            ha.mono fun τ m => (heq hr' τ m).1
          refine ⟨e', ν, α, single (hi.trans u1), fun _ => by rw [u2]; exact u7, fun _ => ?_,
            fun hr' => (gr.mono (hfix hr')).skip (Nat.le_succ _) ?_, ?_⟩
          · rw [v3]; exact h.advance.grow u3 u4 (Nat.le_of_eq u2.symm)
          · intro b' hb' w hbw hs
            by_cases hbb : b'.id = k
            · right
              obtain rfl := item_unique ok hmem hb' (by omega)
              obtain rfl : w = v := Node.var.inj (hbw.symm.trans hn)
              exact ⟨q, hq, fun hi => (hfix hr' _ (hpin (hbb ▸ hi))).eq fun τ m => (heq hr' τ m).2.symm⟩
            · left; unfold HCtx.Met at *; omega
          · refine u8 _ _ ?_ _
            intro D A σ ρ _
            rw [pend_split ok ha hα, hn, Node.eval]
            constructor
            · rintro ⟨f1, f2, f3⟩; exact ⟨by rw [f3, f1 v q hq], f1, f2⟩
            · rintro ⟨f1, f2, f3⟩; exact ⟨f2, f3, by rw [← f1, f2 v q hq]⟩
        · right
          obtain ⟨b', o1, o2, o3⟩ := h.occ v (by rw [hq]; rfl)
          refine ⟨by simp only [runData, hi, u.1, error_bind], v, b', o1, a, hmem, by omega, o2, hn, ?_, ?_⟩
          · by_contra hi
            rw [Bool.not_eq_false] at hi
            obtain ⟨a', h1, h2⟩ := gr.met b' o1 v o2 o3
            rw [hq] at h1; cases h1
            exact u.2 Γ.N hN (.inl (h2 hi))
          · by_contra hi
            rw [Bool.not_eq_false, hid] at hi
            exact u.2 Γ.N hN (.inr (hpin hi))
      simp only [hs, if_true] at hp
      cases hy : Γ.yOf v with
      | some y =>
        simp only [hy, pure_ok] at hp
        cases hp
        obtain ⟨cell', c1, c2⟩ := h.y v y q hy hq
        refine uni ?_
        have : cell'.addr = .ok q := by simp [Cell.addr, c2.1]
        simp only [stepData, c1, ok_bind, this, reg_eq v2, haddr]
      | none =>
        simp only [hy, pure_ok] at hp
        cases hp
        obtain ⟨cell', c1, c2⟩ := h.x v a.x q hy v4 hq
        refine uni ?_
        have : cell'.addr = .ok q := by simp [Cell.addr, c2.1]
        simp only [stepData, reg_eq c1, ok_bind, this, reg_eq v2, haddr]
    · have hs1 : g.has (.x a.x) = false := by simpa using hs
      have hs' : SReg.x a.x ∉ g.seen := by simpa [GenSt.has] using hs1
      have hνn : ν v = none := by
        cases hh : ν v with
        | none => rfl
        | some a => exact absurd (hvx.2 (by rw [hh]; rfl)) hs'
      have sem : ∀ D (A : Alg D) (σ : Nat → D) ρ, (Agree ν σ ρ ∧ Pend Γ k α D A σ ρ) ↔
          (Agree (ν.set v p) σ ρ ∧ Pend Γ (k + 1) α D A σ ρ) := by
        intro D A σ ρ
        rw [agree_set hνn, pend_split ok ha hα, hn, Node.eval]
        constructor
        · rintro ⟨a, b, c⟩; exact ⟨⟨a, c⟩, b⟩
        · rintro ⟨⟨a, c⟩, b⟩; exact ⟨a, b, c⟩
      have grv : ∀ e' : Exec, Γ.H e' = Γ.H e → HGr Γ (k + 1) (cst (k + 1)) (ν.set v p) α e' := fun e' he =>
        (gr.newVar hνn (Nat.le_succ _) fun b' hb' w hbw hs => by
          by_cases hbb : b'.id = k
          · right
            obtain rfl := item_unique ok hmem hb' (by omega)
            obtain rfl : w = v := Node.var.inj (hbw.symm.trans hn)
            exact ⟨rfl, fun hi => hpin (hbb ▸ hi)⟩
          · left; unfold HCtx.Met at *; omega).mono fun a ha => by rw [he]; exact ha
      simp only [hs1, Bool.false_eq_true, if_false] at hp
      left
      cases hy : Γ.yOf v with
      | some y =>
        simp only [hy, pure_ok] at hp
        cases hp
        obtain ⟨e1, q1, q2, q3, q4, q5, q6, q7, q8⟩ := h.advance.newVarY ok hνn v4 hy hptr hplt ⟨a, hmem, hn, by omega⟩
        refine ⟨e1, _, α, single ?_, fun _ => ?_, fun _ => by rw [v3]; exact q2, fun _ => grv _ (by unfold QCtx.H; rw [q3]), ?_⟩
        · simp only [stepData, reg_eq v2, ok_bind]; exact q1
        · show Good _ (e1.hp.at? Γ.pre) e1.hp.size e1.hp.size
          rw [q3]; exact gd
        · exact HStep.same q3 (q5.trans hr) q6 fun D A σ ρ _ => sem D A σ ρ
      | none =>
        simp only [hy, pure_ok] at hp
        cases hp
        obtain ⟨q1, q2⟩ := h.advance.newVarX ok hνn v4 hy hptr hplt ⟨a, hmem, hn, by omega⟩
        refine ⟨{ e with regs := e.regs.set a.x cell }, _, α, single ?_, fun _ => gd, fun _ => by rw [v3]; exact q2, fun _ => grv _ rfl, ?_⟩
        · simp only [stepData, reg_eq v2, ok_bind]; exact q1
        · exact HStep.same rfl hr rfl fun D A σ ρ _ => sem D A σ ρ
  | cons c =>
    simp only [programItem, hn, bind_ok, pure_ok] at hp
    obtain ⟨⟨cl, g1⟩, h1, ⟨is1, g2⟩, h2, h3⟩ := hp
    cases h3
    exact struct (by rw [hn]; exact h1) h2 (by rw [hn]; rfl)
  | int c =>
    simp only [programItem, hn, bind_ok, pure_ok] at hp
    obtain ⟨⟨cl, g1⟩, h1, ⟨is1, g2⟩, h2, h3⟩ := hp
    cases h3
    exact struct (by rw [hn]; exact h1) h2 (by rw [hn]; rfl)
  | fn f cs =>
    simp only [programItem, hn, bind_ok, pure_ok] at hp
    obtain ⟨⟨cl, g1⟩, h1, ⟨is1, g2⟩, h2, h3⟩ := hp
    cases h3
    exact struct (by rw [hn]; exact h1) h2 (by rw [hn]; rfl)
  | efn f cs =>
    simp only [programItem, hn, bind_ok, pure_ok] at hp
    obtain ⟨⟨cl, g1⟩, h1, ⟨is1, g2⟩, h2, h3⟩ := hp
    cases h3
    exact struct (by rw [hn]; exact h1) h2 (by rw [hn]; rfl)

theorem programItem_le {yOf a g is g'} (h : programItem yOf a g = .ok (is, g'))
    (hkids : a.kids.map (·.1) = a.node.children) (hw : a.node.wf = true) : StLe g.st g'.st := by
  have hkw : ∀ kk ∈ a.kids, kk.1.wf = true := by
    intro kk hkk
    refine Node.wf_child hw ?_
    rw [← hkids]
    exact List.mem_map_of_mem hkk
  have struct : ∀ {cl g1 is1}, structCell a.node g = .ok (cl, g1) → programKids yOf a.kids g1 = .ok (is1, g') →
      StLe g.st g'.st := fun h1 h2 => (structCell_spec h1 hw).1.trans (programKids_le h2 hkw)
  cases hn : a.node with
  | var v =>
    simp only [programItem, hn] at h
    split at h
    · split at h <;> cases h <;> exact .refl _
    · split at h <;> cases h <;> exact .refl _
  | cons c =>
    simp only [programItem, hn, bind_ok, pure_ok] at h
    obtain ⟨⟨cl, g1⟩, h1, ⟨is1, g2⟩, h2, h3⟩ := h
    cases h3
    exact struct (by rw [hn]; exact h1) h2
  | int c =>
    simp only [programItem, hn, bind_ok, pure_ok] at h
    obtain ⟨⟨cl, g1⟩, h1, ⟨is1, g2⟩, h2, h3⟩ := h
    cases h3
    exact struct (by rw [hn]; exact h1) h2
  | fn f cs =>
    simp only [programItem, hn, bind_ok, pure_ok] at h
    obtain ⟨⟨cl, g1⟩, h1, ⟨is1, g2⟩, h2, h3⟩ := h
    cases h3
    exact struct (by rw [hn]; exact h1) h2
  | efn f cs =>
    simp only [programItem, hn, bind_ok, pure_ok] at h
    obtain ⟨⟨cl, g1⟩, h1, ⟨is1, g2⟩, h2, h3⟩ := h
    cases h3
    exact struct (by rw [hn]; exact h1) h2

theorem programItems_le {yOf} {as : List AItem} {g is g'} (h : programItems yOf as g = .ok (is, g'))
    (hkids : ∀ a ∈ as, a.kids.map (·.1) = a.node.children) (hw : ∀ a ∈ as, a.node.wf = true) :
    StLe g.st g'.st := by
  induction as generalizing g is with
  | nil => simp only [programItems, pure_ok] at h; cases h; exact .refl _
  | cons a as ih =>
    simp only [programItems, bind_ok, pure_ok] at h
    obtain ⟨⟨i, g1⟩, h1, ⟨is', g2⟩, h2, h⟩ := h
    cases h
    exact (programItem_le h1 (hkids a (by simp)) (hw a (by simp))).trans
      (ih h2 (fun b hb => hkids b (by simp [hb])) (fun b hb => hw b (by simp [hb])))

/-- What the rest of the head does. -/
structure ItemsStep (Γ : HCtx) (k : Nat) (ν : VMap) (α : Nat → Option Nat) (e : Exec)
    (seen' : List SReg) (ν' : VMap) (e' : Exec) : Prop where
  good : e'.state = .running → Good (ValidCell Γ.st) (Γ.H e') e'.hp.size e'.hp.size
  regs : e'.state = .running → ∃ k' c0' α', HRegs Γ k' c0' ν' α' seen' e'
  step : HStep Γ.toQCtx e.hp.size (fun D A σ ρ => Agree ν σ ρ ∧ Pend Γ k α D A σ ρ) e
    (fun _ _ σ ρ => Agree ν' σ ρ) e'

theorem programItems_exec {Γ : HCtx} (ok : Γ.OK) {cst} (T : KidTree (atomArgs Γ.atom).length Γ.ais cst)
    (hC : ∀ (k : Nat) (a : AItem), Γ.ais[k]? = some a → ∀ m, m < a.kids.length → Γ.inp (cst k + m) = Γ.inp k)
    {fuel} (hN : Γ.N ≤ fuel) :
    ∀ {as : List AItem} {k ν α e g is g'}, Γ.ais.drop k = as →
    programItems Γ.yOf (as.filter (·.kept (atomArgs Γ.atom).length)) g = .ok (is, g') → StLe g'.st Γ.st →
    Good (ValidCell Γ.st) (Γ.H e) e.hp.size e.hp.size →
    HRegs Γ k (cst k) ν α g.seen e → HGr Γ k (cst k) ν α e → e.state = .running →
    (∃ e' ν', runData Γ.pre fuel Γ.st is e = .ok e' ∧ ItemsStep Γ k ν α e g'.seen ν' e') ∨
    (runData Γ.pre fuel Γ.st is e = .error .hang ∧ Γ.Twice) := by
  intro as
  induction as with
  | nil =>
    intro k ν α e g is g' hd hp hst gd h gr hr
    simp only [List.filter_nil, programItems, pure_ok] at hp
    cases hp
    refine .inl ⟨e, ν, rfl, fun _ => gd, fun _ => ⟨k, cst k, α, h⟩, HStep.same rfl hr rfl ?_⟩
    intro D A σ ρ _
    constructor
    · exact fun h => h.1
    · intro hg
      refine ⟨hg, fun b hb hk => ?_⟩
      obtain ⟨j, hj⟩ := List.getElem?_of_mem hb
      have := ok.regs.id j b hj
      have h1 := (List.getElem?_eq_some_iff.1 hj).1
      have h2 := congrArg List.length hd
      simp at h2
      omega
  | cons a as ih =>
    intro k ν α e g is g' hd hp hst gd h gr hr
    have ha : Γ.ais[k]? = some a := by
      have := congrArg (·[0]?) hd
      simpa [List.getElem?_drop] using this
    have hd' : Γ.ais.drop (k + 1) = as := by
      rw [← List.drop_drop, hd]; rfl
    have hid := ok.regs.id k a ha
    have hmem := List.mem_of_getElem? ha
    by_cases hkept : a.kept (atomArgs Γ.atom).length = true
    · rw [List.filter_cons_of_pos (by simpa using hkept)] at hp
      simp only [programItems, bind_ok, pure_ok] at hp
      obtain ⟨⟨is1, g1⟩, h1, ⟨is2, g2⟩, h2, h3⟩ := hp
      cases h3
      have hsub : ∀ b ∈ as.filter (·.kept (atomArgs Γ.atom).length), b ∈ Γ.ais := by
        intro b hb
        have := (List.mem_filter.1 hb).1
        rw [← hd'] at this
        exact List.mem_of_mem_drop this
      have hst1 := (programItems_le h2 (fun b hb => ok.regs.kids b (hsub b hb)) fun b hb => ok.wf b (hsub b hb)).trans hst
      rw [runData_append]
      rcases programItem_exec ok T hC (fuel := fuel) hN h1 hst1 ha hkept gd h gr hr with ⟨e1, ν1, α1, s1, K⟩ | s1
      · simp only [s1, ok_bind]
        rcases K.step.state with hr1 | hf1
        · have hnf : e1.failed = false := by simp [Exec.failed, hr1]
          simp only [hnf, Bool.false_eq_true, if_false]
          rcases ih hd' h2 hst (K.good hr1) (K.regs hr1) (K.gr hr1) hr1 with ⟨e2, ν2, t1, L⟩ | t1
          · exact .inl ⟨e2, ν2, t1, L.good, L.regs, K.step.trans L.step K.step.size hr1⟩
          · exact .inr t1
        · have hnf : e1.failed = true := by simp [Exec.failed, hf1]
          have hnr : e1.state ≠ .running := by rw [hf1]; decide
          have hne : is1.isEmpty = false := by
            cases is1 with
            | nil =>
              simp only [runData, pure_ok] at s1
              exact absurd (s1 ▸ hr) hnr
            | cons _ _ => rfl
          simp only [hnf, hne, Bool.not_false, Bool.and_self, if_true]
          exact .inl ⟨e1, ν1, rfl, fun h => (hnr h).elim, fun h => (hnr h).elim, K.step.failed hnr⟩
      · exact .inr ⟨by simp only [s1.1, error_bind], s1.2⟩
    · have hkept' : a.kept (atomArgs Γ.atom).length = false := by simpa using hkept
      rw [List.filter_cons_of_neg (by simpa using hkept)] at hp
      have hcst : cst (k + 1) = cst k := by
        rw [T.succ k a ha]
        have := congrArg List.length (ok.regs.kids a hmem)
        unfold AItem.kept at hkept'
        have hc : a.node.children = [] := by
          cases hn : a.node <;> rw [hn] at hkept' <;> simp_all [Node.isFn, Node.isEfn, Node.children]
        rw [hc] at this
        simp at this
        rw [this]; rfl
      have hα : α k = none := by rw [← hid]; exact h.nact a hmem hkept'
      have h1 : HRegs Γ (k + 1) (cst (k + 1)) ν α g.seen e := by rw [hcst]; exact h.advance
      have g1 : HGr Γ (k + 1) (cst (k + 1)) ν α e := by
        rw [hcst]
        refine gr.skip (Nat.le_succ _) fun b hb v hv hs => .inl ?_
        have := T.gt k a ha
        have := not_kept_id hkept'
        unfold HCtx.Met at *; omega
      rcases ih hd' hp hst gd h1 g1 hr with ⟨e2, ν2, t1, L⟩ | t1
      · refine .inl ⟨e2, ν2, t1, L.good, L.regs, L.step.congr ?_ fun _ _ _ _ => Iff.rfl⟩
        intro D A σ ρ
        rw [pend_none hα]
      · exact .inr t1

/-- Executing the code of a head: its arguments are unified with the terms in the argument registers. -/
theorem head_exec {Γ : HCtx} (ok : Γ.OK) {cst} (T : KidTree (atomArgs Γ.atom).length Γ.ais cst)
    (hC : ∀ (k : Nat) (a : AItem), Γ.ais[k]? = some a → ∀ m, m < a.kids.length → Γ.inp (cst k + m) = Γ.inp k)
    {fuel e is g'} (hN : Γ.N ≤ fuel) {args : List Nat} {st0 : Storage}
    (hp : programItems Γ.yOf (flattenProgram (atomArgs Γ.atom).length Γ.ais) ⟨[], st0⟩ = .ok (is, g'))
    (hst : StLe g'.st Γ.st)
    (gd : Good (ValidCell Γ.st) (Γ.H e) e.hp.size e.hp.size) (hr : e.state = .running)
    (hregs : e.regs.length = Γ.nr) (henv : Γ.ny ≠ 0 → ∃ env rest, e.envs = env :: rest ∧ env.length = Γ.ny)
    (hlen : args.length = (atomArgs Γ.atom).length)
    (hargs : ∀ (i p : Nat), args[i]? = some p → p < e.hp.size ∧ ∃ cell, e.regs[i]? = some cell ∧ PtrTo Γ.toQCtx cell p)
    (hfix : ∀ (i p : Nat), args[i]? = some p → Γ.inp i = true → Fixed Γ.I Γ.N (Γ.H e) p) :
    (∃ e' ν', runData Γ.pre fuel Γ.st is e = .ok e' ∧
      (e'.state = .running → Good (ValidCell Γ.st) (Γ.H e') e'.hp.size e'.hp.size) ∧
      (e'.state = .running → ∃ k' c0' α', HRegs Γ k' c0' ν' α' g'.seen e') ∧
      HStep Γ.toQCtx e.hp.size (fun _ A σ ρ => args.map σ = Node.evals A ρ (atomArgs Γ.atom)) e
        (fun _ _ σ ρ => Agree ν' σ ρ) e') ∨
    (runData Γ.pre fuel Γ.st is e = .error .hang ∧ Γ.Twice) := by
  have hr0 : HRegs Γ 0 (cst 0) (fun _ => none) (args[·]?) [] e := by
    refine ⟨hregs, by simp, by simp, by simp, by simp, by simp, by simp, henv, ?_, ?_, ?_, by simp, by simp⟩
    · intro b hb _ p hpp
      have hlt : b.id < (atomArgs Γ.atom).length := by
        rw [← hlen]; exact (List.getElem?_eq_some_iff.1 hpp).1
      obtain ⟨h1, h2⟩ := hargs b.id p hpp
      refine ⟨h1, ?_⟩
      unfold AItem.reg
      rw [if_pos hlt]; exact h2
    · intro b hb _ hk
      rw [T.zero, ← hlen]
      simp
    · intro b hb hk
      have := not_kept_id hk
      simp; omega
  have gr0 : HGr Γ 0 (cst 0) (fun _ => none) (args[·]?) e := by
    refine ⟨fun b hb _ p hpp hi => hfix b.id p hpp hi, fun b hb v hv hs => ?_⟩
    rw [T.zero] at hs
    unfold HCtx.Met at hs; omega
  rcases programItems_exec ok T hC (fuel := fuel) hN (k := 0) (as := Γ.ais) rfl hp hst gd hr0 gr0 hr with ⟨e', ν', r1, L⟩ | r1
  · refine .inl ⟨e', ν', r1, L.good, L.regs, L.step.congr ?_ fun _ _ _ _ => Iff.rfl⟩
    intro D A σ ρ
    constructor
    · rintro ⟨-, h⟩
      rw [Node.evals_eq_map]
      refine List.ext_getElem? fun i => ?_
      rw [List.getElem?_map, List.getElem?_map]
      cases hi : (atomArgs Γ.atom)[i]? with
      | none =>
        have : args[i]? = none := by
          rw [List.getElem?_eq_none_iff] at hi ⊢; omega
        rw [this]; rfl
      | some n =>
        obtain ⟨a, ha, han⟩ := ok.regs.args i n hi
        have hlt : i < args.length := by rw [hlen]; exact (List.getElem?_eq_some_iff.1 hi).1
        have hai : args[i]? = some args[i] := List.getElem?_eq_getElem hlt
        have := h a (List.mem_of_getElem? ha) (Nat.zero_le _) args[i] (by rw [ok.regs.id i a ha]; exact hai)
        rw [hai, Option.map_some, Option.map_some, this, han]
    · intro h
      refine ⟨fun n a hn => by simp at hn, fun b hb _ p hpp => ?_⟩
      rw [Node.evals_eq_map] at h
      have h1 := congrArg (·[b.id]?) h
      simp only [List.getElem?_map, hpp, Option.map_some] at h1
      obtain ⟨i, hi⟩ := List.getElem?_of_mem hb
      have hid := ok.regs.id i b hi
      have hlt : b.id < (atomArgs Γ.atom).length := by
        rw [← hlen]; exact (List.getElem?_eq_some_iff.1 hpp).1
      obtain ⟨a, ha, han⟩ := ok.regs.args b.id _ (List.getElem?_eq_getElem hlt)
      have : a = b := by
        rw [hid] at ha
        rw [ha] at hi; exact Option.some.inj hi
      subst this
      rw [List.getElem?_eq_getElem hlt, Option.map_some, ← han] at h1
      exact Option.some.inj h1
  · exact .inr r1

end PBfs
