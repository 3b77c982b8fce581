import Verif.Proof.Twin8
import Verif.Spec.Session
/-! # Interpreters with the same program -/
namespace PBfs

theorem forall₂_self {α} {P : α → α → Prop} {l : List α} (h : ∀ a ∈ l, P a a) : List.Forall₂ P l l := by
  induction l with
  | nil => exact .nil
  | cons a l ih => exact .cons (h a (by simp)) (ih fun b hb => h b (by simp [hb]))

theorem forall₂_mid {α β γ} {P : α → γ → Prop} {Q : β → γ → Prop} {S : α → β → Prop} {l : List α} {m : List β} {n : List γ}
    (h1 : List.Forall₂ P l n) (h2 : List.Forall₂ Q m n) (h : ∀ a b c, c ∈ n → P a c → Q b c → S a b) : List.Forall₂ S l m := by
  induction h1 generalizing m with
  | nil => cases h2; exact .nil
  | cons ha _ ih =>
    cases h2 with
    | cons hb hs => exact .cons (h _ _ _ (by simp) ha hb) (ih hs fun a b c hc => h a b c (by simp [hc]))

theorem init0_builtins : compileBuiltins ⟨[], []⟩ = .ok (Org.init0.builtins, Org.init0.st) := by
  have h := Org.init_eq
  unfold Org.init at h
  simp only [bind_ok, pure_ok] at h
  obtain ⟨⟨b, st⟩, h1, h2⟩ := h
  rw [← h2]
  exact h1

/-- The rules of the predicates implemented in C++ use temporary registers only. -/
theorem init0_own (i : Builtin) : ∃ sub src, Org.init0.builtins.rules? ⟨i.name, 2⟩ = some [builtinRule i sub src] ∧ sub.all (fun v => !v.perm) = true := by
  obtain ⟨sub, src, h⟩ := (builtins_ok init0_builtins).1.own i
  refine ⟨sub, src, h, ?_⟩
  have key : ∀ i : Builtin, ((Org.init0.builtins.rules? ⟨i.name, 2⟩).getD []).all (fun r => r.all fun a => a.subst.all fun v => !v.perm) = true := by
    intro i
    cases i <;> decide +kernel
  have := key i
  rw [h] at this
  simpa [builtinRule] using this

section
variable {M : Cmp} {o o' : Org} {st st' : Storage}

theorem builtinRule_rel {b sub src} (hb : b = .is → M.calls isFV) (hs : sub.all (fun v => !v.perm) = true) : RuleRel M st st' (builtinRule b sub src) (builtinRule b sub src) := by
  intro frs
  refine .cons ⟨rfl, ?_, rfl, forall₂_self fun v hv => ?_⟩ (.nil _)
  · exact .data (.getVariable _ _) (.data (.getVariable _ _) (.data (.builtin _ _ _ hb) .proceed))
  · have := List.all_eq_true.1 hs v hv
    exact ⟨rfl, rfl, fun h => by simp [h] at this, fun _ => rfl⟩

/-- The built-in predicates in two interpreters. -/
theorem builtins_rel (T : Twin M st st') (h : StLe Org.init0.st st) (h' : StLe Org.init0.st st') :
    PRel M st st' Org.init0.builtins Org.init0.builtins := by
  intro f hf
  have hB := (builtins_ok init0_builtins).1
  by_cases hm : f ∈ builtinFVs
  · have own : ∀ i : Builtin, f = ⟨i.name, 2⟩ → ORel (List.Forall₂ (RuleRel M st st')) (Org.init0.builtins.rules? f) (Org.init0.builtins.rules? f) := by
      rintro i rfl
      obtain ⟨sub, src, h1, h2⟩ := init0_own i
      rw [h1]
      exact .cons (builtinRule_rel (fun hi => by subst hi; exact hf) h2) .nil
    simp only [builtinFVs, List.mem_cons, List.not_mem_nil, or_false] at hm
    rcases hm with hm | hm | hm | hm
    · exact own .is hm
    · exact own .eq hm
    · exact own .neq hm
    · obtain ⟨rs, h1, h2⟩ := hB.append
      subst hm
      rw [h1]
      refine forall₂_self (l := rs) fun r hr => ?_
      have : ∃ c ∈ appendClauses, CodeOf id true Org.init0.st r c := by
        clear h1
        revert h2 hr
        generalize appendClauses = cs
        intro h2 hr
        induction h2 with
        | nil => cases hr
        | cons hc _ ih =>
          rcases List.mem_cons.1 hr with rfl | hr
          · exact ⟨_, by simp, hc⟩
          · obtain ⟨c, h1, h2⟩ := ih hr
            exact ⟨c, by simp [h1], h2⟩
      obtain ⟨c, hc, s1, s2, hcc, hle⟩ := this
      have hl : ∀ a ∈ c.body, M.calls a.fv := by
        simp only [appendClauses, List.mem_cons, List.not_mem_nil, or_false] at hc
        rcases hc with rfl | rfl
        · simp
        · intro a ha
          simp only [List.mem_cons, List.not_mem_nil, or_false] at ha
          subst ha
          exact hf
      have := compileClause_ss (z := ZRel.zero M) T HashOrder.id_ok HashOrder.id_ok true c.head c.body hl (st := s1) (st' := s1) ⟨rfl, fun _ => rfl⟩
      rw [hcc] at this
      exact (this.2.2.2 (hle.trans h) (hle.trans h')).2
  · rw [hB.none hm]; trivial

/-- No predicate has an empty list of clauses. -/
def Program.NoEmpty (p : Program) : Prop := ∀ f, p.rules? f ≠ some []

theorem compileProgram_noEmpty {ord : HashOrder} : ∀ {cs p st p' st'}, compileProgram ord cs p st = .ok (p', st') → Program.NoEmpty p → p'.NoEmpty
  | [], p, st, p', st', h, hn => by
    simp only [compileProgram, pure_ok, Prod.mk.injEq] at h
    exact h.1 ▸ hn
  | c :: cs, p, st, p', st', h, hn => by
    simp only [compileProgram, bind_ok] at h
    obtain ⟨⟨f0, r, st1⟩, h1, h2⟩ := h
    refine compileProgram_noEmpty h2 fun g => ?_
    rw [Program.rules?_addRule]
    split
    · simp
    · exact hn g

/-- What every interpreter keeps from its construction. -/
structure Kept (o : Org) : Prop where
  builtins : o.builtins = Org.init0.builtins
  grow : Grow Org.init0.st o.st
  noEmpty : o.program.NoEmpty

theorem Serves.kept {ord p} (h : Serves o ord p) : Kept o := by
  have hnb : Org.init0.builtins.NoEmpty := by
    intro f hf
    have hB := (builtins_ok init0_builtins).1
    by_cases hm : f ∈ builtinFVs
    · simp only [builtinFVs, List.mem_cons, List.not_mem_nil, or_false] at hm
      have own : ∀ i : Builtin, f ≠ ⟨i.name, 2⟩ := by
        rintro i rfl
        obtain ⟨_, _, h⟩ := hB.own i
        rw [h] at hf; cases hf
      rcases hm with rfl | rfl | rfl | rfl
      · exact own .is rfl
      · exact own .eq rfl
      · exact own .neq rfl
      · obtain ⟨rs, h1, h2⟩ := hB.append
        rw [h1] at hf
        cases hf
        cases h2
    · rw [hB.none hm] at hf; cases hf
  induction h with
  | init h =>
    rw [Org.init_eq] at h
    cases h
    refine ⟨rfl, .refl _, ?_⟩
    have : Org.init0.program = Org.init0.builtins := by
      have h := Org.init_eq
      unfold Org.init at h
      simp only [bind_ok, pure_ok] at h
      obtain ⟨⟨b, st⟩, h1, h2⟩ := h
      rw [← h2]
    rw [this]
    exact hnb
  | @program o o' ord ord' p p' h0 hl ih =>
    obtain ⟨q, h1, h2⟩ := loadProgram_ok hl
    refine ⟨by rw [h2]; exact ih.builtins, ih.grow.trans ((compileProgram_grows _ _ _ _).of_ok h1), fun f => ?_⟩
    rw [h2]
    show (Org.mergeBuiltins o.builtins q).rules? f ≠ some []
    rw [mergeBuiltins_rules q f o.builtins (by rw [h0.inv.builtins.keys]; exact builtinFVs_nodup), ih.builtins]
    have := hnb f
    cases hx : Org.init0.builtins.rules? f with
    | some r => rw [hx] at this; exact this
    | none => exact compileProgram_noEmpty h1 (fun f => by simp [Program.rules?]) f
  | rejected _ hl hne ih =>
    obtain ⟨h1, h2⟩ := loadProgram_rejected hl hne
    exact ⟨by rw [h2]; exact ih.builtins, ih.grow.trans h1, by rw [h2]; exact ih.noEmpty⟩
  | query _ ih =>
    obtain ⟨h1, h2, h3, _⟩ := loadQuery_st (o := _) (ord := _) (parsed := _)
    exact ⟨h2.trans ih.builtins, ih.grow.trans h1, by rw [h3]; exact ih.noEmpty⟩
  | answer h0 ha ih =>
    obtain ⟨h1, h2, h3, _⟩ := getAnswer_keeps h0.reach.rinv ha
    exact ⟨h1.trans ih.builtins, by rw [h3]; exact ih.grow, by rw [h2]; exact ih.noEmpty⟩

theorem Kept.zero (h : Kept o) (h' : Kept o') : o.st.functors[0]? = o'.st.functors[0]? := by
  have : ∃ f, Org.init0.st.functors[0]? = some f := by
    have : (Org.init0.st.functors[0]?).isSome = true := by decide +kernel
    exact Option.isSome_iff_exists.1 this
  obtain ⟨f, hf⟩ := this
  rw [prefix_getElem? h.grow.le.functors hf, prefix_getElem? h'.grow.le.functors hf]

/-- Two interpreters with the same program, whatever happened before. -/
theorem Serves.rel {ord ord' p} (h : Serves o ord p) (h' : Serves o' ord' p) (ho : ord.OK) (ho' : ord'.OK) (hs : o.Small) (hs' : o'.Small)
    (hex : ¬ M.ex) (hl : ∀ c ∈ p, ∀ a ∈ c.body, M.calls a.fv) : OrgRel M { o with queue := [] } { o' with queue := [] } := by
  have T : Twin M o.st o'.st := ⟨h.inv.nodup, h'.inv.nodup, fun _ => hs.1, fun _ => hs'.1, fun _ => hs.2, fun _ => hs'.2, h.kept.zero h'.kept, fun he => absurd he hex⟩
  have hb : PRel M o.st o'.st o.builtins o'.builtins := by
    rw [h.kept.builtins, h'.kept.builtins]
    exact builtins_rel T h.kept.grow.le h'.kept.grow.le
  refine ⟨T, fun f hf => ?_, ?_, ?_, hb, h.inv.gen, h'.inv.gen, rfl, fun hq => absurd rfl hq⟩
  · show ORel _ (o.program.rules? f) (o'.program.rules? f)
    by_cases hm : f ∈ builtinFVs
    · rw [h.inv.own f hm, h'.inv.own f hm]
      exact hb f hf
    · have key := forall₂_mid (h.inv.rules f hm) (h'.inv.rules f hm) (S := RuleRel M o.st o'.st) ?_
      · have n1 := h.kept.noEmpty f
        have n2 := h'.kept.noEmpty f
        revert key n1 n2
        cases o.program.rules? f <;> cases o'.program.rules? f <;> intro key n1 n2
        · trivial
        · cases key; exact absurd rfl n2
        · cases key; exact absurd rfl n1
        · exact key
      · rintro r r' c hc ⟨s1, s2, h1, h2⟩ ⟨s1', s2', h1', h2'⟩
        have := compileClause_ss (z := ZRel.any hex) T ho ho' false c.head c.body (hl c (List.mem_filter.1 hc).1) (st := s1) (st' := s1') trivial
        rw [h1, h1'] at this
        exact (this.2.2.2 h2 h2').2
  · show (o.builtins.map (·.1)).Nodup
    rw [h.inv.builtins.keys]; exact builtinFVs_nodup
  · show (o'.builtins.map (·.1)).Nodup
    rw [h'.inv.builtins.keys]; exact builtinFVs_nodup

theorem OrgRel.init : OrgRel M Org.init0 Org.init0 := by
  have T : Twin M Org.init0.st Org.init0.st := by
    have h1 : Org.init0.st.functors.length ≤ 32768 := by decide +kernel
    have h2 : Org.init0.st.vars.length ≤ 32768 := by decide +kernel
    have h3 : Org.init0.st.functors.Nodup := (builtins_ok init0_builtins).2
    exact ⟨h3, h3, fun _ => h1, fun _ => h1, fun _ => h2, fun _ => h2, rfl, fun _ => rfl⟩
  have hb := builtins_rel T (.refl _) (.refl _)
  have hs : Serves Org.init0 id [] := .init Org.init_eq
  refine ⟨T, ?_, ?_, ?_, hb, hs.inv.gen, hs.inv.gen, rfl, fun hq => absurd (by decide +kernel) hq⟩
  · have : Org.init0.program = Org.init0.builtins := by
      have h := Org.init_eq
      unfold Org.init at h
      simp only [bind_ok, pure_ok] at h
      obtain ⟨⟨b, st⟩, h1, h2⟩ := h
      rw [← h2]
    rw [this]; exact hb
  · rw [hs.inv.builtins.keys]; exact builtinFVs_nodup
  · rw [hs.inv.builtins.keys]; exact builtinFVs_nodup

end
end PBfs
