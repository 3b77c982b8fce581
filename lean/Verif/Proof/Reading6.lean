import Verif.Proof.Reading5
/-!
# The time for texts that are rejected
-/
namespace PBfs

open Timed

/-! ## What can happen -/

theorem bind_cases (x : Timed α) (k : α → List Char → Timed β) :
    (∃ a r, x.res = .ok a r ∧ (x.bind k).res = (k a r).res ∧ (x.bind k).steps = x.steps + (k a r).steps) ∨
    ((∀ a r, x.res ≠ .ok a r) ∧ (∀ a r, (x.bind k).res ≠ .ok a r) ∧ (x.bind k).steps = x.steps) := by
  unfold Timed.bind
  cases h : x.res with
  | ok a r => exact .inl ⟨a, r, rfl, rfl, rfl⟩
  | _ => exact .inr ⟨fun _ _ h => (by cases h), fun _ _ h => (by cases h), rfl⟩

theorem orElse_cases (x y : Timed α) :
    (x.res = .fail ∧ (x.orElse y).res = y.res ∧ (x.orElse y).steps = x.steps + y.steps) ∨
    (x.res ≠ .fail ∧ (x.orElse y).res = x.res ∧ (x.orElse y).steps = x.steps) := by
  unfold Timed.orElse
  cases h : x.res with
  | fail => exact .inl ⟨rfl, rfl, rfl⟩
  | _ => exact .inr ⟨(by simp), h, rfl⟩

/-- At any place a few looks at the white space are paid for by the rest of the text. -/
theorem small {F K : Nat} (s : List Char) (h : K ≤ F) : K * (blanks s + 1) ≤ F * s.length + F := by
  have hb := blanks_le s
  have h1 : K * (blanks s + 1) ≤ F * (s.length + 1) := Nat.mul_le_mul h (by omega)
  rw [Nat.mul_add, Nat.mul_one] at h1
  exact h1

theorem wordT_all (p s) : (wordT p s).steps ≤ s.length + 1 := by
  have hb := blanks_le s
  cases h : word p s with
  | ok w r =>
    rw [wordT_ok h]
    have := word_span h
    omega
  | _ => simp only [wordT, h]; omega

theorem numberT_all (s) : (numberT s).steps ≤ s.length + 2 := by
  have hb := blanks_add s
  cases h : numberP s with
  | ok a r =>
    rw [numberT_ok h]
    omega
  | _ => simp only [numberT, h]; omega

/-! ## Expressions -/

/-- However it ends. -/
def AllP (p : TP α) (F : Nat) : Prop := ∀ s, (p s).steps ≤ F * s.length + F

theorem valueT_all {ex : TP Node} {F : Nat} (hF : 16 ≤ F) (hex : CheapP ex F 5 5) (ha : AllP ex F) : AllP (valueT ex) F := by
  intro s
  have h16 : 16 * s.length ≤ F * s.length := Nat.mul_le_mul_right _ hF
  unfold valueT
  have hv := wordT_all isUpper s
  have hn := numberT_all s
  have hb := blanks_le s
  rcases orElse_cases (variableT s) _ with ⟨h1, _, hs⟩ | ⟨_, _, hs⟩
  · rw [hs, variableT_fail h1]
    rcases orElse_cases (numberT s) _ with ⟨h2, _, hs⟩ | ⟨_, _, hs⟩
    · rw [hs, numberT_fail (show numberP s = .fail from h2)]
      rcases bind_cases (litT ['('] s) _ with ⟨_, r0, h3, _, hs⟩ | ⟨_, _, hs⟩
      · rw [hs]
        have h3 : lit ['('] s = .ok _ r0 := h3
        have hp := pay_lit (K := 16) h3 hF
        have hr := ha r0
        have e : (litT ['('] s).steps = blanks s + 1 := rfl
        rw [e]
        rcases bind_cases ((ex r0).must r0) _ with ⟨a, r1, h4, _, hs⟩ | ⟨_, _, hs⟩
        · rw [hs]
          have hc := hex _ _ _ (must_ok h4)
          have hc1 := hc.1
          have hc2 := hc.2
          have h6 := small (K := 6) r1 (by omega : 6 ≤ F)
          show _ + (_ + (_ + ((ex r0).steps + (blanks r1 + 1)))) ≤ _
          omega
        · rw [hs]
          show _ + (_ + (_ + (ex r0).steps)) ≤ _
          omega
      · rw [hs]
        show _ + (_ + (blanks s + 1)) ≤ _
        omega
    · rw [hs]
      omega
  · rw [hs]
    show (wordT isUpper s).steps ≤ _
    omega

/-- A link that is not completed. -/
theorem chainedT_all {operand : TP Node} {F K : Nat} (ha : AllP operand F) :
    ∀ (ops : List Name), (∀ op ∈ ops, op ≠ []) → K + ops.length ≤ F → ∀ {s}, (∀ a r, (chainedT operand ops s).res ≠ .ok a r) →
      (chainedT operand ops s).steps + K * (blanks s + 1) ≤ F * s.length + F
  | [], _, hK, s, _ => by
    have := small (K := K) s (by simpa using hK)
    simp only [chainedT]
    omega
  | op :: ops, hne, hK, s, h => by
    unfold chainedT at h ⊢
    simp only [List.length_cons] at hK
    rcases orElse_cases ((litT op s).bind fun _ r => ((operand r).must r).map fun v => (op, v)) (chainedT operand ops s) with ⟨h1, hr, hs⟩ | ⟨h1, hr, hs⟩
    · rw [hs]
      rw [hr] at h
      have h3 : ((litT op s).bind fun _ r => ((operand r).must r).map fun v => (op, v)).steps = blanks s + 1 := by
        rcases bind_fail h1 with ⟨_, h⟩ | ⟨a', r', _, h, _⟩
        · rw [h]; rfl
        · exact absurd (PR.map_eq_fail.1 h) PR.must_ne_fail
      rw [h3]
      have ih := chainedT_all (K := K + 1) ha ops (fun o h => hne o (by simp [h])) (by omega) h
      rw [Nat.add_mul] at ih
      omega
    · rw [hs]
      rcases bind_cases (litT op s) (fun _ r => ((operand r).must r).map fun v => (op, v)) with ⟨_, r0, h2, _, hs⟩ | ⟨_, _, hs⟩
      · rw [hs]
        have h2 : lit op s = .ok _ r0 := h2
        cases op with
        | nil => exact absurd rfl (hne [] (by simp))
        | cons c cs =>
          have h6 := pay_lit (K := K + 1) h2 (by omega : K + 1 ≤ F)
          rw [Nat.add_mul] at h6
          have := ha r0
          show blanks s + 1 + (operand r0).steps + _ ≤ _
          omega
      · rw [hs]
        have := small (F := F) (K := K + 1) s (by omega)
        rw [Nat.add_mul] at this
        show blanks s + 1 + _ ≤ _
        omega

theorem manyT_chained_all {operand : TP Node} {F S B : Nat} (ho : CheapP operand F S B) (ha : AllP operand F) {ops : List Name}
    (hne : ∀ op ∈ ops, op ≠ []) (hF : B + ops.length ≤ F) : ∀ n s,
      (manyT (chainedT operand ops) n s).steps + B * (blanks s + 1) ≤ F * s.length + F
  | 0, s => by
    have := small (F := F) (K := B) s (by omega)
    simp only [manyT]
    omega
  | n + 1, s => by
    unfold manyT
    cases hp : (chainedT operand ops s).res with
    | ok a r1 =>
      simp only []
      have ih := manyT_chained_all ho ha hne hF n r1
      have hc := (chainedT_ok (K := B) ho ops hne hF hp).2
      omega
    | _ =>
      have := chainedT_all (K := B) ha ops hne hF (s := s) (by rw [hp]; intro _ _ h; cases h)
      simp only []
      omega

theorem chainT_all {operand : TP Node} {F S B : Nat} (ho : CheapP operand F S B) (ha : AllP operand F) {ops : List Name} (hne : ∀ op ∈ ops, op ≠ [])
    (hF : B + ops.length ≤ F) : AllP (chainT operand ops) F := by
  intro s
  unfold chainT
  rcases bind_cases (operand s) (fun v r => (manyT (chainedT operand ops) (r.length + 1) r).map fun cs => chainNode v cs) with ⟨a, r, h1, _, hs⟩ | ⟨_, _, hs⟩
  · rw [hs]
    have hm := manyT_chained_all ho ha hne hF (r.length + 1) r
    have ho := ho _ _ _ h1
    have := ho.1; have := ho.2
    show (operand s).steps + (manyT (chainedT operand ops) (r.length + 1) r).steps ≤ _
    omega
  · rw [hs]; exact ha s

theorem powerT_all {ex : TP Node} {F : Nat} (hF : 16 ≤ F) (hex : CheapP ex F 5 5) (ha : AllP ex F) : AllP (powerT ex) F := by
  intro s
  unfold powerT
  have hne : ∀ op ∈ [n!"^"], op ≠ [] := by simp
  rcases bind_cases (valueT ex s) (fun v r => ((chainedT (valueT ex) [n!"^"] r).map fun c => chainNode v [c]).orElse ⟨.ok v r, 0⟩) with
    ⟨v, r, h1, _, hs⟩ | ⟨_, _, hs⟩
  · rw [hs]
    have hv := valueT_cheap hF hex _ _ _ h1
    have hv1 := hv.1
    have hv2 := hv.2
    have hc : (chainedT (valueT ex) [n!"^"] r).steps ≤ F * r.length + F := by
      cases hp : (chainedT (valueT ex) [n!"^"] r).res with
      | ok a r1 =>
        have hc := chainedT_ok (K := 0) (valueT_cheap hF hex) [n!"^"] hne (by simp; omega) hp
        have hc1 := hc.1
        have hc2 := hc.2
        omega
      | _ =>
        have := chainedT_all (K := 0) (valueT_all hF hex ha) [n!"^"] hne (by simp; omega) (s := r) (by rw [hp]; intro _ _ h; cases h)
        omega
    have e : (((chainedT (valueT ex) [n!"^"] r).map fun c => chainNode v [c]).orElse ⟨.ok v r, 0⟩).steps = (chainedT (valueT ex) [n!"^"] r).steps := by
      rcases orElse_cases ((chainedT (valueT ex) [n!"^"] r).map fun c => chainNode v [c]) ⟨.ok v r, 0⟩ with ⟨_, _, hs⟩ | ⟨_, _, hs⟩ <;> rw [hs] <;> rfl
    rw [e]
    omega
  · rw [hs]; exact valueT_all hF hex ha s

theorem expressionT_all {F : Nat} (hF : 16 ≤ F) : ∀ n, AllP (expressionT n) F
  | 0 => fun s => Nat.zero_le _
  | n + 1 => by
    have hex := expressionT_cheap hF n
    have hp := powerT_cheap hF hex
    have hpr : CheapP (productT (expressionT n)) F 5 3 := chainT_cheap hp (by simp) (by simp; omega)
    have ha : AllP (productT (expressionT n)) F := chainT_all hp (powerT_all hF hex (expressionT_all hF n)) (by simp) (by simp; omega)
    exact chainT_all hpr ha (by simp) (by simp; omega)

/-! ## Rows of terms or goals -/

/-- What is left to pay at the end of a row. -/
def Owed (K : Nat) (x : Timed α) (e : Nat) : Prop := e = 0 ∨ ∃ a r, x.res = .ok a r ∧ e = K * (blanks r + 1)

/-- The terms and goals: however they end; and if they are read, then cheaply, or no comma follows. -/
structure Rowed (p : TP α) (D A G B K : Nat) : Prop where
  any : ∀ s, height s ≤ D → (p s).steps ≤ A * s.length + A
  ok : ∀ s a r, height s ≤ D → (p s).res = .ok a r → height r ≤ D ∧ r.length ≤ s.length ∧
    (Cheap G 0 B s r (p s).steps ∨ lit [','] r = .fail ∧ A + 1 + K ≤ G)
  le : A ≤ G
  slack : B + 1 + K ≤ G

theorem manyT_row {p : TP α} {D A G B K : Nat} (h : Rowed p D A G B K) : ∀ n s, height s ≤ D → ∀ e,
    Owed K (manyT (fun s => (litT [','] s).bind fun _ r => p r) n s) e →
    (manyT (fun s => (litT [','] s).bind fun _ r => p r) n s).steps + B * (blanks s + 1) + e ≤ G * s.length + G
  | 0, s, _, e, he => by
    rcases he with rfl | ⟨a, r, he, _⟩
    · have := small (K := B) s (by have := h.slack; omega : B ≤ G)
      simp only [manyT]
      omega
    · cases he
  | n + 1, s, hD, e, he => by
    have hsl := h.slack
    have hsm := small (K := B + 1 + K) s hsl
    rw [Nat.add_mul, Nat.add_mul] at hsm
    unfold manyT at he ⊢
    rcases bind_cases (litT [','] s) (fun _ r => p r) with ⟨_, r1, h1, hr, hs⟩ | ⟨hf, hr, hs⟩
    · have h1 : lit [','] s = .ok _ r1 := h1
      have hp := pay_lit (K := B + 1 + K) h1 hsl
      rw [Nat.add_mul, Nat.add_mul] at hp
      have hD1 : height r1 ≤ D := by rw [height_lit (by decide) h1]; exact hD
      have hany := h.any r1 hD1
      have hAG : A * r1.length ≤ G * r1.length := Nat.mul_le_mul_right _ h.le
      have hle := h.le
      have el : (litT [','] s).steps = blanks s + 1 := rfl
      rw [el] at hs
      cases hres : (p r1).res with
      | ok a r2 =>
        rw [hres] at hr
        simp only [hr, hs] at he ⊢
        obtain ⟨hD2, hle2, hc⟩ := h.ok r1 a r2 hD1 hres
        have he' : Owed K (manyT (fun s => (litT [','] s).bind fun _ r => p r) n r2) e := by
          rcases he with he | ⟨as, r, he, e'⟩
          · exact .inl he
          · obtain ⟨as', h3, _⟩ := PR.map_eq_ok.1 he
            exact .inr ⟨as', r, h3, e'⟩
        rcases hc with hc | ⟨hc, hA⟩
        · have ih := manyT_row h n r2 hD2 e he'
          have hc2 := hc.2
          omega
        · -- no comma follows
          have hx : (manyT (fun s => (litT [','] s).bind fun _ r => p r) n r2).steps + e ≤ (1 + K) * (r1.length + 1) := by
            have hb := blanks_le r2
            have hb1 : (1 + K) * (blanks r2 + 1) ≤ (1 + K) * (r1.length + 1) := Nat.mul_le_mul_left _ (by omega)
            have hb2 : (1 + K) * (blanks r2 + 1) = (blanks r2 + 1) + K * (blanks r2 + 1) := by rw [Nat.add_mul, Nat.one_mul]
            cases n with
            | zero =>
              rcases he' with rfl | ⟨a, r, he, _⟩
              · simp only [manyT]; omega
              · cases he
            | succ n =>
              have e1 : manyT (fun s => (litT [','] s).bind fun _ r => p r) (n + 1) r2 = ⟨.ok [] r2, blanks r2 + 1⟩ := by
                simp [manyT, Timed.bind, litT, hc]
              rw [e1] at he' ⊢
              rcases he' with rfl | ⟨a, r, he2, rfl⟩
              · show blanks r2 + 1 + _ ≤ _
                omega
              · have he2 : (PR.ok [] r2 : PR (List α)) = .ok a r := he2
                cases he2
                show blanks r2 + 1 + _ ≤ _
                omega
          have hG : (A + 1 + K) * (r1.length + 1) ≤ G * (r1.length + 1) := Nat.mul_le_mul_right _ hA
          rw [Nat.add_mul, Nat.add_mul, Nat.one_mul, Nat.mul_add A, Nat.mul_one, Nat.mul_add G, Nat.mul_one] at hG
          rw [Nat.add_mul, Nat.one_mul] at hx
          omega
      | fail =>
        rw [hres] at hr
        simp only [hr, hs] at he ⊢
        have : e ≤ K * (blanks s + 1) := by
          rcases he with rfl | ⟨a, r, he, rfl⟩
          · exact Nat.zero_le _
          · cases he; exact Nat.le_refl _
        omega
      | expect q =>
        rw [hres] at hr
        simp only [hr, hs] at he ⊢
        have : e = 0 := by
          rcases he with rfl | ⟨a, r, he, rfl⟩
          · rfl
          · cases he
        omega
      | hang =>
        rw [hres] at hr
        simp only [hr, hs] at he ⊢
        have : e = 0 := by
          rcases he with rfl | ⟨a, r, he, rfl⟩
          · rfl
          · cases he
        omega
    · have hl : lit [','] s = .fail := by
        rcases lit_ok_or_fail [','] s with ⟨r, h⟩ | h
        · exact absurd h (hf _ _)
        · exact h
      have e1 : ((litT [','] s).bind fun _ r => p r) = ⟨.fail, blanks s + 1⟩ := by simp [Timed.bind, litT, hl]
      rw [e1] at he ⊢
      simp only [] at he ⊢
      have : e ≤ K * (blanks s + 1) := by
        rcases he with rfl | ⟨a, r, he, rfl⟩
        · exact Nat.zero_le _
        · cases he; exact Nat.le_refl _
      omega

theorem sepBy1T_row {p : TP α} {D A G B K : Nat} (h : Rowed p D A G B K) {n s e} (hD : height s ≤ D) (he : Owed K (sepBy1T p [','] n s) e) :
    (sepBy1T p [','] n s).steps + e ≤ G * s.length + G := by
  have hany := h.any s hD
  have hle := h.le
  have hAG : A * s.length ≤ G * s.length := Nat.mul_le_mul_right _ h.le
  unfold sepBy1T at he ⊢
  rcases bind_cases (p s) (fun a r => (manyT (fun s => (litT [','] s).bind fun _ r => p r) n r).map (a :: ·)) with ⟨a, r2, h1, hr, hs⟩ | ⟨_, hr, hs⟩
  · rw [hs]
    obtain ⟨hD2, hle2, hc⟩ := h.ok s a r2 hD h1
    have he' : Owed K (manyT (fun s => (litT [','] s).bind fun _ r => p r) n r2) e := by
      rcases he with he | ⟨as, r, he, e'⟩
      · exact .inl he
      · rw [hr] at he
        obtain ⟨as', h3, _⟩ := PR.map_eq_ok.1 he
        exact .inr ⟨as', r, h3, e'⟩
    rw [show ((manyT (fun s => (litT [','] s).bind fun _ r => p r) n r2).map (a :: ·)).steps = (manyT (fun s => (litT [','] s).bind fun _ r => p r) n r2).steps from rfl]
    rcases hc with hc | ⟨hc, hA⟩
    · have ih := manyT_row h n r2 hD2 e he'
      have hc2 := hc.2
      omega
    · have hx : (manyT (fun s => (litT [','] s).bind fun _ r => p r) n r2).steps + e ≤ (1 + K) * (s.length + 1) := by
        have hb := blanks_le r2
        have hb1 : (1 + K) * (blanks r2 + 1) ≤ (1 + K) * (s.length + 1) := Nat.mul_le_mul_left _ (by omega)
        have hb2 : (1 + K) * (blanks r2 + 1) = (blanks r2 + 1) + K * (blanks r2 + 1) := by rw [Nat.add_mul, Nat.one_mul]
        cases n with
        | zero =>
          rcases he' with rfl | ⟨a, r, he, _⟩
          · simp only [manyT]; omega
          · cases he
        | succ n =>
          have e1 : manyT (fun s => (litT [','] s).bind fun _ r => p r) (n + 1) r2 = ⟨.ok [] r2, blanks r2 + 1⟩ := by
            simp [manyT, Timed.bind, litT, hc]
          rw [e1] at he' ⊢
          rcases he' with rfl | ⟨a, r, he2, rfl⟩
          · show blanks r2 + 1 + _ ≤ _
            omega
          · have he2 : (PR.ok [] r2 : PR (List α)) = .ok a r := he2
            cases he2
            show blanks r2 + 1 + _ ≤ _
            omega
      have hG : (A + 1 + K) * (s.length + 1) ≤ G * (s.length + 1) := Nat.mul_le_mul_right _ hA
      rw [Nat.add_mul, Nat.add_mul, Nat.one_mul, Nat.mul_add A, Nat.mul_one, Nat.mul_add G, Nat.mul_one] at hG
      rw [Nat.add_mul, Nat.one_mul] at hx
      omega
  · rw [hs]
    rcases he with rfl | ⟨a, r, he, _⟩
    · omega
    · exact absurd he (hr _ _)

end PBfs
