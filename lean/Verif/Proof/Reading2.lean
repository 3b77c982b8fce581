import Verif.Proof.Reading
import Verif.Proof.ParserPos
/-!
# The number of steps for what is read successfully

`Cheap F S B s r c`: reading from `s` to `r` took at most `F` steps per character, `S` for each blank in front of it less, and `B` for each blank
behind it more: white space behind a term is passed several times before it is known that the term is complete.  Literals pay for that.
-/
namespace PBfs

namespace Timed

theorem bind_ok {x : Timed α} {k : α → List Char → Timed β} {b r'} (h : (x.bind k).res = .ok b r') :
    ∃ a r, x.res = .ok a r ∧ (k a r).res = .ok b r' ∧ (x.bind k).steps = x.steps + (k a r).steps := by
  unfold bind at *
  cases hx : x.res with
  | ok a r => rw [hx] at h; exact ⟨a, r, rfl, h, by simp⟩
  | _ => rw [hx] at h; cases h

theorem bind_fail {x : Timed α} {k : α → List Char → Timed β} (h : (x.bind k).res = .fail) :
    (x.res = .fail ∧ (x.bind k).steps = x.steps) ∨
    ∃ a r, x.res = .ok a r ∧ (k a r).res = .fail ∧ (x.bind k).steps = x.steps + (k a r).steps := by
  unfold bind at *
  cases hx : x.res with
  | ok a r => rw [hx] at h; exact .inr ⟨a, r, rfl, h, by simp⟩
  | fail => exact .inl ⟨rfl, by simp⟩
  | _ => rw [hx] at h; cases h

theorem orElse_ok {x y : Timed α} {a r} (h : (x.orElse y).res = .ok a r) :
    (x.res = .ok a r ∧ (x.orElse y).steps = x.steps) ∨
    (x.res = .fail ∧ y.res = .ok a r ∧ (x.orElse y).steps = x.steps + y.steps) := by
  unfold orElse at *
  cases hx : x.res with
  | fail => rw [hx] at h; exact .inr ⟨rfl, h, by simp⟩
  | ok b r' => rw [hx] at h; simp only [] at h; rw [hx] at h; exact .inl ⟨h, by simp⟩
  | _ => rw [hx] at h; simp only [] at h; rw [hx] at h; cases h

theorem orElse_fail {x y : Timed α} (h : (x.orElse y).res = .fail) :
    x.res = .fail ∧ y.res = .fail ∧ (x.orElse y).steps = x.steps + y.steps := by
  unfold orElse at *
  cases hx : x.res with
  | fail => rw [hx] at h; exact ⟨rfl, h, by simp⟩
  | _ => rw [hx] at h; simp only [] at h; rw [hx] at h; cases h

theorem map_ok {x : Timed α} {f : α → β} {b r} (h : (x.map f).res = .ok b r) : ∃ a, x.res = .ok a r ∧ f a = b :=
  PR.map_eq_ok.1 h

theorem must_ok {x : Timed α} {q a r} (h : (x.must q).res = .ok a r) : x.res = .ok a r := PR.must_eq_ok.1 h

end Timed

open Timed

/-! ## White space and literals -/

theorem skipWs_le (s : List Char) : (skipWs s).length ≤ s.length := (List.dropWhile_suffix _).length_le

theorem blanks_add (s : List Char) : blanks s + (skipWs s).length = s.length := by
  have := skipWs_le s; unfold blanks; omega

theorem exactly_length : ∀ {t s u r}, exactly t s = .ok u r → t.length + r.length = s.length
  | [], s, u, r, h => by simp only [exactly, PR.ok.injEq] at h; simp [h.2]
  | c :: cs, [], u, r, h => by cases h
  | c :: cs, d :: s, u, r, h => by
    simp only [exactly] at h
    split at h
    · have := exactly_length h; simp; omega
    · cases h

theorem lit_span {t s u r} (h : lit t s = .ok u r) : t.length + r.length + blanks s = s.length := by
  have := exactly_length (show exactly t (skipWs s) = .ok u r from h)
  have := blanks_add s
  omega

/-- What begins with one character does not begin with another. -/
theorem lit_other {c d : Char} {cs ds s u r} (h : lit (c :: cs) s = .ok u r) (hcd : c ≠ d) : lit (d :: ds) s = .fail := by
  unfold lit at *
  cases hs : skipWs s with
  | nil => rfl
  | cons e s' =>
    rw [hs] at h
    simp only [exactly] at h ⊢
    split at h
    · rename_i he; subst he; rw [if_neg hcd]
    · cases h

theorem lit_ok_or_fail (t s) : (∃ r, lit t s = .ok () r) ∨ lit t s = .fail := by
  unfold lit
  generalize skipWs s = u
  induction t generalizing u with
  | nil => exact .inl ⟨u, rfl⟩
  | cons c cs ih =>
    cases u with
    | nil => exact .inr rfl
    | cons d u =>
      simp only [exactly]
      split
      · exact ih u
      · exact .inr rfl

/-! ## Paying -/

/-- Characters that were passed pay for steps. -/
theorem pay {F K : Nat} {r s : List Char} {x : Nat} (h : r.length + x ≤ s.length) (hK : K ≤ F) : K * x + F * r.length ≤ F * s.length := by
  have h1 : F * (r.length + x) ≤ F * s.length := Nat.mul_le_mul_left F h
  have h2 : K * x ≤ F * x := Nat.mul_le_mul_right x hK
  rw [Nat.mul_add] at h1
  omega

theorem pay_lit {F K : Nat} {c cs s u r} (h : lit (c :: cs) s = .ok u r) (hK : K ≤ F) : K * (blanks s + 1) + F * r.length ≤ F * s.length :=
  pay (by have := lit_span h; simp at this; omega) hK

/-- A higher rate. -/
theorem raise {F G X Y : Nat} {r s : List Char} (h : X + F * r.length ≤ F * s.length + Y) (hFG : F ≤ G) (hl : r.length ≤ s.length) :
    X + G * r.length ≤ G * s.length + Y := by
  obtain ⟨k, rfl⟩ := Nat.exists_eq_add_of_le hFG
  have : k * r.length ≤ k * s.length := Nat.mul_le_mul_left k hl
  simp only [Nat.add_mul]
  omega

/-- See above. -/
def Cheap (F S B : Nat) (s r : List Char) (c : Nat) : Prop :=
  r.length + blanks s + 1 ≤ s.length ∧ c + S * (blanks s + 1) + F * r.length ≤ F * s.length + B * (blanks r + 1)

theorem Cheap.raise {F G S B s r c} (h : Cheap F S B s r c) (hFG : F ≤ G) : Cheap G S B s r c :=
  ⟨h.1, PBfs.raise h.2 hFG (by have := h.1; omega)⟩

theorem Cheap.weaken {F S B S' B' s r c} (h : Cheap F S B s r c) (hS : S' ≤ S) (hB : B ≤ B') : Cheap F S' B' s r c := by
  refine ⟨h.1, ?_⟩
  have h1 := h.2
  have h2 : S' * (blanks s + 1) ≤ S * (blanks s + 1) := Nat.mul_le_mul_right _ hS
  have h3 : B * (blanks r + 1) ≤ B' * (blanks r + 1) := Nat.mul_le_mul_right _ hB
  omega

/-! ## Words and numbers -/

theorem dropWhile_take_length (p : Char → Bool) (s : List Char) : (s.takeWhile p).length + (s.dropWhile p).length = s.length := by
  rw [← List.length_append, List.takeWhile_append_dropWhile]

theorem word_span {p s w r} (h : word p s = .ok w r) : w.length + r.length + blanks s = s.length ∧ 1 ≤ w.length := by
  unfold word at h
  have hb := blanks_add s
  cases hs : skipWs s with
  | nil => rw [hs] at h; cases h
  | cons c s' =>
    rw [hs] at h hb
    simp only [] at h
    split at h
    · cases h
      have := dropWhile_take_length isWord s'
      simp at hb ⊢
      omega
    · cases h

theorem wordT_ok {p s w r} (h : word p s = .ok w r) : (wordT p s).steps = blanks s + 1 + w.length := by simp [wordT, h]
theorem wordT_fail {p s} (h : word p s = .fail) : (wordT p s).steps = blanks s + 1 := by simp [wordT, h]

theorem number_span {s a r} (h : numberP s = .ok a r) : r.length + 1 ≤ (skipWs s).length := by
  refine numberP_length (a := a) ?_
  rw [numberP_eq, skipWs_skipWs, ← numberP_eq, h]

theorem numberT_ok {s a r} (h : numberP s = .ok a r) : (numberT s).steps = blanks s + 2 + ((skipWs s).length - r.length) := by simp [numberT, h]
theorem numberT_fail {s} (h : numberP s = .fail) : (numberT s).steps = blanks s + 2 := by simp [numberT, h]

theorem variableT_cheap {F s a r} (h : (variableT s).res = .ok a r) (hF : 16 ≤ F) : Cheap F 7 0 s r (variableT s).steps := by
  obtain ⟨w, hw, rfl⟩ := map_ok h
  have hl := word_span (show word isUpper s = .ok w r from hw)
  have hs : (variableT s).steps = blanks s + 1 + w.length := wordT_ok hw
  have := pay (F := F) (K := 16) (r := r) (s := s) (x := blanks s + w.length) (by omega) hF
  exact ⟨by omega, by omega⟩

theorem variableT_fail {s} (h : (variableT s).res = .fail) : (variableT s).steps = blanks s + 1 := wordT_fail (PR.map_eq_fail.1 h)

/-! ## Expressions -/

/-- What `p` reads it reads cheaply. -/
def CheapP (p : TP α) (F S B : Nat) : Prop := ∀ s a r, (p s).res = .ok a r → Cheap F S B s r (p s).steps

theorem valueT_cheap {ex : TP Node} {F : Nat} (hF : 16 ≤ F) (hex : CheapP ex F 5 5) : CheapP (valueT ex) F 5 0 := by
  intro s a r h
  unfold valueT at h ⊢
  rcases orElse_ok h with ⟨h1, hs⟩ | ⟨h1, h2, hs⟩
  · rw [hs]; exact (variableT_cheap h1 hF).weaken (by omega) (by omega)
  · have hv := variableT_fail h1
    rw [hs, hv]
    clear hs hv h
    rcases orElse_ok h2 with ⟨h3, hs⟩ | ⟨h3, h4, hs⟩
    · have hn : numberP s = .ok a r := h3
      have hl := number_span hn
      rw [hs, numberT_ok hn]
      have hb := blanks_add s
      have := pay (F := F) (K := 16) (r := r) (s := s) (x := blanks s + ((skipWs s).length - r.length)) (by omega) hF
      exact ⟨by omega, by omega⟩
    · have hn := numberT_fail (show numberP s = .fail from h3)
      rw [hs, hn]
      clear hs hn h2
      obtain ⟨_, r0, h5, h6, hs⟩ := bind_ok h4
      rw [hs]
      clear hs h4
      obtain ⟨e, r1, h7, h8, hs⟩ := bind_ok h6
      rw [hs]
      clear hs h6
      obtain ⟨_, h9, _⟩ := map_ok h8
      have h9 : lit [')'] r1 = .ok _ r := must_ok h9
      have h5 : lit ['('] s = .ok _ r0 := h5
      have he := hex _ _ _ (must_ok h7)
      have h10 := pay_lit (K := 10) h5 (by omega : 10 ≤ F)
      have h11 := pay_lit (K := 16) h9 hF
      have hl0 := lit_span h5
      have hl1 := lit_span h9
      simp only [List.length_cons, List.length_nil] at hl0 hl1
      have he1 := he.1
      have he2 := he.2
      refine ⟨by omega, ?_⟩
      show blanks s + 1 + (blanks s + 2 + (blanks s + 1 + ((ex r0).steps + (blanks r1 + 1)))) + _ + _ ≤ _
      omega

/-- The links pay for `K` more steps at each blank in front of them. -/
theorem chainedT_ok {operand : TP Node} {F S B K : Nat} (ho : CheapP operand F S B) :
    ∀ (ops : List Name), (∀ op ∈ ops, op ≠ []) → K + ops.length ≤ F → ∀ {s a r}, (chainedT operand ops s).res = .ok a r →
      r.length ≤ s.length ∧ (chainedT operand ops s).steps + K * (blanks s + 1) + F * r.length ≤ F * s.length + B * (blanks r + 1)
  | [], _, _, s, a, r, h => by cases h
  | op :: ops, hne, hK, s, a, r, h => by
    unfold chainedT at h ⊢
    simp only [List.length_cons] at hK
    rcases orElse_ok h with ⟨h1, hs⟩ | ⟨h1, h2, hs⟩
    · rw [hs]
      obtain ⟨_, r0, h3, h4, hs⟩ := bind_ok h1
      rw [hs]
      obtain ⟨v, h5, _⟩ := map_ok h4
      have h3 : lit op s = .ok _ r0 := h3
      have hc := ho _ _ _ (must_ok h5)
      cases op with
      | nil => exact absurd rfl (hne [] (by simp))
      | cons c cs =>
        have h6 := pay_lit (K := K + 1) h3 (by omega : K + 1 ≤ F)
        have hl := lit_span h3
        have hc1 := hc.1
        have hc2 := hc.2
        refine ⟨by simp at hl; omega, ?_⟩
        show blanks s + 1 + (operand r0).steps + _ + _ ≤ _
        rw [Nat.add_mul] at h6
        have : 0 ≤ S * (blanks r0 + 1) := Nat.zero_le _
        omega
    · rw [hs]
      have h3 : ((litT op s).bind fun _ r => ((operand r).must r).map fun v => (op, v)).steps = blanks s + 1 := by
        rcases bind_fail h1 with ⟨_, h⟩ | ⟨a', r', _, h, _⟩
        · rw [h]; rfl
        · exact absurd (PR.map_eq_fail.1 h) PR.must_ne_fail
      rw [h3]
      have ih := chainedT_ok (K := K + 1) ho ops (fun o h => hne o (by simp [h])) (by omega) h2
      refine ⟨ih.1, ?_⟩
      have := ih.2
      rw [Nat.add_mul] at this
      omega

theorem chainedT_fail {operand : TP Node} : ∀ (ops : List Name) {s}, (chainedT operand ops s).res = .fail →
    (chainedT operand ops s).steps = ops.length * (blanks s + 1)
  | [], s, _ => by simp [chainedT]
  | op :: ops, s, h => by
    unfold chainedT at h ⊢
    obtain ⟨h1, h2, hs⟩ := orElse_fail h
    rw [hs, chainedT_fail ops h2]
    have h3 : ((litT op s).bind fun _ r => ((operand r).must r).map fun v => (op, v)).steps = blanks s + 1 := by
      rcases bind_fail h1 with ⟨_, h⟩ | ⟨a', r', _, h, _⟩
      · rw [h]; rfl
      · exact absurd (PR.map_eq_fail.1 h) PR.must_ne_fail
    rw [h3]
    simp [Nat.add_mul]
    omega

theorem manyT_chained {operand : TP Node} {F S B : Nat} (ho : CheapP operand F S B) {ops : List Name} (hne : ∀ op ∈ ops, op ≠ [])
    (hF : B + ops.length ≤ F) : ∀ n {s as r}, (manyT (chainedT operand ops) n s).res = .ok as r →
      r.length ≤ s.length ∧
      (manyT (chainedT operand ops) n s).steps + B * (blanks s + 1) + F * r.length ≤ F * s.length + (B + ops.length) * (blanks r + 1)
  | 0, s, as, r, h => by cases h
  | n + 1, s, as, r, h => by
    unfold manyT at h ⊢
    cases hp : (chainedT operand ops s).res with
    | ok a r1 =>
      rw [hp] at h
      simp only [] at h ⊢
      obtain ⟨as', h1, _⟩ := PR.map_eq_ok.1 h
      have ih := manyT_chained ho hne hF n h1
      have hc := chainedT_ok (K := B) ho ops hne hF hp
      have := ih.1; have := ih.2; have := hc.1; have := hc.2
      exact ⟨by omega, by omega⟩
    | fail =>
      rw [hp] at h
      simp only [PR.ok.injEq] at h ⊢
      obtain ⟨_, rfl⟩ := h
      rw [chainedT_fail ops hp]
      refine ⟨Nat.le_refl _, ?_⟩
      rw [Nat.add_mul]
      omega
    | expect q => rw [hp] at h; cases h
    | hang => rw [hp] at h; cases h

theorem chainT_cheap {operand : TP Node} {F S B : Nat} (ho : CheapP operand F S B) {ops : List Name} (hne : ∀ op ∈ ops, op ≠ [])
    (hF : B + ops.length ≤ F) : CheapP (chainT operand ops) F S (B + ops.length) := by
  intro s a r h
  unfold chainT at h ⊢
  obtain ⟨v, r1, h1, h2, hs⟩ := bind_ok h
  rw [hs]
  obtain ⟨cs, h3, _⟩ := map_ok h2
  have hm := manyT_chained ho hne hF _ h3
  have ho := ho _ _ _ h1
  have := hm.1; have hm2 := hm.2; have := ho.1; have := ho.2
  refine ⟨by omega, ?_⟩
  show (operand s).steps + (manyT (chainedT operand ops) (r1.length + 1) r1).steps + _ + _ ≤ _
  omega

theorem powerT_cheap {ex : TP Node} {F : Nat} (hF : 16 ≤ F) (hex : CheapP ex F 5 5) : CheapP (powerT ex) F 5 1 := by
  intro s a r h
  unfold powerT at h ⊢
  obtain ⟨v, r1, h1, h2, hs⟩ := bind_ok h
  rw [hs]
  have hv := valueT_cheap hF hex _ _ _ h1
  have hv1 := hv.1
  have hv2 := hv.2
  have hne : ∀ op ∈ [n!"^"], op ≠ [] := by simp
  rcases orElse_ok h2 with ⟨h3, hs⟩ | ⟨h3, h4, hs⟩
  · rw [hs]
    obtain ⟨c, h5, _⟩ := map_ok h3
    have hc := chainedT_ok (K := 0) (valueT_cheap hF hex) [n!"^"] hne (by simp; omega) h5
    have hc1 := hc.1
    have hc2 := hc.2
    refine ⟨by omega, ?_⟩
    show (valueT ex s).steps + (chainedT (valueT ex) [n!"^"] r1).steps + _ + _ ≤ _
    omega
  · rw [hs]
    simp only [PR.ok.injEq] at h4
    obtain ⟨_, rfl⟩ := h4
    have h5 : (chainedT (valueT ex) [n!"^"] r1).steps = _ := chainedT_fail _ (PR.map_eq_fail.1 h3)
    simp only [List.length_cons, List.length_nil] at h5
    refine ⟨by omega, ?_⟩
    show (valueT ex s).steps + ((chainedT (valueT ex) [n!"^"] r1).steps + 0) + _ + _ ≤ _
    omega

theorem expressionT_cheap {F : Nat} (hF : 16 ≤ F) : ∀ n, CheapP (expressionT n) F 5 5
  | 0 => fun _ _ _ h => by cases h
  | n + 1 => chainT_cheap (chainT_cheap (powerT_cheap hF (expressionT_cheap hF n)) (ops := [n!"*", n!"//"]) (by simp) (by simp; omega))
      (ops := [n!"+", n!"-"]) (by simp) (by simp; omega)

/-- An expression does not begin with a bracket. -/
theorem value_no_bracket {ex : P Node} {s a r} (h : valueP ex s = .ok a r) : lit ['['] s = .fail := by
  rcases lit_ok_or_fail ['['] s with ⟨r', hb⟩ | hb
  · exfalso
    have hs : ∃ u, skipWs s = '[' :: u := by
      unfold lit at hb
      cases hs : skipWs s with
      | nil => rw [hs] at hb; cases hb
      | cons c u =>
        rw [hs] at hb
        simp only [exactly] at hb
        split at hb
        · rename_i hc; exact ⟨u, by rw [hc]⟩
        · cases hb
    obtain ⟨u, hs⟩ := hs
    unfold valueP at h
    have h1 : variableP s = .fail := by simp [variableP, word, hs, isUpper]
    have h2 : numberP s = .fail := by simp [numberP, hs, isDigit, List.takeWhile]
    have h3 : lit ['('] s = .fail := by simp [lit, hs, exactly]
    rw [h1, h2, h3] at h
    cases h
  · exact hb

theorem chain_first {operand : P Node} {ops s a r} (h : chainP operand ops s = .ok a r) : ∃ v r', operand s = .ok v r' := by
  obtain ⟨v, r', h1, _⟩ := PR.bind_eq_ok.1 h
  exact ⟨v, r', h1⟩

theorem expression_no_bracket : ∀ n {s a r}, expressionP n s = .ok a r → lit ['['] s = .fail
  | 0, s, a, r, h => by cases h
  | n + 1, s, a, r, h => by
    obtain ⟨_, _, h1⟩ := chain_first h
    obtain ⟨_, _, h2⟩ := chain_first h1
    obtain ⟨_, _, h3, _⟩ := PR.bind_eq_ok.1 h2
    exact value_no_bracket h3

end PBfs
