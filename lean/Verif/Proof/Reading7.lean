import Verif.Proof.Reading6
/-!
# The time for texts that are rejected: terms, goals, clauses
-/
namespace PBfs

open Timed

/-- The price of a character of a text that is perhaps rejected, inside of so many brackets. -/
def price : Nat → Nat
  | 0 => 32
  | d + 1 => 2 * price d + 32

theorem price_ge : ∀ d, 32 ≤ price d
  | 0 => Nat.le_refl _
  | d + 1 => by simp [price]

theorem rate_price : ∀ d, rate d ≤ price d
  | 0 => by decide
  | d + 1 => by
    have := rate_price d
    simp only [rate, price]
    omega

theorem price_eq : ∀ d, price d + 32 = 64 * 2 ^ d
  | 0 => rfl
  | d + 1 => by
    have := price_eq d
    simp only [price, Nat.pow_succ]
    omega

/-! ## Terms -/

/-- However it ends, where the brackets are not deeper than that. -/
def Bound' (p : TP Node) (D H : Nat) : Prop := ∀ s, height s ≤ D → (p s).steps ≤ H * s.length + H

theorem element_row {el : TP Node} {D H : Nat} (hf : Fair el 0 5) {q : P Node} (he : Erases el q) (hl : Low q) (ha : Bound' el D H) (hH : 32 ≤ H) (hr : rate D ≤ H) :
    Rowed el D H H 5 1 where
  any := ha
  ok := by
    intro s a r hD h
    have hl := hl s a r (by rw [← he s, h])
    have hc := (hf _ _ _ h).raise (G := H) (Nat.le_trans (rate_mono (by omega)) hr)
    exact ⟨by omega, by have := hc.1; omega, .inl hc⟩
  le := Nat.le_refl _
  slack := by omega

theorem functorT_all {el : TP Node} {D H : Nat} (h : Rowed el D H H 5 1) (hH : 32 ≤ H) : Bound' (functorT el) D H := by
  intro s hD
  have hw := wordT_all isLower s
  have h32 : 32 * s.length ≤ H * s.length := Nat.mul_le_mul_right _ hH
  unfold functorT
  rcases bind_cases (wordT isLower s) _ with ⟨w, r0, h1, _, hs⟩ | ⟨_, _, hs⟩
  · rw [hs]
    have h1 : word isLower s = .ok w r0 := h1
    have hsp := word_span h1
    have hD0 := height_word (by decide) (by decide) h1
    rw [wordT_ok h1]
    rcases bind_cases (exactlyT ['('] r0) _ with ⟨_, r1, h2, _, hs⟩ | ⟨_, _, hs⟩
    · rw [hs]
      have h2 : exactly ['('] r0 = .ok _ r1 := h2
      have hl2 := exactly_length h2
      have hD1 := height_exactly (by decide) h2
      simp only [List.length_cons, List.length_nil] at hl2
      have hp := pay (F := H) (K := 16) (r := r1) (s := s) (x := blanks s + w.length + 1) (by omega) (by omega)
      have e : (exactlyT ['('] r0).steps = 1 := rfl
      rw [e]
      rcases bind_cases ((sepBy1T el [','] (r1.length + 1) r1).must r1) _ with ⟨as, r2, h3, _, hs⟩ | ⟨_, _, hs⟩
      · rw [hs]
        have := sepBy1T_row h (s := r1) (n := r1.length + 1) (e := 1 * (blanks r2 + 1)) (by omega) (.inr ⟨as, r2, must_ok h3, rfl⟩)
        show _ + (_ + ((sepBy1T el [','] (r1.length + 1) r1).steps + (blanks r2 + 1))) ≤ _
        omega
      · rw [hs]
        have := sepBy1T_row h (s := r1) (n := r1.length + 1) (e := 0) (by omega) (.inl rfl)
        show _ + (_ + (sepBy1T el [','] (r1.length + 1) r1).steps) ≤ _
        omega
    · rw [hs]
      show _ + 1 ≤ _
      omega
  · rw [hs]
    omega

theorem listT_all {el ls : TP Node} {D H : Nat} (h : Rowed el D H H 5 1) (hf : Fair el 0 5) (hfl : Fair ls 2 0) {q : P Node} (he : Erases el q) (hlow : Low q)
    {q' : P Node} (he' : Erases ls q') (hlow' : Low q') (hl : Bound' ls D H) (hH : 32 ≤ H) (hrate : rate D ≤ H) {s u t} (ht : lit ['['] s = .ok u t) (hD : height t ≤ D) :
    (listT el ls s).steps ≤ (2 * H + 8) * s.length + (2 * H + 8) := by
  have hsp := lit_span ht
  simp only [List.length_cons, List.length_nil] at hsp
  have hb := blanks_le t
  have e0 : (litT ['['] s).steps = blanks s + 1 := rfl
  have h0 : (litT ['['] s).res = .ok u t := ht
  have hHt : H * t.length ≤ H * s.length := Nat.mul_le_mul_left _ (by omega)
  -- the three alternatives
  have a1 : ((litT ['['] s).bind fun _ r => (litT [']'] r).map fun _ => Node.nil).steps ≤ 2 * s.length + 2 := by
    rw [Timed.bind, h0]
    show (litT ['['] s).steps + (blanks t + 1) ≤ _
    rw [e0]
    omega
  have a2 : ((litT ['['] s).bind fun _ r => (sepBy1T el [','] (r.length + 1) r).bind fun cs r => (litT [']'] r).map fun _ => Node.list cs).steps ≤
      s.length + 1 + (H * s.length + H) := by
    rw [Timed.bind, h0]
    show (litT ['['] s).steps + ((sepBy1T el [','] (t.length + 1) t).bind fun cs r => (litT [']'] r).map fun _ => Node.list cs).steps ≤ _
    rw [e0]
    rcases bind_cases (sepBy1T el [','] (t.length + 1) t) (fun cs r => (litT [']'] r).map fun _ => Node.list cs) with ⟨as, r, h1, _, hs⟩ | ⟨_, _, hs⟩
    · rw [hs]
      have := sepBy1T_row h (s := t) (n := t.length + 1) (e := 1 * (blanks r + 1)) hD (.inr ⟨as, r, h1, rfl⟩)
      show _ + (_ + (blanks r + 1)) ≤ _
      omega
    · rw [hs]
      have := sepBy1T_row h (s := t) (n := t.length + 1) (e := 0) hD (.inl rfl)
      omega
  have a3 : ((litT ['['] s).bind fun _ r => (sepBy1T el [','] (r.length + 1) r).bind fun cs r => (litT ['|'] r).bind fun _ r =>
      ((variableT r).orElse (ls r)).bind fun t r => (litT [']'] r).map fun _ => Node.listWith t cs).steps ≤ s.length + 1 + (H * s.length + H) := by
    rw [Timed.bind, h0]
    show (litT ['['] s).steps + ((sepBy1T el [','] (t.length + 1) t).bind fun cs r => (litT ['|'] r).bind fun _ r =>
      ((variableT r).orElse (ls r)).bind fun t r => (litT [']'] r).map fun _ => Node.listWith t cs).steps ≤ _
    rw [e0]
    rcases bind_cases (sepBy1T el [','] (t.length + 1) t) (fun cs r => (litT ['|'] r).bind fun _ r =>
      ((variableT r).orElse (ls r)).bind fun t r => (litT [']'] r).map fun _ => Node.listWith t cs) with ⟨as, r, h1, _, hs⟩ | ⟨_, _, hs⟩
    · rw [hs]
      have hrow := sepBy1T_row h (s := t) (n := t.length + 1) (e := 1 * (blanks r + 1)) hD (.inr ⟨as, r, h1, rfl⟩)
      have e1 : (litT ['|'] r).steps = blanks r + 1 := rfl
      rcases bind_cases (litT ['|'] r) (fun _ r => ((variableT r).orElse (ls r)).bind fun t r => (litT [']'] r).map fun _ => Node.listWith t as) with
        ⟨_, r1, h2, _, hs⟩ | ⟨_, _, hs⟩
      · rw [hs, e1]
        have h2 : lit ['|'] r = .ok _ r1 := h2
        have hlow1 := sepBy1_low hlow _ _ _ _ (by rw [← sepBy1T_res he]; exact h1)
        have hc := (hf.args h1 (fun a ha => Nat.le_trans (hlow1.2 a ha) hD) h2 (by decide)).2.raise hrate
        have hc1 := hc.1
        have hc2 := hc.2
        have hp := pay_lit (F := H) (K := 16) h2 (by omega)
        have hsp1 := lit_span h2
        simp only [List.length_cons, List.length_nil] at hsp1
        have hD1 : height r1 ≤ D := by rw [height_lit (by decide) h2]; omega
        have hv := wordT_all isUpper r1
        have hls := hl r1 hD1
        -- the rest behind the `|`
        have tail : ((variableT r1).orElse (ls r1)).steps ≤ H * r1.length + H + (blanks r1 + 1) ∧
            ∀ x r2, ((variableT r1).orElse (ls r1)).res = .ok x r2 → ((variableT r1).orElse (ls r1)).steps + (blanks r2 + 1) ≤ H * r1.length + H + (blanks r1 + 1) := by
          rcases orElse_cases (variableT r1) (ls r1) with ⟨h3, hr, hs⟩ | ⟨h3, hr, hs⟩
          · rw [hs, hr, variableT_fail h3]
            refine ⟨by omega, fun x r2 h4 => ?_⟩
            have hlow2 := hlow' r1 x r2 (by rw [← he' r1, h4])
            have hc := (hfl _ _ _ h4).raise (G := H) (Nat.le_trans (rate_mono (by omega)) hrate)
            have hc1 := hc.1
            have hc2 := hc.2
            have := small (F := H) (K := 1) r2 (by omega)
            omega
          · have e : (variableT r1).steps = (wordT isUpper r1).steps := rfl
            rw [hs, hr]
            have h32 : 32 * r1.length ≤ H * r1.length := Nat.mul_le_mul_right _ hH
            refine ⟨by omega, fun x r2 h4 => ?_⟩
            have hc := (variableT_cheap (F := H) h4 (by omega))
            have hc1 := hc.1
            have := blanks_le r2
            omega
        have hb1 := blanks_le r1
        have hr1 : (blanks r1 + 1) + H * r1.length ≤ 16 * (blanks r + 1) + H * r1.length + (r1.length + 1) := by omega
        rcases bind_cases ((variableT r1).orElse (ls r1)) (fun t r => (litT [']'] r).map fun _ => Node.listWith t as) with ⟨x, r2, h3, _, hs⟩ | ⟨_, _, hs⟩
        · rw [hs]
          have := tail.2 x r2 h3
          show _ + (_ + (_ + (_ + (blanks r2 + 1)))) ≤ _
          omega
        · rw [hs]
          have := tail.1
          omega
      · rw [hs, e1]
        omega
    · rw [hs]
      have := sepBy1T_row h (s := t) (n := t.length + 1) (e := 0) hD (.inl rfl)
      omega
  have hx : (2 * H + 8) * s.length = 2 * (H * s.length) + 8 * s.length := by rw [Nat.add_mul, Nat.mul_assoc]
  rw [hx]
  unfold listT
  rcases orElse_cases ((litT ['['] s).bind fun _ r => (litT [']'] r).map fun _ => Node.nil) (((litT ['['] s).bind fun _ r =>
      (sepBy1T el [','] (r.length + 1) r).bind fun cs r => (litT [']'] r).map fun _ => Node.list cs).orElse <|
    (litT ['['] s).bind fun _ r => (sepBy1T el [','] (r.length + 1) r).bind fun cs r =>
    (litT ['|'] r).bind fun _ r => ((variableT r).orElse (ls r)).bind fun t r =>
    (litT [']'] r).map fun _ => Node.listWith t cs) with ⟨_, _, hs⟩ | ⟨_, _, hs⟩
  · rw [hs]
    rcases orElse_cases ((litT ['['] s).bind fun _ r => (sepBy1T el [','] (r.length + 1) r).bind fun cs r => (litT [']'] r).map fun _ => Node.list cs)
      ((litT ['['] s).bind fun _ r => (sepBy1T el [','] (r.length + 1) r).bind fun cs r => (litT ['|'] r).bind fun _ r => ((variableT r).orElse (ls r)).bind fun t r =>
        (litT [']'] r).map fun _ => Node.listWith t cs) with ⟨_, _, hs⟩ | ⟨_, _, hs⟩
    · rw [hs]; omega
    · rw [hs]; omega
  · rw [hs]; omega

theorem elementListT_all : ∀ n D, Bound' (elementListT n).1 D (price D) ∧ Bound' (elementListT n).2 D (price D)
  | 0, D => ⟨fun s _ => Nat.zero_le _, fun s _ => Nat.zero_le _⟩
  | n + 1, D => by
    have hH := price_ge D
    have hf := (elementListT_cheap n).1
    have hfl := (elementListT_cheap n).2
    obtain ⟨he, he'⟩ := elementListT_res n
    obtain ⟨hlow, hlow'⟩ := elementList_low n
    have row := fun D => element_row hf he hlow (elementListT_all n D).1 (price_ge D) (rate_price D)
    -- lists
    have list : ∀ s, height s ≤ D → (listT (elementListT n).1 (elementListT n).2 s).steps + 24 * s.length + 24 ≤ price D * s.length + price D ∨
        lit ['['] s = .fail := by
      intro s hD
      rcases lit_ok_or_fail ['['] s with ⟨t, h⟩ | h
      · left
        have ho := height_open h
        cases D with
        | zero => omega
        | succ D =>
          have := listT_all (row D) hf hfl he hlow he' hlow' (elementListT_all n D).2 (price_ge D) (rate_price D) h (by omega)
          have e : price (D + 1) = 2 * price D + 8 + 24 := rfl
          rw [e, Nat.add_mul]
          omega
      · exact .inr h
    have h32 : ∀ s : List Char, 32 * s.length ≤ price D * s.length := fun s => Nat.mul_le_mul_right _ hH
    have key : ∀ s, height s ≤ D → (listT (elementListT n).1 (elementListT n).2 s).steps ≤ price D * s.length + price D := by
      intro s hD
      rcases list s hD with h | h
      · omega
      · rw [listT_fail h]
        have := small (F := price D) (K := 3) s (by omega)
        omega
    refine ⟨fun s hD => ?_, key⟩
    show ((functorT (elementListT n).1 s).orElse <| (constantT s).orElse <| (listT (elementListT n).1 (elementListT n).2 s).orElse (expressionT (n + 1) s)).steps ≤ _
    have hfun := functorT_all (row D) hH s hD
    have hcon : (constantT s).steps ≤ s.length + 1 := wordT_all isLower s
    have hexp := expressionT_all (F := 16) (Nat.le_refl _) (n + 1) s
    have hb := blanks_le s
    have h32 := h32 s
    rcases orElse_cases (functorT (elementListT n).1 s) ((constantT s).orElse <| (listT (elementListT n).1 (elementListT n).2 s).orElse (expressionT (n + 1) s)) with
      ⟨h1, _, hs⟩ | ⟨_, _, hs⟩
    · rw [hs]
      rcases functorT_fail h1 with ⟨hw, hs⟩ | ⟨w, r, hw, hs⟩
      · rw [hs]
        rcases orElse_cases (constantT s) ((listT (elementListT n).1 (elementListT n).2 s).orElse (expressionT (n + 1) s)) with ⟨h2, _, hs⟩ | ⟨_, _, hs⟩
        · rw [hs]
          rcases list s hD with h3 | h3
          · rcases orElse_cases (listT (elementListT n).1 (elementListT n).2 s) (expressionT (n + 1) s) with ⟨_, _, hs⟩ | ⟨_, _, hs⟩
            · rw [hs]; omega
            · rw [hs]; omega
          · have h4 := listT_fail (el := (elementListT n).1) (ls := (elementListT n).2) h3
            rcases orElse_cases (listT (elementListT n).1 (elementListT n).2 s) (expressionT (n + 1) s) with ⟨_, _, hs⟩ | ⟨_, _, hs⟩
            · rw [hs]; omega
            · rw [hs]; omega
        · rw [hs]; omega
      · have hsp := word_span hw
        have h2 : (constantT s).res ≠ .fail := by
          intro h2
          rw [(constantT_fail h2).1] at hw
          cases hw
        rcases orElse_cases (constantT s) ((listT (elementListT n).1 (elementListT n).2 s).orElse (expressionT (n + 1) s)) with ⟨h3, _, _⟩ | ⟨_, _, hs2⟩
        · exact absurd h3 h2
        · rw [hs, hs2]; omega
    · rw [hs]; exact hfun

theorem elementT_all (n D) : Bound' (elementT n) D (price D) := (elementListT_all n D).1

theorem elementT_row (n D) : Rowed (elementT n) D (price D) (price D) 5 1 :=
  element_row (elementT_cheap n) (elementT_res n) (element_low n) (elementT_all n D) (price_ge D) (rate_price D)

/-! ## Goals -/

theorem infixT_all {n D : Nat} {op : Name} (hop : ∃ c cs, op = c :: cs) (ho : ∀ c ∈ op, c ≠ '[' ∧ c ≠ ']') {rhs : TP Node} (hr : Bound' rhs D (price D)) :
    Bound' (infixT (elementT n) op rhs) D (price D) := by
  intro s hD
  obtain ⟨c, cs, rfl⟩ := hop
  have hH := price_ge D
  unfold infixT
  have hany := elementT_all n D s hD
  rcases bind_cases (elementT n s) (fun l r => (litT (c :: cs) r).bind fun _ r => (rhs r).map fun x => Node.fn (c :: cs) [l, x]) with ⟨l, r1, h1, _, hs⟩ | ⟨_, _, hs⟩
  · rw [hs]
    have hl := element_low n s l r1 (by rw [← elementT_res n s, h1])
    have hc := (elementT_cheap n _ _ _ h1).raise (G := price D) (Nat.le_trans (rate_mono (by omega)) (rate_price D))
    have hc1 := hc.1
    have hc2 := hc.2
    have e : (litT (c :: cs) r1).steps = blanks r1 + 1 := rfl
    rcases bind_cases (litT (c :: cs) r1) (fun _ r => (rhs r).map fun x => Node.fn (c :: cs) [l, x]) with ⟨_, r2, h2, _, hs⟩ | ⟨_, _, hs⟩
    · rw [hs, e]
      have h2 : lit (c :: cs) r1 = .ok _ r2 := h2
      have hp := pay_lit (F := price D) (K := 16) h2 (by omega)
      have := hr r2 (by rw [height_lit ho h2]; omega)
      show _ + (_ + (rhs r2).steps) ≤ _
      omega
    · rw [hs, e]
      have := small (F := price D) (K := 6) r1 (by omega)
      omega
  · rw [hs]; exact hany

theorem orElse_steps_le (x y : Timed α) : (x.orElse y).steps ≤ x.steps + y.steps := by
  rcases orElse_cases x y with ⟨_, _, hs⟩ | ⟨_, _, hs⟩ <;> rw [hs] <;> omega

theorem atomT_all (n D) : Bound' (atomT n) D (5 * price D) := by
  intro s hD
  have hH := price_ge D
  have h1 := infixT_all (n := n) (op := n!"==") ⟨_, _, rfl⟩ (by decide) (elementT_all n D) s hD
  have h2 := infixT_all (n := n) (op := n!"\\==") ⟨_, _, rfl⟩ (by decide) (elementT_all n D) s hD
  have h3 := infixT_all (n := n) (op := n!"is") ⟨_, _, rfl⟩ (by decide) (fun s _ => expressionT_all (F := price D) (by omega) n s) s hD
  have h4 := functorT_all (elementT_row n D) hH s hD
  have h5 : (constantT s).steps ≤ s.length + 1 := wordT_all isLower s
  have h32 : 32 * s.length ≤ price D * s.length := Nat.mul_le_mul_right _ hH
  have g1 := orElse_steps_le (infixT (elementT n) n!"==" (elementT n) s) ((infixT (elementT n) n!"\\==" (elementT n) s).orElse <|
    (infixT (elementT n) n!"is" (expressionT n) s).orElse <| (functorT (elementT n) s).orElse (constantT s))
  have g2 := orElse_steps_le (infixT (elementT n) n!"\\==" (elementT n) s)
    ((infixT (elementT n) n!"is" (expressionT n) s).orElse <| (functorT (elementT n) s).orElse (constantT s))
  have g3 := orElse_steps_le (infixT (elementT n) n!"is" (expressionT n) s) ((functorT (elementT n) s).orElse (constantT s))
  have g4 := orElse_steps_le (functorT (elementT n) s) (constantT s)
  rw [Nat.mul_assoc]
  show ((infixT (elementT n) n!"==" (elementT n) s).orElse <| (infixT (elementT n) n!"\\==" (elementT n) s).orElse <|
    (infixT (elementT n) n!"is" (expressionT n) s).orElse <| (functorT (elementT n) s).orElse (constantT s)).steps ≤ _
  omega

theorem atomT_row (n D) : Rowed (atomT n) D (5 * price D) (5 * price D + 2) 23 1 where
  any := atomT_all n D
  ok := by
    intro s a r hD h
    have hl := atom_low n s a r (by rw [← atomT_res n s, h])
    have hlen : r.length ≤ s.length := by
      have : atomP n s = .ok a r := by rw [← atomT_res n s, h]
      obtain ⟨ts, _, ht⟩ := atom_sound n _ _ _ this
      obtain ⟨u, rfl, _⟩ := (ht [] .nil).replace
      simp
    refine ⟨by omega, hlen, ?_⟩
    rcases atomT_cheap n s a r h with hc | hd
    · exact .inl (hc.raise (by have := rate_mono (Nat.le_trans hl.2 hD); have := rate_price D; omega))
    · exact .inr ⟨hd.1, by omega⟩
  le := by omega
  slack := by have := price_ge D; omega

/-! ## Clauses -/

theorem headT_cheap {n D s h r1} (h1 : ((functorT (elementT n) s).orElse (constantT s)).res = .ok h r1) (hD : h.listDepth ≤ D) :
    Cheap (4 * rate D) 2 0 s r1 ((functorT (elementT n) s).orElse (constantT s)).steps := by
  have hF := rate_ge D
  rcases orElse_ok h1 with ⟨h6, hs⟩ | ⟨h6, h7, hs⟩
  · rw [hs]; exact (functorT_cheap (elementT_cheap n) _ _ _ h6).slack (K := 1) (by have := rate_mono hD; omega)
  · rw [hs]
    obtain ⟨_, w, hw, hs⟩ := constantT_cheap h7
    rw [hs]
    have hl := word_span hw
    have hp := pay (F := 4 * rate D) (K := 16) (r := r1) (s := s) (x := blanks s + w.length) (by omega) (by omega)
    rcases functorT_fail h6 with ⟨h, _⟩ | ⟨w', r', h, hs⟩
    · rw [hw] at h; cases h
    · rw [hw] at h; cases h
      exact ⟨by omega, by omega⟩

theorem clauseT_all {n D s} (hD : height s ≤ D) : (clauseT n s).steps ≤ (5 * price D + 2) * s.length + (5 * price D + 2) := by
  have hH := price_ge D
  have hr := rate_price D
  have h32 : 32 * s.length ≤ price D * s.length := Nat.mul_le_mul_right _ hH
  have e5 : (5 * price D + 2) * s.length = 5 * (price D * s.length) + 2 * s.length := by rw [Nat.add_mul, Nat.mul_assoc]
  unfold clauseT
  rcases bind_cases ((functorT (elementT n) s).orElse (constantT s)) (fun h r =>
    let body : Timed (List Node) := (litT n!":-" r).bind fun _ r => sepBy1T (atomT n) [','] (r.length + 1) r
    (body.orElse ⟨.ok [] r, 0⟩).bind fun b r => ((litT ['.'] r).must (skipWs r)).map fun _ => (⟨h, b⟩ : Clause)) with ⟨h, r1, h1, _, hs⟩ | ⟨_, _, hs⟩
  · rw [hs]
    have hlow : height r1 ≤ height s ∧ h.listDepth ≤ height s := by
      refine orElse_low (functor_low (element_low n) s h r1) (constant_low s h r1) ?_
      rw [← h1, orElse_res, functorT_res (elementT_res n) s, constantT_res]
    have hc := (headT_cheap h1 (D := D) (by omega)).raise (G := 5 * price D + 2) (by omega)
    have hc1 := hc.1
    have hc2 := hc.2
    simp only []
    -- the body
    have body : ∀ e, Owed 1 (((litT n!":-" r1).bind fun _ r => sepBy1T (atomT n) [','] (r.length + 1) r).orElse ⟨.ok [] r1, 0⟩) e →
        (((litT n!":-" r1).bind fun _ r => sepBy1T (atomT n) [','] (r.length + 1) r).orElse ⟨.ok [] r1, 0⟩).steps + e ≤ (5 * price D + 2) * r1.length + (5 * price D + 2) := by
      intro e he
      have e0 : (litT n!":-" r1).steps = blanks r1 + 1 := rfl
      rcases lit_ok_or_fail n!":-" r1 with ⟨r0, h2⟩ | h2
      · have hD0 : height r0 ≤ D := by rw [height_lit (by decide) h2]; omega
        have hp := pay_lit (F := 5 * price D + 2) (K := 16) h2 (by omega)
        have e1 : ((litT n!":-" r1).bind fun _ r => sepBy1T (atomT n) [','] (r.length + 1) r) =
            ⟨(sepBy1T (atomT n) [','] (r0.length + 1) r0).res, blanks r1 + 1 + (sepBy1T (atomT n) [','] (r0.length + 1) r0).steps⟩ := by
          rw [Timed.bind, show (litT n!":-" r1).res = .ok () r0 from h2, e0]
        rw [e1] at he ⊢
        rcases orElse_cases (⟨(sepBy1T (atomT n) [','] (r0.length + 1) r0).res, blanks r1 + 1 + (sepBy1T (atomT n) [','] (r0.length + 1) r0).steps⟩ : Timed (List Node))
          ⟨.ok [] r1, 0⟩ with ⟨h3, hr, hs⟩ | ⟨_, hr, hs⟩
        · rw [hs]
          have := sepBy1T_row (atomT_row n D) (s := r0) (n := r0.length + 1) (e := 0) hD0 (.inl rfl)
          have he : e ≤ blanks r1 + 1 := by
            rcases he with rfl | ⟨a, r, he, rfl⟩
            · omega
            · rw [hr] at he; cases he; omega
          simp only []
          omega
        · rw [hs]
          have := sepBy1T_row (atomT_row n D) (s := r0) (n := r0.length + 1) (e := e) hD0 (by
            rcases he with rfl | ⟨a, r, he, he'⟩
            · exact .inl rfl
            · rw [hr] at he; exact .inr ⟨a, r, he, he'⟩)
          simp only []
          omega
      · have e1 : ((litT n!":-" r1).bind fun _ r => sepBy1T (atomT n) [','] (r.length + 1) r) = ⟨.fail, blanks r1 + 1⟩ := by
          rw [Timed.bind, show (litT n!":-" r1).res = .fail from h2, e0]
        rw [e1] at he ⊢
        have he : e ≤ blanks r1 + 1 := by
          rcases he with rfl | ⟨a, r, he, rfl⟩
          · omega
          · have he : (PR.ok [] r1 : PR (List Node)) = .ok a r := he
            cases he; omega
        have := small (F := 5 * price D + 2) (K := 2) r1 (by omega)
        show blanks r1 + 1 + 0 + e ≤ _
        omega
    rcases bind_cases (((litT n!":-" r1).bind fun _ r => sepBy1T (atomT n) [','] (r.length + 1) r).orElse ⟨.ok [] r1, 0⟩)
      (fun b r => ((litT ['.'] r).must (skipWs r)).map fun _ => (⟨h, b⟩ : Clause)) with ⟨b, r2, h2, _, hs⟩ | ⟨_, _, hs⟩
    · rw [hs]
      have := body _ (.inr ⟨b, r2, h2, rfl⟩)
      show _ + (_ + (blanks r2 + 1)) ≤ _
      omega
    · rw [hs]
      have := body 0 (.inl rfl)
      omega
  · rw [hs]
    have h4 := functorT_all (elementT_row n D) hH s hD
    have h5 : (constantT s).steps ≤ s.length + 1 := wordT_all isLower s
    have g4 := orElse_steps_le (functorT (elementT n) s) (constantT s)
    omega

theorem commentT_all (s) : (commentT s).steps ≤ s.length + 2 := by
  have hb := blanks_le s
  unfold commentT
  rcases bind_cases (litT ['%'] s) (fun _ r =>
    (⟨(exactly ['\n'] (r.dropWhile (· ≠ '\n'))).must (r.dropWhile (· ≠ '\n')), (r.takeWhile (· ≠ '\n')).length + 1⟩ : Timed Unit)) with ⟨_, r, h, _, hs⟩ | ⟨_, _, hs⟩
  · rw [hs]
    have hl := lit_span (show lit ['%'] s = .ok _ r from h)
    have hl3 := dropWhile_take_length (· ≠ '\n') r
    simp only [List.length_cons, List.length_nil] at hl
    show blanks s + 1 + _ ≤ _
    simp only []
    omega
  · rw [hs]
    show blanks s + 1 ≤ _
    omega

theorem clause_low {n s c r} (h : clauseP n s = .ok c r) : c.listDepth ≤ height s := by
  unfold clauseP at h
  obtain ⟨hd, r1, h1, h2⟩ := PR.bind_eq_ok.1 h
  obtain ⟨b, r2, h3, h4⟩ := PR.bind_eq_ok.1 h2
  obtain ⟨_, _, rfl⟩ := PR.map_eq_ok.1 h4
  have hh := orElse_low (functor_low (element_low n) s hd r1) (constant_low s hd r1) h1
  have hb : Node.listDepths b ≤ height r1 := by
    rcases PR.orElse_eq_ok.1 h3 with h5 | ⟨_, h5⟩
    · obtain ⟨_, r0, h6, h7⟩ := PR.bind_eq_ok.1 h5
      have := sepBy1_low (atom_low n) _ _ _ _ h7
      rw [height_lit (by decide) h6] at this
      exact listDepths_le.2 this.2
    · cases h5
      exact Nat.zero_le _
  simp only [Clause.listDepth]
  omega

theorem lineT_all {n D s} (hD : height s ≤ D) : (lineT n s).steps ≤ (5 * price D + 6) * s.length + (5 * price D + 6) := by
  have hH := price_ge D
  have hr := rate_price D
  have hcm := commentT_all s
  have hcl := clauseT_all (n := n) hD
  have e6 : ∀ x : Nat, (5 * price D + 6) * x = (5 * price D + 2) * x + 4 * x := by
    intro x
    rw [← Nat.add_mul]
  rw [e6]
  have h1 := orElse_steps_le ((commentT s).map fun _ => (none : Option Clause)) ((ruleT n s).map some)
  have h2 : (ruleT n s).steps ≤ (5 * price D + 2) * s.length + (5 * price D + 2) + (s.length + 2) := by
    unfold ruleT
    rcases bind_cases (clauseT n s) (fun c r => ((commentT r).map fun _ => c).orElse ⟨.ok c r, 0⟩) with ⟨c, r, h3, _, hs⟩ | ⟨_, _, hs⟩
    · rw [hs]
      have hlow := clause_low (n := n) (s := s) (c := c) (r := r) (by rw [← clauseT_res n s, h3])
      have hc := (clauseT_cheap h3).raise (G := 5 * price D + 2) (by have := rate_mono (Nat.le_trans hlow hD); omega)
      have hc1 := hc.1
      have hc2 := hc.2
      have := commentT_all r
      have := orElse_steps_le ((commentT r).map fun _ => c) ⟨.ok c r, 0⟩
      have e : ((commentT r).map fun _ => c).steps = (commentT r).steps := rfl
      have e' : (⟨.ok c r, 0⟩ : Timed Clause).steps = 0 := rfl
      omega
    · rw [hs]; omega
  have e : ((commentT s).map fun _ => (none : Option Clause)).steps = (commentT s).steps := rfl
  have e' : ((ruleT n s).map some).steps = (ruleT n s).steps := rfl
  show (((commentT s).map fun _ => (none : Option Clause)).orElse ((ruleT n s).map some)).steps ≤ _
  omega

/-! ## Programs and queries -/

theorem height_le_nesting (s) : height s ≤ nesting s := by
  cases s with
  | nil => exact Nat.le_refl _
  | cons c s => simp only [nesting]; omega

theorem nesting_append (u : List Char) (r) : nesting r ≤ nesting (u ++ r) := by
  induction u with
  | nil => exact Nat.le_refl _
  | cons c u ih => simp only [List.cons_append, nesting]; omega

theorem line_suffix {n s l r} (h : lineP n s = .ok l r) : ∃ u, s = u ++ r := by
  obtain ⟨ts, _, ht⟩ := line_sound n h
  obtain ⟨u, e, _⟩ := (ht [] .nil).replace
  exact ⟨u, e⟩

theorem line_low {n s l r} (h : lineP n s = .ok l r) : lineDepth l ≤ height s := by
  unfold lineP at h
  rcases PR.orElse_eq_ok.1 h with h1 | ⟨_, h1⟩
  · obtain ⟨_, _, rfl⟩ := PR.map_eq_ok.1 h1
    exact Nat.zero_le _
  · obtain ⟨c, h2, rfl⟩ := PR.map_eq_ok.1 h1
    unfold ruleP at h2
    obtain ⟨c', r', h3, h4⟩ := PR.bind_eq_ok.1 h2
    have : c = c' := by
      split at h4 <;> cases h4 <;> rfl
    subst this
    exact clause_low h3

theorem linesT_all {n D : Nat} : ∀ k s, nesting s ≤ D → ∀ e, Owed 1 (manyT (lineT n) k s) e →
    (manyT (lineT n) k s).steps + (blanks s + 1) + e ≤ (5 * price D + 8) * s.length + (5 * price D + 8)
  | 0, s, _, e, he => by
    rcases he with rfl | ⟨_, _, he, _⟩
    · have := small (F := 5 * price D + 8) (K := 1) s (by omega)
      simp only [manyT]
      omega
    · cases he
  | k + 1, s, hD, e, he => by
    have hH := price_ge D
    have hr := rate_price D
    have hb := blanks_le s
    have hh := height_le_nesting s
    have hall := lineT_all (n := n) (s := s) (D := D) (by omega)
    have e8 : ∀ x : Nat, (5 * price D + 8) * x = (5 * price D + 6) * x + 2 * x := by
      intro x
      rw [← Nat.add_mul]
    unfold manyT at he ⊢
    cases hi : (lineT n s).res with
    | ok l r1 =>
      simp only [hi] at he ⊢
      have hp : lineP n s = .ok l r1 := by rw [← lineT_res n s, hi]
      obtain ⟨u, hu⟩ := line_suffix hp
      have hlow := line_low hp
      have hD1 : nesting r1 ≤ D := by
        have := nesting_append u r1
        rw [← hu] at this
        omega
      have hc := (lineT_cheap hi).raise (G := 5 * price D + 8) (by have := rate_mono (Nat.le_trans hlow (Nat.le_trans hh hD)); omega)
      have hc1 := hc.1
      have hc2 := hc.2
      have ih := linesT_all k r1 hD1 e (by
        rcases he with rfl | ⟨a, r, he, he'⟩
        · exact .inl rfl
        · obtain ⟨ls', h3, _⟩ := PR.map_eq_ok.1 he
          exact .inr ⟨ls', r, h3, he'⟩)
      omega
    | fail =>
      simp only [hi] at he ⊢
      have : e ≤ blanks s + 1 := by
        rcases he with rfl | ⟨a, r, he, rfl⟩
        · omega
        · cases he; omega
      rw [e8]
      omega
    | expect q =>
      simp only [hi] at he ⊢
      have : e = 0 := by
        rcases he with rfl | ⟨a, r, he, rfl⟩
        · rfl
        · cases he
      rw [e8]
      omega
    | hang =>
      simp only [hi] at he ⊢
      have : e = 0 := by
        rcases he with rfl | ⟨a, r, he, rfl⟩
        · rfl
        · cases he
      rw [e8]
      omega

theorem price_total (D x : Nat) : (5 * price D + 8) * x + (5 * price D + 8) ≤ 320 * 2 ^ D * (x + 1) := by
  have := price_eq D
  have h1 : (5 * price D + 8) * (x + 1) ≤ 320 * 2 ^ D * (x + 1) := Nat.mul_le_mul_right _ (by omega)
  rw [Nat.mul_add, Nat.mul_one] at h1
  exact h1

theorem programSteps_all (text) : programSteps text ≤ 320 * 2 ^ nesting text * (text.length + 1) := by
  refine Nat.le_trans ?_ (price_total _ _)
  unfold programSteps
  simp only []
  cases hr : (manyT (lineT (text.length + 1)) (text.length + 1) text).res with
  | ok ls r =>
    have := linesT_all (n := text.length + 1) (text.length + 1) text (Nat.le_refl _) _ (.inr ⟨ls, r, hr, rfl⟩)
    simp only []
    omega
  | _ =>
    have := linesT_all (n := text.length + 1) (text.length + 1) text (Nat.le_refl _) 0 (.inl rfl)
    simp only []
    omega

theorem querySteps_all (text) : querySteps text ≤ 320 * 2 ^ height text * (text.length + 1) := by
  refine Nat.le_trans ?_ (price_total _ _)
  have hH := price_ge (height text)
  have e8 : (5 * price (height text) + 8) * text.length = (5 * price (height text) + 2) * text.length + 6 * text.length := by
    rw [← Nat.add_mul]
  rw [e8]
  unfold querySteps
  simp only []
  cases hr : (sepBy1T (atomT (text.length + 1)) [','] (text.length + 1) text).res with
  | ok as r =>
    have := sepBy1T_row (atomT_row (text.length + 1) (height text)) (Nat.le_refl _) (.inr ⟨as, r, hr, rfl⟩)
    have hlen : r.length ≤ text.length := by
      have : sepBy1 (atomP (text.length + 1)) [','] (text.length + 1) text = .ok as r := by rw [← sepBy1T_res (atomT_res _), hr]
      obtain ⟨ts, _, ht⟩ := goals_sound _ _ _ _ _ this
      obtain ⟨u, e, _⟩ := (ht [] .nil).replace
      rw [e]
      simp
    simp only []
    cases hd : lit ['.'] r with
    | ok u r' =>
      have hl := lit_span hd
      have := blanks_le r'
      simp only [List.length_cons, List.length_nil] at hl ⊢
      omega
    | _ =>
      simp only []
      omega
  | _ =>
    have := sepBy1T_row (atomT_row (text.length + 1) (height text)) (n := text.length + 1) (Nat.le_refl (height text)) (.inl rfl)
    simp only []
    omega

end PBfs
