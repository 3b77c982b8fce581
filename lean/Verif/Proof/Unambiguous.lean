import Verif.Spec.Printing
/-!
# Different terms have different texts
-/
namespace PBfs

/-- What may follow the text of a term inside a larger text. -/
def Stops (r : List Char) : Prop := ∀ c, r.head? = some c → isPunct c = true ∧ c ≠ '(' ∧ c ≠ '['

/-- The text starts with punctuation, or is empty. -/
def PunctFirst (r : List Char) : Prop := ∀ c, r.head? = some c → isPunct c = true

theorem Stops.punct {r} (h : Stops r) : PunctFirst r := fun c hc => (h c hc).1

theorem split_at_punct : ∀ {u u' x x' : List Char}, (∀ c ∈ u, isPunct c = false) → (∀ c ∈ u', isPunct c = false) →
    PunctFirst x → PunctFirst x' → u ++ x = u' ++ x' → u = u' ∧ x = x' := by
  intro u
  induction u with
  | nil =>
    intro u' x x' _ h' hx _ h
    cases u' with
    | nil => exact ⟨rfl, h⟩
    | cons c u' =>
      have h1 := h' c (by simp)
      have h2 := hx c (by simp only [List.nil_append] at h; rw [h]; rfl)
      rw [h1] at h2; cases h2
  | cons c u ih =>
    intro u' x x' hu h' hx hx' h
    cases u' with
    | nil =>
      have h1 := hu c (by simp)
      have h2 := hx' c (by simp only [List.nil_append] at h; rw [← h]; rfl)
      rw [h1] at h2; cases h2
    | cons c' u' =>
      simp only [List.cons_append, List.cons.injEq] at h
      obtain ⟨e1, e2⟩ := ih (fun c hc => hu c (by simp [hc])) (fun c hc => h' c (by simp [hc])) hx hx' h.2
      exact ⟨by rw [h.1, e1], e2⟩

theorem punct_of_digit {c : Char} (h : c.isDigit) : isPunct c = false := by
  unfold isPunct
  have : c ≠ '(' ∧ c ≠ ')' ∧ c ≠ '[' ∧ c ≠ ']' ∧ c ≠ ',' ∧ c ≠ ' ' := by
    refine ⟨?_, ?_, ?_, ?_, ?_, ?_⟩ <;> (rintro rfl; revert h; decide)
  simp [this]

theorem IntText.chars {v s} (h : IntText v s) : s ≠ [] ∧ (∀ c ∈ s, isPunct c = false) ∧ ∃ c, s.head? = some c ∧ (c = '-' ∨ c.isDigit = true) := by
  rcases h with ⟨_, h⟩ | ⟨_, r, rfl, h⟩
  · refine ⟨h.1, fun c hc => punct_of_digit (h.2.1 c hc), ?_⟩
    cases s with
    | nil => exact absurd rfl h.1
    | cons c s => exact ⟨c, rfl, .inr (h.2.1 c (by simp))⟩
  · refine ⟨by simp, fun c hc => ?_, '-', rfl, .inl rfl⟩
    rcases List.mem_cons.1 hc with rfl | hc
    · rfl
    · exact punct_of_digit (h.2.1 c hc)

theorem IntText.inj {v w s} (h : IntText v s) (h' : IntText w s) : v = w := by
  rcases h with ⟨h1, h2⟩ | ⟨h1, r, rfl, h2⟩ <;> rcases h' with ⟨g1, g2⟩ | ⟨g1, r', e, g2⟩
  · have := h2.2.2.1.symm.trans g2.2.2.1
    omega
  · subst e
    exact absurd (h2.2.1 '-' (by simp)) (by decide)
  · exact absurd (g2.2.1 '-' (by simp)) (by decide)
  · cases e
    have := h2.2.2.1.symm.trans g2.2.2.1
    omega

theorem isPunct_eq {c : Char} (h : isPunct c = true) : c = '(' ∨ c = ')' ∨ c = '[' ∨ c = ']' ∨ c = ',' ∨ c = ' ' := by
  unfold isPunct at h
  simp only [Bool.or_eq_true, decide_eq_true_eq] at h
  rcases h with ((((h | h) | h) | h) | h) | h <;> simp [h]

/-- The first character of a text. -/
theorem Text.head {t s} (h : Text t s) (hc : Clean t) : ∃ c r, s = c :: r ∧ (isPunct c = false ∨ c = '(' ∨ c = '[') := by
  cases h with
  | cons =>
    cases hc with
    | cons h1 _ =>
      cases s with
      | nil => exact absurd rfl h1.1
      | cons c r => exact ⟨c, r, rfl, .inl (h1.2 c (by simp))⟩
  | int h =>
    obtain ⟨h1, h2, _⟩ := h.chars
    cases s with
    | nil => exact absurd rfl h1
    | cons c r => exact ⟨c, r, rfl, .inl (h2 c (by simp))⟩
  | list => exact ⟨'[', _, rfl, .inr (.inr rfl)⟩
  | fn h =>
    cases hc with
    | fn h1 _ =>
      rcases h1 with h1 | h1
      · exact absurd h1 h
      · rename_i f _ _ _ _ _ _
        cases f with
        | nil => exact absurd rfl h1.1
        | cons c r => exact ⟨c, _, rfl, .inl (h1.2 c (by simp))⟩
  | efn => exact ⟨'(', _, rfl, .inr (.inl rfl)⟩

theorem stops_comma {r} : Stops (',' :: r) := by rintro c hc; cases hc; decide
theorem stops_close {r} : Stops (')' :: r) := by rintro c hc; cases hc; decide
theorem stops_bracket {r} : Stops (']' :: r) := by rintro c hc; cases hc; decide
theorem stops_blank {r} : Stops (' ' :: r) := by rintro c hc; cases hc; decide

theorem commas_cons {s r : _} (h : r ≠ []) : commas (s :: r) = s ++ ',' :: commas r := by
  cases r with
  | nil => exact absurd rfl h
  | cons => rfl

/-- Reading back a sequence of texts up to the closing bracket `e`. -/
theorem commas_inj {e : Char} (he : e = ')' ∨ e = ']') : ∀ {ts : List Tree} {ss ts' ss'} {r r' : List Char},
    ss.length = ts.length → ss'.length = ts'.length →
    (∀ (i : Nat) t s, ts[i]? = some t → ss[i]? = some s → Text t s ∧ ∀ {t' s' r r'}, Clean t' → Text t' s' → Stops r → Stops r' → s ++ r = s' ++ r' → t = t' ∧ r = r') →
    (∀ (i : Nat) t s, ts'[i]? = some t → ss'[i]? = some s → Text t s) →
    (∀ t ∈ ts, Clean t) → (∀ t ∈ ts', Clean t) →
    commas ss ++ e :: r = commas ss' ++ e :: r' → ts = ts' ∧ r = r' := by
  have hstop : ∀ {r}, Stops (e :: r) := by
    rcases he with rfl | rfl
    · exact stops_close
    · exact stops_bracket
  have hne : ∀ {t s r x}, Text t s → Clean t → s ++ r ≠ e :: x := by
    intro t s r x h hc heq
    obtain ⟨c, r', rfl, h1⟩ := h.head hc
    simp only [List.cons_append, List.cons.injEq] at heq
    obtain ⟨rfl, _⟩ := heq
    rcases he with rfl | rfl <;> revert h1 <;> decide
  have hecomma : e ≠ ',' := by rcases he with rfl | rfl <;> decide
  intro ts
  induction ts with
  | nil =>
    intro ss ts' ss' r r' h1 h2 _ h4 _ h6 h
    have : ss = [] := List.length_eq_zero_iff.1 h1
    subst this
    cases ts' with
    | nil =>
      have : ss' = [] := List.length_eq_zero_iff.1 h2
      subst this
      simp only [commas, List.nil_append, List.cons.injEq] at h
      exact ⟨rfl, h.2⟩
    | cons t' ts' =>
      cases ss' with
      | nil => simp at h2
      | cons s' ss' =>
        exfalso
        have ht := h4 0 t' s' rfl rfl
        cases ss' with
        | nil => exact hne ht (h6 t' (by simp)) h.symm
        | cons s2 ss2 =>
          rw [commas_cons (by simp), List.append_assoc] at h
          exact hne ht (h6 t' (by simp)) h.symm
  | cons t ts ih =>
    intro ss ts' ss' r r' h1 h2 h3 h4 h5 h6 h
    cases ss with
    | nil => simp at h1
    | cons s ss =>
      obtain ⟨ht, hinj⟩ := h3 0 t s rfl rfl
      cases ts' with
      | nil =>
        have : ss' = [] := List.length_eq_zero_iff.1 h2
        subst this
        exfalso
        cases ss with
        | nil => exact hne ht (h5 t (by simp)) h
        | cons s2 ss2 =>
          rw [commas_cons (by simp), List.append_assoc] at h
          exact hne ht (h5 t (by simp)) h
      | cons t' ts' =>
        cases ss' with
        | nil => simp at h2
        | cons s' ss' =>
          have ht' := h4 0 t' s' rfl rfl
          have hc' := h6 t' (by simp)
          cases ss with
          | nil =>
            have : ts = [] := List.length_eq_zero_iff.1 (by simpa using h1.symm)
            subst this
            cases ss' with
            | nil =>
              have : ts' = [] := List.length_eq_zero_iff.1 (by simpa using h2.symm)
              subst this
              obtain ⟨rfl, h⟩ := hinj hc' ht' hstop hstop h
              cases h
              exact ⟨rfl, rfl⟩
            | cons s2 ss2 =>
              rw [commas_cons (s := s') (by simp), List.append_assoc] at h
              obtain ⟨rfl, h⟩ := hinj hc' ht' hstop stops_comma h
              simp only [List.cons.injEq] at h
              exact absurd h.1 hecomma
          | cons s2 ss2 =>
            rw [commas_cons (by simp), List.append_assoc] at h
            cases ss' with
            | nil =>
              obtain ⟨rfl, h⟩ := hinj hc' ht' stops_comma hstop h
              simp only [List.cons_append, List.cons.injEq] at h
              exact absurd h.1.symm hecomma
            | cons s2' ss2' =>
              rw [commas_cons (s := s') (by simp), List.append_assoc] at h
              obtain ⟨rfl, h⟩ := hinj hc' ht' stops_comma stops_comma h
              simp only [List.cons_append, List.cons.injEq, true_and] at h
              obtain ⟨rfl, e⟩ := ih (by simpa using h1) (by simpa using h2)
                (fun i t s a b => h3 (i + 1) t s (by simpa using a) (by simpa using b))
                (fun i t s a b => h4 (i + 1) t s (by simpa using a) (by simpa using b))
                (fun t ht => h5 t (by simp [ht])) (fun t ht => h6 t (by simp [ht])) h
              exact ⟨rfl, e⟩

theorem ProperList.inj {t t' ts} (h : ProperList t ts) (h' : ProperList t' ts) : t = t' := by
  induction h generalizing t' with
  | nil => cases h'; rfl
  | cons _ ih =>
    cases h' with
    | cons h' => rw [ih h']

theorem ProperList.clean {t ts} (h : ProperList t ts) (hc : Clean t) : ∀ x ∈ ts, Clean x := by
  induction h with
  | nil => simp
  | cons _ ih =>
    cases hc with
    | fn _ h2 =>
      intro x hx
      rcases List.mem_cons.1 hx with rfl | hx
      · exact h2 _ (by simp)
      · exact ih (h2 _ (by simp)) x hx

/-- How a text starts: a (possibly empty) word, and what follows it. -/
theorem Text.word {t s} (h : Text t s) (hc : Clean t) :
    (∃ n, t = .cons n ∧ s = n ∧ CleanName n ∧ ∀ c, n.head? = some c → c ≠ '-' ∧ c.isDigit = false) ∨
    (∃ v, t = .int v ∧ IntText v s) ∨
    (∃ ts ss, ProperList t ts ∧ ss.length = ts.length ∧ (∀ (i : Nat) t s, ts[i]? = some t → ss[i]? = some s → Text t s) ∧
      s = n!"[" ++ commas ss ++ n!"]") ∨
    (∃ f ts ss, t = .fn f ts ∧ CleanName f ∧ ss.length = ts.length ∧ (∀ (i : Nat) t s, ts[i]? = some t → ss[i]? = some s → Text t s) ∧
      (∀ t ∈ ts, Clean t) ∧ s = f ++ n!"(" ++ commas ss ++ n!")") ∨
    (∃ f l r u w, t = .efn f [l, r] ∧ CleanName f ∧ Clean l ∧ Clean r ∧ Text l u ∧ Text r w ∧
      s = n!"(" ++ u ++ n!" " ++ f ++ n!" " ++ w ++ n!")") := by
  cases h with
  | cons =>
    cases hc with
    | cons h1 h2 => exact .inl ⟨_, rfl, rfl, h1, h2⟩
  | int h => exact .inr (.inl ⟨_, rfl, h⟩)
  | list h1 h2 h3 => exact .inr (.inr (.inl ⟨_, _, h1, h2, h3, rfl⟩))
  | fn h1 h2 h3 h4 =>
    cases hc with
    | fn g1 g2 =>
      rcases g1 with g1 | g1
      · exact absurd g1 h1
      · exact .inr (.inr (.inr (.inl ⟨_, _, _, rfl, g1, h3, h4, g2, rfl⟩)))
  | efn h1 h2 =>
    cases hc with
    | efn g1 g2 => exact .inr (.inr (.inr (.inr ⟨_, _, _, _, _, rfl, g1, g2 _ (by simp), g2 _ (by simp), h1, h2, rfl⟩)))

theorem punctFirst_cons {c : Char} {r} (h : isPunct c = true) : PunctFirst (c :: r) := by rintro d hd; cases hd; exact h

/-- No text is ambiguous, even when something follows it. -/
theorem Text.inj {t s} (h : Text t s) : ∀ {t' s' r r'}, Clean t → Clean t' → Text t' s' → Stops r → Stops r' → s ++ r = s' ++ r' →
    t = t' ∧ r = r' := by
  have noWord : ∀ {n x r' : List Char} {c : Char}, n ≠ [] → (∀ c ∈ n, isPunct c = false) → isPunct c = true → n ++ x ≠ c :: r' := by
    intro n x r' c hn hp hc he
    cases n with
    | nil => exact hn rfl
    | cons d n =>
      simp only [List.cons_append, List.cons.injEq] at he
      have := hp d (by simp)
      rw [he.1, hc] at this; cases this
  have opens : ∀ {r : List Char}, Stops r → ∀ {x}, r ≠ '(' :: x := by
    intro r hr x he
    exact (hr '(' (by rw [he]; rfl)).2.1 rfl
  induction h with
  | @cons n =>
    intro t' s' r r' hc hc' ht' hr hr' he
    cases hc with
    | cons h1 h2 =>
    rcases ht'.word hc' with ⟨n', rfl, rfl, g1, g2⟩ | ⟨v, rfl, g⟩ | ⟨ts, ss, _, _, _, rfl⟩ | ⟨f, ts, ss, rfl, g1, _, _, _, rfl⟩ |
      ⟨f, l, x, u, w, rfl, _, _, _, _, _, rfl⟩
    · obtain ⟨rfl, rfl⟩ := split_at_punct h1.2 g1.2 hr.punct hr'.punct he
      exact ⟨rfl, rfl⟩
    · obtain ⟨_, g2, c, g3, g4⟩ := g.chars
      obtain ⟨rfl, rfl⟩ := split_at_punct h1.2 g2 hr.punct hr'.punct he
      have := h2 c g3
      rcases g4 with rfl | g4
      · exact absurd rfl this.1
      · rw [this.2] at g4; cases g4
    · exact absurd he (noWord h1.1 h1.2 rfl)
    · simp only [List.append_assoc] at he
      obtain ⟨_, h3⟩ := split_at_punct h1.2 g1.2 hr.punct (punctFirst_cons rfl) he
      exact absurd h3 (opens hr)
    · exact absurd he (noWord h1.1 h1.2 rfl)
  | @int v s h =>
    intro t' s' r r' hc hc' ht' hr hr' he
    obtain ⟨h1, h2, c, h3, h4⟩ := h.chars
    rcases ht'.word hc' with ⟨n', rfl, rfl, g1, g2⟩ | ⟨v, rfl, g⟩ | ⟨ts, ss, _, _, _, rfl⟩ | ⟨f, ts, ss, rfl, g1, _, _, _, rfl⟩ |
      ⟨f, l, x, u, w, rfl, _, _, _, _, _, rfl⟩
    · obtain ⟨rfl, rfl⟩ := split_at_punct h2 g1.2 hr.punct hr'.punct he
      have := g2 c h3
      rcases h4 with rfl | h4
      · exact absurd rfl this.1
      · rw [this.2] at h4; cases h4
    · obtain ⟨rfl, rfl⟩ := split_at_punct h2 g.chars.2.1 hr.punct hr'.punct he
      exact ⟨by rw [h.inj g], rfl⟩
    · exact absurd he (noWord h1 h2 rfl)
    · simp only [List.append_assoc] at he
      obtain ⟨_, h3⟩ := split_at_punct h2 g1.2 hr.punct (punctFirst_cons rfl) he
      exact absurd h3 (opens hr)
    · exact absurd he (noWord h1 h2 rfl)
  | @list t ts ss hl hlen hts ih =>
    intro t' s' r r' hc hc' ht' hr hr' he
    rcases ht'.word hc' with ⟨n', rfl, rfl, g1, g2⟩ | ⟨v, rfl, g⟩ | ⟨ts', ss', g1, g2, g3, rfl⟩ | ⟨f, ts, ss, rfl, g1, _, _, _, rfl⟩ |
      ⟨f, l, x, u, w, rfl, _, _, _, _, _, rfl⟩
    · exact absurd he.symm (noWord g1.1 g1.2 rfl)
    · exact absurd he.symm (noWord g.chars.1 g.chars.2.1 rfl)
    · simp only [List.append_assoc, List.cons_append, List.nil_append, List.cons.injEq, true_and] at he
      obtain ⟨rfl, rfl⟩ := commas_inj (.inr rfl) hlen g2
        (fun i t s a b => ⟨hts i t s a b, fun c h h1 h2 e => ih i t s a b (hl.clean hc t (List.mem_iff_getElem?.2 ⟨i, a⟩)) c h h1 h2 e⟩)
        g3 (hl.clean hc) (g1.clean hc') he
      exact ⟨hl.inj g1, rfl⟩
    · simp only [List.append_assoc] at he
      exact absurd he.symm (noWord g1.1 g1.2 rfl)
    · simp at he
  | @fn f ts ss hf hne hlen hts ih =>
    intro t' s' r r' hc hc' ht' hr hr' he
    cases hc with
    | fn h1 h2 =>
    rcases h1 with h1 | h1
    · exact absurd h1 hf
    simp only [List.append_assoc] at he
    rcases ht'.word hc' with ⟨n', rfl, rfl, g1, g2⟩ | ⟨v, rfl, g⟩ | ⟨ts, ss, _, _, _, rfl⟩ | ⟨f', ts', ss', rfl, g1, g2, g3, g4, rfl⟩ |
      ⟨f, l, x, u, w, rfl, _, _, _, _, _, rfl⟩
    · obtain ⟨_, h3⟩ := split_at_punct h1.2 g1.2 (punctFirst_cons rfl) hr'.punct he
      exact absurd h3.symm (opens hr')
    · obtain ⟨_, h3⟩ := split_at_punct h1.2 g.chars.2.1 (punctFirst_cons rfl) hr'.punct he
      exact absurd h3.symm (opens hr')
    · exact absurd he (noWord h1.1 h1.2 rfl)
    · simp only [List.append_assoc] at he
      obtain ⟨rfl, h3⟩ := split_at_punct h1.2 g1.2 (punctFirst_cons rfl) (punctFirst_cons rfl) he
      simp only [List.cons_append, List.nil_append, List.cons.injEq, true_and] at h3
      obtain ⟨rfl, rfl⟩ := commas_inj (.inl rfl) hlen g2
        (fun i t s a b => ⟨hts i t s a b, fun c h g1 g2 e => ih i t s a b (h2 t (List.mem_iff_getElem?.2 ⟨i, a⟩)) c h g1 g2 e⟩)
        g3 h2 g4 h3
      exact ⟨rfl, rfl⟩
    · exact absurd he (noWord h1.1 h1.2 rfl)
  | @efn f l x s1 s2 hl hx ihl ihx =>
    intro t' s' r r' hc hc' ht' hr hr' he
    cases hc with
    | efn h1 h2 =>
    rcases ht'.word hc' with ⟨n', rfl, rfl, g1, g2⟩ | ⟨v, rfl, g⟩ | ⟨ts', ss', g1, g2, g3, rfl⟩ | ⟨f, ts, ss, rfl, g1, _, _, _, rfl⟩ |
      ⟨f', l', x', u, w, rfl, g1, g2, g3, g4, g5, rfl⟩
    · exact absurd he.symm (noWord g1.1 g1.2 rfl)
    · exact absurd he.symm (noWord g.chars.1 g.chars.2.1 rfl)
    · simp at he
    · simp only [List.append_assoc] at he
      exact absurd he.symm (noWord g1.1 g1.2 rfl)
    · simp only [List.append_assoc, List.cons_append, List.nil_append, List.cons.injEq, true_and] at he
      obtain ⟨rfl, he⟩ := ihl (h2 _ (by simp)) g2 g4 stops_blank stops_blank he
      simp only [List.cons.injEq, true_and] at he
      obtain ⟨rfl, he'⟩ := split_at_punct h1.2 g1.2 (punctFirst_cons rfl) (punctFirst_cons rfl) he
      replace he' := (List.cons.inj he').2
      obtain ⟨rfl, he2⟩ := ihx (h2 _ (by simp)) g3 g5 stops_close stops_close he'
      exact ⟨rfl, (List.cons.inj he2).2⟩

/-- Every number has a text: the usual one. -/
theorem decValue_digits (n : Nat) : decValue (Nat.toDigits 10 n) = n := by
  have := Nat.ofDigitChars_ten_toDigits (n := n)
  rwa [Nat.ofDigitChars_eq_foldl] at this

theorem toDigits_head {n : Nat} : (Nat.toDigits 10 n).head? = some '0' → n = 0 := by
  induction n using Nat.strongRecOn with
  | ind n ih =>
    intro h
    rw [Nat.toDigits_eq_if (by decide)] at h
    split at h
    · simpa using h
    · rename_i hn
      have hne : Nat.toDigits 10 (n / 10) ≠ [] := Nat.toDigits_ne_nil
      cases hd : Nat.toDigits 10 (n / 10) with
      | nil => exact absurd hd hne
      | cons c r =>
        rw [hd] at h
        have := ih (n / 10) (by omega) (by rw [hd]; simpa using h)
        omega

theorem natText (n : Nat) : NatText n (natStr n) := by
  refine ⟨Nat.toDigits_ne_nil, fun c hc => Nat.isDigit_of_mem_toDigits (by decide) (by decide) hc, decValue_digits n, fun h => ?_⟩
  have := toDigits_head h
  subst this
  rfl

theorem digit_range {c : Char} (h : c.isDigit) : 48 ≤ c.toNat ∧ c.toNat ≤ 57 := by
  simp only [Char.isDigit, Bool.and_eq_true, decide_eq_true_eq] at h
  exact ⟨by simpa using UInt32.le_iff_toNat_le.1 h.1, by simpa using UInt32.le_iff_toNat_le.1 h.2⟩

theorem NatText.eq {s : Name} : ∀ {n}, NatText n s → s = natStr n := by
  generalize hk : s.length = k
  induction k generalizing s with
  | zero => intro n h; exact absurd (List.length_eq_zero_iff.1 hk) h.1
  | succ k ih =>
    intro n h
    obtain ⟨l, c, rfl⟩ : ∃ l c, s = l ++ [c] := ⟨s.dropLast, s.getLast h.1, (List.dropLast_append_getLast h.1).symm⟩
    have hc := digit_range (h.2.1 c (by simp))
    have hdc : Nat.digitChar (c.toNat - 48) = c := by
      apply Char.toNat_inj.1
      rw [Nat.toNat_digitChar_of_lt_ten (by omega)]
      omega
    have hv : 10 * decValue l + (c.toNat - 48) = n := by
      rw [← h.2.2.1]
      simp [decValue, List.foldl_append]
    by_cases hl : l = []
    · subst hl
      simp only [decValue, List.foldl_nil, Nat.mul_zero, Nat.zero_add] at hv
      rw [natStr, Nat.toDigits_of_lt_base (by omega), ← hv, hdc]
      rfl
    · have hnz : l.head? ≠ some '0' := by
        intro h0
        have := h.2.2.2 (by cases l with | nil => exact absurd rfl hl | cons => simpa using h0)
        have h1 := congrArg List.length this
        have h2 := List.length_pos_iff.2 hl
        rw [List.length_append] at h1
        simp only [List.length_cons, List.length_nil] at h1
        omega
      have hl2 := @ih l (by simpa using hk) (decValue l) ⟨hl, fun c hc => h.2.1 c (by simp [hc]), rfl, fun h0 => absurd h0 hnz⟩
      have hpos : 0 < decValue l := by
        rcases Nat.eq_zero_or_pos (decValue l) with h0 | h0
        · rw [h0] at hl2
          rw [hl2] at hnz
          exact absurd rfl hnz
        · exact h0
      rw [natStr, Nat.toDigits_of_base_le (by decide) (by omega), ← hv]
      rw [show (10 * decValue l + (c.toNat - 48)) / 10 = decValue l by omega,
        show (10 * decValue l + (c.toNat - 48)) % 10 = c.toNat - 48 by omega, hdc]
      rw [← natStr, ← hl2]

theorem IntText.eq {v s} (h : IntText v s) : s = intStr v := by
  rcases h with ⟨h1, h2⟩ | ⟨h1, r, rfl, h2⟩
  · rw [intStr, if_pos h1, h2.eq]
  · rw [intStr, if_neg (by omega), h2.eq]

theorem intText (v : Int) : IntText v (intStr v) := by
  unfold intStr
  split
  · rename_i h; exact .inl ⟨h, natText _⟩
  · rename_i h; exact .inr ⟨by omega, _, rfl, natText _⟩

end PBfs
