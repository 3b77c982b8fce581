import Verif.Proof.ParserTotal
/-! # What belongs to the grammar is accepted -/
namespace PBfs

/-- How a term of this category can start. -/
def Cat.starts : Cat → Char → Prop
  | .list, c => c = '['
  | .elem, c => isUpper c = true ∨ isDigit c = true ∨ c = '-' ∨ c = '(' ∨ c = '[' ∨ isLower c = true
  | .args, c => isUpper c = true ∨ isDigit c = true ∨ c = '-' ∨ c = '(' ∨ c = '[' ∨ isLower c = true
  | _, c => isUpper c = true ∨ isDigit c = true ∨ c = '-' ∨ c = '('

theorem lead_append {ts us c} (h : lead ts = some c) : lead (ts ++ us) = some c := by
  cases ts with
  | nil => cases h
  | cons t ts => exact h

theorem Spell.valid {t ts s} (h : Spell (t :: ts) s) : t.Valid := h.cons_inv.choose_spec.2.1

/-- The first character of a term. -/
theorem Syn.starts {c as ts} (h : Syn c as ts) : ∀ {us s}, Spell (ts ++ us) s → ∃ ch, lead ts = some ch ∧ c.starts ch := by
  induction h with
  | @var w => intro us s hs; obtain ⟨c, cs, rfl, hc, _⟩ := hs.valid; exact ⟨c, rfl, .inl hc⟩
  | @num neg ds =>
    intro us s hs
    obtain ⟨h0, hd⟩ := hs.valid
    cases neg with
    | true => exact ⟨'-', rfl, .inr (.inr (.inl rfl))⟩
    | false =>
      cases ds with
      | nil => cases h0 rfl
      | cons d ds => exact ⟨d, rfl, .inr (.inl (hd d (by simp)))⟩
  | paren => intro us s hs; exact ⟨'(', rfl, .inr (.inr (.inr rfl))⟩
  | power1 _ ih => exact ih
  | pow _ _ ih _ =>
    intro us s hs
    rw [List.append_assoc] at hs
    obtain ⟨c, h1, h2⟩ := ih hs
    exact ⟨c, lead_append h1, h2⟩
  | product1 _ ih => exact ih
  | mul _ _ _ ih _ =>
    intro us s hs
    rw [List.append_assoc] at hs
    obtain ⟨c, h1, h2⟩ := ih hs
    exact ⟨c, lead_append h1, h2⟩
  | sum1 _ ih => exact ih
  | add _ _ _ ih _ =>
    intro us s hs
    rw [List.append_assoc] at hs
    obtain ⟨c, h1, h2⟩ := ih hs
    exact ⟨c, lead_append h1, h2⟩
  | @fn w _ _ _ _ =>
    intro us s hs; obtain ⟨c, cs, rfl, hc, _⟩ := hs.valid
    exact ⟨c, rfl, .inr (.inr (.inr (.inr (.inr hc))))⟩
  | cons =>
    intro us s hs; obtain ⟨c, cs, rfl, hc, _⟩ := hs.valid
    exact ⟨c, rfl, .inr (.inr (.inr (.inr (.inr hc))))⟩
  | elist _ ih =>
    intro us s hs
    obtain ⟨c, h1, h2⟩ := ih hs
    exact ⟨c, h1, .inr (.inr (.inr (.inr (.inl h2))))⟩
  | esum _ ih =>
    intro us s hs
    obtain ⟨c, h1, h2⟩ := ih hs
    refine ⟨c, h1, ?_⟩
    rcases h2 with h | h | h | h
    · exact .inl h
    · exact .inr (.inl h)
    · exact .inr (.inr (.inl h))
    · exact .inr (.inr (.inr (.inl h)))
  | nil => intro us s hs; exact ⟨'[', rfl, rfl⟩
  | list => intro us s hs; exact ⟨'[', rfl, rfl⟩
  | listVar => intro us s hs; exact ⟨'[', rfl, rfl⟩
  | listList => intro us s hs; exact ⟨'[', rfl, rfl⟩
  | one _ ih => exact ih
  | more _ _ ih _ =>
    intro us s hs
    rw [List.append_assoc] at hs
    obtain ⟨c, h1, h2⟩ := ih hs
    exact ⟨c, lead_append h1, h2⟩

/-- What may not follow a term. -/
def NoOp (us : List Tok) : Prop :=
  lead us ≠ some '^' ∧ lead us ≠ some '*' ∧ lead us ≠ some '/' ∧ lead us ≠ some '+' ∧ lead us ≠ some '-'

/-- `operand` and then the chain of operators read `a`. -/
def ChainReads (operand : P Node) (ops : List Name) (a : Node) (us : List Tok) (s : List Char) : Prop :=
  ∃ v cs r0 r, a = chainNode v cs ∧ operand s = .ok v r0 ∧
    (∀ k, r0.length < k → many (chainedP operand ops) k r0 = .ok cs r) ∧ Spell us r

theorem ChainReads.run {operand ops a us s} (h : ChainReads operand ops a us s) :
    ∃ r, chainP operand ops s = .ok a r ∧ Spell us r := by
  obtain ⟨v, cs, r0, r, rfl, h1, h2, h3⟩ := h
  refine ⟨r, ?_, h3⟩
  unfold chainP
  rw [h1, PR.bind_ok, h2 _ (by omega)]; rfl

/-- The claim for each category. -/
def ReadsCat : Cat → List Node → List Tok → Prop
  | .value, as, ts => ∀ a, as = [a] → ∀ n us s, s.length ≤ n → Spell (ts ++ us) s →
      ∃ r, valueP (expressionP n) s = .ok a r ∧ Spell us r
  | .power, as, ts => ∀ a, as = [a] → ∀ n us s, s.length ≤ n → lead us ≠ some '^' → Spell (ts ++ us) s →
      ∃ r, powerP (expressionP n) s = .ok a r ∧ Spell us r
  | .product, as, ts => ∀ a, as = [a] → ∀ n us s, s.length ≤ n →
      lead us ≠ some '^' → lead us ≠ some '*' → lead us ≠ some '/' → Spell (ts ++ us) s →
      ChainReads (powerP (expressionP n)) [n!"*", n!"//"] a us s
  | .sum, as, ts => ∀ a, as = [a] → ∀ n us s, s.length ≤ n → NoOp us → Spell (ts ++ us) s →
      ChainReads (productP (expressionP n)) [n!"+", n!"-"] a us s
  | .elem, as, ts => ∀ a, as = [a] → ∀ n us s, s.length < n → NoOp us → Spell (ts ++ us) s →
      ∃ r, elementP n s = .ok a r ∧ Spell us r
  | .list, as, ts => ∀ a, as = [a] → ∀ n us s, s.length ≤ n → Spell (ts ++ us) s →
      ∃ r, listP (elementP n) (elementList n).2 s = .ok a r ∧ Spell us r
  | .args, as, ts => ∀ n us s, s.length < n → NoOp us → lead us ≠ some ',' → Spell (ts ++ us) s →
      ∃ r, (∀ k, s.length ≤ k → sepBy1 (elementP n) [','] k s = .ok as r) ∧ Spell us r

theorem chained_fail {operand : P Node} {us s} (h : Spell us s) :
    ∀ {ops : List Name}, (∀ op ∈ ops, ∃ c cs, op = c :: cs ∧ lead us ≠ some c) → chainedP operand ops s = .fail
  | [], _ => rfl
  | op :: ops, ho => by
    obtain ⟨c, cs, rfl, hc⟩ := ho op (by simp)
    simp only [chainedP]
    rw [lit_fail h hc]
    exact chained_fail h fun o h => ho o (by simp [h])

theorem chained_two {operand : P Node} {op o1 o2 : Name} {us s v r} (h : Spell (.sym op :: us) s) (ho : op = o1 ∨ op = o2)
    (h12 : ∃ c d cs ds, o1 = c :: cs ∧ o2 = d :: ds ∧ c ≠ d)
    (hop : ∀ r1, lit op s = .ok () r1 → Spell us r1 → operand r1 = .ok v r) : chainedP operand [o1, o2] s = .ok (op, v) r := by
  obtain ⟨r1, h1, h2⟩ := lit_ok h
  have h3 := hop r1 h1 h2
  rcases ho with rfl | rfl
  · simp [chainedP, h1, h3]
  · obtain ⟨c, d, cs, ds, rfl, rfl, hcd⟩ := h12
    have : lit (c :: cs) s = .fail := lit_fail h (by simpa [lead, Tok.text] using fun e => hcd e.symm)
    simp [chainedP, h1, h3, this]

theorem many_fail {p : P α} {s} (h : p s = .fail) : ∀ k, s.length < k → many p k s = .ok [] s
  | 0, hk => by omega
  | k + 1, _ => by simp [many, h]

theorem many_step {p : P α} {s a r0 as r} (hp : Eats p) (h : p s = .ok a r0) (hm : ∀ k, r0.length < k → many p k r0 = .ok as r) :
    ∀ k, s.length < k → many p k s = .ok (a :: as) r
  | 0, hk => by omega
  | k + 1, hk => by
    have := hp _ _ _ h
    simp [many, h, hm k (by omega)]

theorem NoOp.of_lead {us : List Tok} {c : Char} (h : lead us = some c)
    (hc : c ≠ '^' ∧ c ≠ '*' ∧ c ≠ '/' ∧ c ≠ '+' ∧ c ≠ '-') : NoOp us := by
  unfold NoOp
  rw [h]
  simpa using hc

theorem elementP_succ (n : Nat) (s : List Char) : elementP (n + 1) s =
    ((functorP (elementP n) s).orElse <| (constantP s).orElse <|
      (listP (elementP n) (elementList n).2 s).orElse (expressionP (n + 1) s)) := rfl

theorem functor_fail {el : P Node} {us s} (h : Spell us s) (hl : ∀ c, lead us = some c → isLower c = false) : functorP el s = .fail := by
  unfold functorP
  rw [word_fail h hl]; rfl

theorem constant_fail {us s} (h : Spell us s) (hl : ∀ c, lead us = some c → isLower c = false) : constantP s = .fail := by
  unfold constantP
  rw [word_fail h hl]; rfl

theorem variable_fail {us s} (h : Spell us s) (hl : ∀ c, lead us = some c → isUpper c = false) : variableP s = .fail := by
  unfold variableP
  rw [word_fail h hl]; rfl

theorem list_fail {el ls : P Node} {us s} (h : Spell us s) (hl : lead us ≠ some '[') : listP el ls s = .fail := by
  unfold listP
  rw [lit_fail h hl]; rfl

theorem functor_reads {w cs ts} (ih : ReadsCat .args cs ts) {n us s} (hn : s.length ≤ n)
    (h : Spell (.opening w :: ts ++ [.sym [')']] ++ us) s) : ∃ r, functorP (elementP n) s = .ok (.fn w cs) r ∧ Spell us r := by
  simp only [List.cons_append, List.append_assoc] at h
  obtain ⟨r, h1, h2, _, h4⟩ := h.cons_inv
  have hw : word isLower s = .ok w (['('] ++ r) := by
    refine word_ok (by simpa [Tok.text] using h1) h2 ?_
    simp [isWord, isLower, isUpper, isDigit]
  have hl := word_length hw
  simp only [List.length_append, List.length_cons, List.length_nil] at hl
  obtain ⟨r1, g1, g2⟩ := ih n _ r (by omega) (.of_lead (c := ')') rfl (by decide)) (by simp [lead, Tok.text]) h4
  obtain ⟨r2, g3, g4⟩ := lit_ok g2
  refine ⟨r2, ?_, g4⟩
  unfold functorP
  rw [hw, PR.bind_ok, exactly_ok (u := ()) |>.2 rfl, PR.bind_ok, g1 _ (by omega), PR.must_ok, PR.bind_ok, g3]; rfl

theorem constant_reads {el : P Node} {w us s} (h : Spell (.name w :: us) s) :
    functorP el s = .fail ∧ ∃ r, constantP s = .ok (.cons w) r ∧ Spell us r := by
  refine ⟨?_, constantP_ok h⟩
  obtain ⟨r, h1, h2, h3, h4⟩ := h.cons_inv
  have hw : word isLower s = .ok w r := word_ok h1 h2 fun c hc => (h3 c hc).1
  unfold functorP
  rw [hw, PR.bind_ok]
  cases r with
  | nil => rfl
  | cons d r =>
    have := (h3 d rfl).2
    simp [exactly, this]

theorem Syn.reads {c as ts} (h : Syn c as ts) : ReadsCat c as ts := by
  induction h with
  | var =>
    rintro a ⟨⟩ n us s hn hs
    obtain ⟨r, h1, h2⟩ := variableP_ok hs
    exact ⟨r, by simp [valueP, h1], h2⟩
  | @num neg ds =>
    rintro a e n us s hn hs
    cases e
    obtain ⟨c, hl, hc⟩ := (Syn.num (neg := neg) (ds := ds)).starts hs
    have hv : variableP s = .fail := by
      refine variable_fail hs ?_
      rw [lead_append hl]
      rintro _ ⟨⟩
      obtain ⟨h0, hd⟩ := hs.valid
      cases neg with
      | true => cases hl; rfl
      | false =>
        cases ds with
        | nil => cases h0 rfl
        | cons d ds => cases hl; exact digit_not_upper (hd _ (by simp))
    obtain ⟨r, h1, h2⟩ := numberP_ok hs
    exact ⟨r, by simp [valueP, hv, h1], h2⟩
  | @paren e ts _ ih =>
    rintro a ⟨⟩ n us s hn hs
    have hl : ∀ c, lead (.sym ['('] :: ts ++ [.sym [')']] ++ us) = some c → c = '(' := by rintro c ⟨⟩; rfl
    have hv : variableP s = .fail := variable_fail hs fun c hc => by rw [hl c hc]; rfl
    have hnum : numberP s = .fail := numberP_fail hs fun c hc => by rw [hl c hc]; decide
    simp only [List.cons_append, List.append_assoc] at hs
    obtain ⟨r1, h1, h2⟩ := lit_ok hs
    have := lit_eats h1
    cases n with
    | zero => omega
    | succ n =>
      obtain ⟨r2, h3, h4⟩ := (ih _ rfl n _ r1 (by omega) (.of_lead (c := ')') rfl (by decide)) h2).run
      obtain ⟨r3, h5, h6⟩ := lit_ok h4
      refine ⟨r3, ?_, h6⟩
      have h3' : expressionP (n + 1) r1 = .ok e r2 := h3
      simp [valueP, hv, hnum, h1, h3', h5]
  | power1 _ ih =>
    rintro a ⟨⟩ n us s hn hu hs
    obtain ⟨r, h1, h2⟩ := ih _ rfl n us s hn hs
    refine ⟨r, ?_, h2⟩
    unfold powerP
    rw [h1, PR.bind_ok, chained_fail h2 (by simpa using hu)]
  | @pow a b ts us _ _ ih1 ih2 =>
    rintro _ ⟨⟩ n vs s hn hu hs
    rw [List.append_assoc, List.cons_append] at hs
    obtain ⟨r, h1, h2⟩ := ih1 _ rfl n _ s hn hs
    obtain ⟨r1, h3, h4⟩ := lit_ok h2
    have := value_eats (expression_eats n) _ _ _ h1
    have := lit_length h3
    obtain ⟨r2, h5, h6⟩ := ih2 _ rfl n _ r1 (by omega) h4
    refine ⟨r2, ?_, h6⟩
    unfold powerP
    rw [h1, PR.bind_ok]
    simp [chainedP, h3, h5, chainNode]
  | product1 _ ih =>
    rintro a ⟨⟩ n us s hn h1 h2 h3 hs
    obtain ⟨r, g1, g2⟩ := ih _ rfl n us s hn h1 hs
    refine ⟨_, [], r, r, rfl, g1, many_fail (chained_fail g2 ?_), g2⟩
    simp only [List.mem_cons, List.not_mem_nil, or_false]
    rintro op (rfl | rfl)
    · exact ⟨_, _, rfl, h2⟩
    · exact ⟨_, _, rfl, h3⟩
  | @mul a b ts us op ho _ _ ih1 ih2 =>
    rintro _ ⟨⟩ n vs s hn h1 h2 h3 hs
    rw [List.append_assoc, List.cons_append] at hs
    have hne : lead (.sym op :: (us ++ vs)) ≠ some '^' := by
      rcases ho with rfl | rfl <;> simp [lead, Tok.text]
    obtain ⟨r, g1, g2⟩ := ih1 _ rfl n _ s hn hne hs
    have := power_eats (expression_eats n) _ _ _ g1
    obtain ⟨r1, g3, g4⟩ := lit_ok g2
    have := lit_length g3
    obtain ⟨v, cs, r2, r3, rfl, g5, g6, g7⟩ := ih2 _ rfl n vs r1 (by omega) h1 h2 h3 g4
    refine ⟨a, (op, v) :: cs, r, r3, rfl, g1, many_step (chained_eats (power_eats (expression_eats n)) _) ?_ g6, g7⟩
    refine chained_two g2 ho ⟨_, _, _, _, rfl, rfl, by decide⟩ fun r1' e _ => ?_
    rw [g3] at e
    cases e
    exact g5
  | sum1 _ ih =>
    rintro a ⟨⟩ n us s hn hu hs
    obtain ⟨r, g1, g2⟩ := (ih _ rfl n us s hn hu.1 hu.2.1 hu.2.2.1 hs).run
    refine ⟨_, [], r, r, rfl, g1, many_fail (chained_fail g2 ?_), g2⟩
    simp only [List.mem_cons, List.not_mem_nil, or_false]
    rintro op (rfl | rfl)
    · exact ⟨_, _, rfl, hu.2.2.2.1⟩
    · exact ⟨_, _, rfl, hu.2.2.2.2⟩
  | @add a b ts us op ho _ _ ih1 ih2 =>
    rintro _ ⟨⟩ n vs s hn hu hs
    rw [List.append_assoc, List.cons_append] at hs
    have hne : lead (.sym op :: (us ++ vs)) ≠ some '^' ∧ lead (.sym op :: (us ++ vs)) ≠ some '*' ∧
        lead (.sym op :: (us ++ vs)) ≠ some '/' := by
      rcases ho with rfl | rfl <;> simp [lead, Tok.text]
    obtain ⟨r, g1, g2⟩ := (ih1 _ rfl n _ s hn hne.1 hne.2.1 hne.2.2 hs).run
    have := chain_eats (power_eats (expression_eats n)) _ _ _ g1
    obtain ⟨r1, g3, g4⟩ := lit_ok g2
    have := lit_length g3
    obtain ⟨v, cs, r2, r3, rfl, g5, g6, g7⟩ := ih2 _ rfl n vs r1 (by omega) hu g4
    refine ⟨a, (op, v) :: cs, r, r3, rfl, g1,
      many_step (chained_eats (chain_eats (power_eats (expression_eats n))) _) ?_ g6, g7⟩
    refine chained_two g2 ho ⟨_, _, _, _, rfl, rfl, by decide⟩ fun r1' e _ => ?_
    rw [g3] at e
    cases e
    exact g5
  | fn _ ih =>
    rintro a ⟨⟩ n us s hn hu hs
    cases n with
    | zero => omega
    | succ n =>
      obtain ⟨r, h1, h2⟩ := functor_reads ih (n := n) (by omega) hs
      exact ⟨r, by rw [elementP_succ, h1]; rfl, h2⟩
  | cons =>
    rintro a ⟨⟩ n us s hn hu hs
    cases n with
    | zero => omega
    | succ n =>
      obtain ⟨h0, r, h1, h2⟩ := constant_reads (el := elementP n) hs
      exact ⟨r, by rw [elementP_succ, h0, h1]; rfl, h2⟩
  | @elist e ts hl ih =>
    rintro a ⟨⟩ n us s hn hu hs
    cases n with
    | zero => omega
    | succ n =>
      obtain ⟨c, h1, h2⟩ := hl.starts hs
      have hlow : ∀ c', lead (ts ++ us) = some c' → isLower c' = false := by
        rw [lead_append h1]; rintro _ ⟨⟩; rw [h2]; rfl
      obtain ⟨r, h3, h4⟩ := ih _ rfl n us s (by omega) hs
      exact ⟨r, by rw [elementP_succ, functor_fail hs hlow, constant_fail hs hlow, h3]; rfl, h4⟩
  | @esum e ts hl ih =>
    rintro a ⟨⟩ n us s hn hu hs
    cases n with
    | zero => omega
    | succ n =>
      obtain ⟨c, h1, h2⟩ := hl.starts hs
      have hlow : ∀ c', lead (ts ++ us) = some c' → isLower c' = false := by
        rw [lead_append h1]; rintro _ ⟨⟩
        rcases h2 with h | h | h | h
        · exact upper_not_lower h
        · exact digit_not_lower h
        · rw [h]; rfl
        · rw [h]; rfl
      have hlist : lead (ts ++ us) ≠ some '[' := by
        rw [lead_append h1]; rintro ⟨⟩
        rcases h2 with h | h | h | h <;> revert h <;> decide
      obtain ⟨r, h3, h4⟩ := (ih _ rfl n us s (by omega) hu hs).run
      refine ⟨r, ?_, h4⟩
      rw [elementP_succ, functor_fail hs hlow, constant_fail hs hlow, list_fail hs hlist]
      exact h3
  | nil =>
    rintro a ⟨⟩ n us s hn hs
    obtain ⟨r1, h1, h2⟩ := lit_ok hs
    obtain ⟨r2, h3, h4⟩ := lit_ok h2
    exact ⟨r2, by simp only [listP, h1, h3, PR.bind_ok, PR.map_ok, PR.orElse_ok]; rfl, h4⟩
  | @list cs ts ha ih =>
    rintro a ⟨⟩ n us s hn hs
    simp only [List.cons_append, List.append_assoc] at hs
    obtain ⟨r1, h1, h2⟩ := lit_ok hs
    have := lit_eats h1
    obtain ⟨c, hl, hc⟩ := ha.starts h2
    have hno : lit [']'] r1 = .fail := by
      refine lit_fail h2 ?_
      rw [lead_append hl]; rintro ⟨⟩
      rcases hc with h | h | h | h | h | h <;> revert h <;> decide
    obtain ⟨r2, h3, h4⟩ := ih n _ r1 (by omega) (.of_lead (c := ']') rfl (by decide)) (by simp [lead, Tok.text]) h2
    obtain ⟨r3, h5, h6⟩ := lit_ok h4
    refine ⟨r3, ?_, h6⟩
    simp only [listP, h1, hno, h3 (r1.length + 1) (by omega), h5, PR.bind_ok, PR.map_ok, PR.map_fail, PR.orElse_fail]
    rfl
  | @listVar cs ts w ha ih =>
    rintro a ⟨⟩ n us s hn hs
    simp only [List.cons_append, List.append_assoc] at hs
    obtain ⟨r1, h1, h2⟩ := lit_ok hs
    have := lit_eats h1
    obtain ⟨c, hl, hc⟩ := ha.starts h2
    have hno : lit [']'] r1 = .fail := by
      refine lit_fail h2 ?_
      rw [lead_append hl]; rintro ⟨⟩
      rcases hc with h | h | h | h | h | h <;> revert h <;> decide
    obtain ⟨r2, h3, h4⟩ := ih n _ r1 (by omega) (.of_lead (c := '|') rfl (by decide)) (by simp [lead, Tok.text]) h2
    have hno2 : lit [']'] r2 = .fail := lit_fail h4 (by simp [lead, Tok.text])
    obtain ⟨r3, h5, h6⟩ := lit_ok h4
    obtain ⟨r4, h7, h8⟩ := variableP_ok h6
    obtain ⟨r5, h9, h10⟩ := lit_ok h8
    refine ⟨r5, ?_, h10⟩
    simp only [listP, h1, hno, hno2, h3 (r1.length + 1) (by omega), h5, h7, h9, PR.bind_ok, PR.map_ok, PR.map_fail, PR.orElse_ok, PR.orElse_fail]
  | @listList cs ts t us ha hb ih1 ih2 =>
    rintro a ⟨⟩ n vs s hn hs
    simp only [List.cons_append, List.append_assoc] at hs
    obtain ⟨r1, h1, h2⟩ := lit_ok hs
    have := lit_eats h1
    obtain ⟨c, hl, hc⟩ := ha.starts h2
    have hno : lit [']'] r1 = .fail := by
      refine lit_fail h2 ?_
      rw [lead_append hl]; rintro ⟨⟩
      rcases hc with h | h | h | h | h | h <;> revert h <;> decide
    obtain ⟨r2, h3, h4⟩ := ih1 n _ r1 (by omega) (.of_lead (c := '|') rfl (by decide)) (by simp [lead, Tok.text]) h2
    have := sepBy1_eats (element_eats n) _ _ _ (h3 (r1.length + 1) (by omega))
    have hno2 : lit [']'] r2 = .fail := lit_fail h4 (by simp [lead, Tok.text])
    obtain ⟨r3, h5, h6⟩ := lit_ok h4
    have := lit_eats h5
    obtain ⟨d, hl2, hd⟩ := hb.starts h6
    have hv : variableP r3 = .fail := by
      refine variable_fail h6 ?_
      rw [lead_append hl2]; rintro _ ⟨⟩; rw [hd]; rfl
    cases n with
    | zero => omega
    | succ n =>
      obtain ⟨r4, h7, h8⟩ := ih2 _ rfl n _ r3 (by omega) h6
      obtain ⟨r5, h9, h10⟩ := lit_ok h8
      have h7' : (elementList (n + 1)).2 r3 = .ok t r4 := h7
      refine ⟨r5, ?_, h10⟩
      simp only [listP, h1, hno, hno2, h3 (r1.length + 1) (by omega), h5, hv, h7', h9, PR.bind_ok, PR.map_ok, PR.map_fail, PR.orElse_ok, PR.orElse_fail]
  | one _ ih =>
    rintro n us s hn hu hc hs
    obtain ⟨r, h1, h2⟩ := ih _ rfl n us s hn hu hs
    have := element_eats n _ _ _ h1
    refine ⟨r, fun k hk => ?_, h2⟩
    unfold sepBy1
    rw [h1, PR.bind_ok, many_fail (by rw [lit_fail h2 hc]; rfl) k (by omega)]; rfl
  | @more e cs ts us _ _ ih1 ih2 =>
    rintro n vs s hn hu hc hs
    rw [List.append_assoc, List.cons_append] at hs
    obtain ⟨r, h1, h2⟩ := ih1 _ rfl n _ s hn (.of_lead (c := ',') rfl (by decide)) hs
    have := element_eats n _ _ _ h1
    obtain ⟨r1, h3, h4⟩ := lit_ok h2
    have := lit_eats h3
    obtain ⟨r2, h5, h6⟩ := ih2 n vs r1 (by omega) hu hc h4
    refine ⟨r2, fun k hk => ?_, h6⟩
    cases k with
    | zero => omega
    | succ k =>
      obtain ⟨v, r3, g1, g2⟩ := PR.bind_eq_ok.1 (h5 k (by omega))
      unfold sepBy1
      rw [h1, PR.bind_ok]
      simp only [many, h3, PR.bind_ok, g1]
      rw [g2]; rfl

/-! ## Goals, clauses, programs -/

theorem Syn.element {a ts} (h : Syn .elem [a] ts) {n us s} (hn : s.length < n) (hu : NoOp us) (hs : Spell (ts ++ us) s) :
    ∃ r, elementP n s = .ok a r ∧ Spell us r := h.reads a rfl n us s hn hu hs

theorem Syn.expression {a ts} (h : Syn .sum [a] ts) {n us s} (hn : s.length < n) (hu : NoOp us) (hs : Spell (ts ++ us) s) :
    ∃ r, expressionP n s = .ok a r ∧ Spell us r := by
  cases n with
  | zero => omega
  | succ n => exact (h.reads a rfl n us s (by omega) hu hs).run

theorem HeadSyn.element {a ts} (h : HeadSyn a ts) : Syn .elem [a] ts := by
  cases h with
  | fn h => exact .fn h
  | cons => exact .cons

theorem HeadSyn.reads {a ts} (h : HeadSyn a ts) {n us s} (hn : s.length ≤ n) (hs : Spell (ts ++ us) s) :
    ∃ r, (functorP (elementP n) s).orElse (constantP s) = .ok a r ∧ Spell us r := by
  cases h with
  | fn h =>
    obtain ⟨r, h1, h2⟩ := functor_reads h.reads hn hs
    exact ⟨r, by rw [h1]; rfl, h2⟩
  | cons =>
    obtain ⟨h0, r, h1, h2⟩ := constant_reads (el := elementP n) hs
    exact ⟨r, by rw [h0, h1]; rfl, h2⟩

theorem HeadSyn.lead {a ts} (h : HeadSyn a ts) {us s} (hs : Spell (ts ++ us) s) : ∃ c, lead ts = some c ∧ isLower c = true := by
  cases h with
  | fn h => obtain ⟨c, cs, rfl, hc, _⟩ := hs.valid; exact ⟨c, rfl, hc⟩
  | cons => obtain ⟨c, cs, rfl, hc, _⟩ := hs.valid; exact ⟨c, rfl, hc⟩

theorem infix_ok {el rhs : P Node} {op : Name} {s a r0 b r1 r} (h1 : el s = .ok a r0) (h3 : lit op r0 = .ok () r1) (h4 : rhs r1 = .ok b r) : infixP el op rhs s = .ok (.fn op [a, b]) r := by
  simp [infixP, h1, h3, h4]

theorem infix_fail {el rhs : P Node} {c : Char} {cs : List Char} {s a r0 us} (h1 : el s = .ok a r0) (h2 : Spell us r0)
    (hc : lead us ≠ some c) : infixP el (c :: cs) rhs s = .fail := by
  simp [infixP, h1, lit_fail h2 hc]

/-- What follows a goal. -/
def GoalEnd (us : List Tok) : Prop := lead us = some ',' ∨ lead us = some '.'

theorem GoalEnd.noOp {us} (h : GoalEnd us) : NoOp us := by
  rcases h with h | h
  · exact .of_lead h (by decide)
  · exact .of_lead h (by decide)

theorem GoalSyn.reads {a ts} (h : GoalSyn a ts) {n us s} (hn : s.length < n) (hu : GoalEnd us) (hs : Spell (ts ++ us) s) :
    ∃ r, atomP n s = .ok a r ∧ Spell us r := by
  cases h with
  | @eq a b ts us' h1 h2 =>
    rw [List.append_assoc, List.cons_append] at hs
    obtain ⟨r0, g1, g2⟩ := h1.element hn (.of_lead (c := '=') rfl (by decide)) hs
    obtain ⟨r1, g3, g4⟩ := lit_ok g2
    have := element_eats n _ _ _ g1
    have := lit_length g3
    obtain ⟨r, g5, g6⟩ := h2.element (n := n) (s := r1) (by omega) hu.noOp g4
    exact ⟨r, by simp only [atomP, infix_ok g1 g3 g5, PR.orElse_ok], g6⟩
  | @neq a b ts us' h1 h2 =>
    rw [List.append_assoc, List.cons_append] at hs
    obtain ⟨r0, g1, g2⟩ := h1.element hn (.of_lead (c := '\\') rfl (by decide)) hs
    obtain ⟨r1, g3, g4⟩ := lit_ok g2
    have := element_eats n _ _ _ g1
    have := lit_length g3
    obtain ⟨r, g5, g6⟩ := h2.element (n := n) (s := r1) (by omega) hu.noOp g4
    have hf : infixP (elementP n) n!"==" (elementP n) s = .fail := infix_fail g1 g2 (by simp [PBfs.lead, Tok.text])
    exact ⟨r, by simp only [atomP, hf, infix_ok g1 g3 g5, PR.orElse_ok, PR.orElse_fail], g6⟩
  | @is a b ts us' h1 h2 =>
    rw [List.append_assoc, List.cons_append] at hs
    obtain ⟨r0, g1, g2⟩ := h1.element hn (.of_lead (c := 'i') rfl (by decide)) hs
    obtain ⟨r1, g3, g4⟩ := lit_ok g2
    have := element_eats n _ _ _ g1
    have := lit_length g3
    obtain ⟨r, g5, g6⟩ := h2.expression (n := n) (s := r1) (by omega) hu.noOp g4
    have hf : infixP (elementP n) n!"==" (elementP n) s = .fail := infix_fail g1 g2 (by simp [PBfs.lead, Tok.text])
    have hf2 : infixP (elementP n) n!"\\==" (elementP n) s = .fail := infix_fail g1 g2 (by simp [PBfs.lead, Tok.text])
    exact ⟨r, by simp only [atomP, hf, hf2, infix_ok g1 g3 g5, PR.orElse_ok, PR.orElse_fail], g6⟩
  | head h =>
    obtain ⟨r0, g1, g2⟩ := h.element.element hn hu.noOp hs
    have hne : ∀ c : Char, c ≠ ',' → c ≠ '.' → lead us ≠ some c := by
      intro c h1 h2 e
      rcases hu with h | h <;> rw [h] at e <;> cases e <;> simp_all
    have hf : infixP (elementP n) n!"==" (elementP n) s = .fail := infix_fail g1 g2 (hne _ (by decide) (by decide))
    have hf2 : infixP (elementP n) n!"\\==" (elementP n) s = .fail := infix_fail g1 g2 (hne _ (by decide) (by decide))
    have hf3 : infixP (elementP n) n!"is" (expressionP n) s = .fail := infix_fail g1 g2 (hne _ (by decide) (by decide))
    obtain ⟨r, g3, g4⟩ := h.reads (n := n) (by omega) hs
    exact ⟨r, by simp only [atomP, hf, hf2, hf3, PR.orElse_fail]; exact g3, g4⟩

theorem GoalsSyn.reads {as ts} (h : GoalsSyn as ts) : ∀ {n us s}, s.length < n → lead us = some '.' → Spell (ts ++ us) s →
    ∃ r, (∀ k, s.length ≤ k → sepBy1 (atomP n) [','] k s = .ok as r) ∧ Spell us r := by
  induction h with
  | one h =>
    intro n us s hn hu hs
    obtain ⟨r, h1, h2⟩ := h.reads hn (.inr hu) hs
    have := atom_eats n _ _ _ h1
    refine ⟨r, fun k hk => ?_, h2⟩
    unfold sepBy1
    rw [h1, PR.bind_ok, many_fail (by rw [lit_fail h2 (by rw [hu]; decide)]; rfl) k (by omega)]; rfl
  | more h _ ih =>
    intro n us s hn hu hs
    rw [List.append_assoc, List.cons_append] at hs
    obtain ⟨r, h1, h2⟩ := h.reads hn (.inl rfl) hs
    have := atom_eats n _ _ _ h1
    obtain ⟨r1, h3, h4⟩ := lit_ok h2
    have := lit_eats h3
    obtain ⟨r2, h5, h6⟩ := ih (n := n) (by omega) hu h4
    refine ⟨r2, fun k hk => ?_, h6⟩
    cases k with
    | zero => omega
    | succ k =>
      obtain ⟨v, r3, g1, g2⟩ := PR.bind_eq_ok.1 (h5 k (by omega))
      unfold sepBy1
      rw [h1, PR.bind_ok]
      simp only [many, h3, PR.bind_ok, g1]
      rw [g2]; rfl

theorem ClauseSyn.reads {c ts} (h : ClauseSyn c ts) {n us s} (hn : s.length < n) (hs : Spell (ts ++ us) s) :
    ∃ r, clauseP n s = .ok c r ∧ Spell us r := by
  cases h with
  | @fact h ts hh =>
    rw [List.append_assoc] at hs
    obtain ⟨r, h1, h2⟩ := hh.reads (n := n) (by omega) hs
    obtain ⟨r1, h3, h4⟩ := lit_ok h2
    have hf : lit n!":-" r = .fail := lit_fail h2 (by simp [PBfs.lead, Tok.text])
    refine ⟨r1, ?_, h4⟩
    unfold clauseP
    rw [h1, PR.bind_ok]
    simp only [hf, h3, PR.bind_fail, PR.orElse_fail, PR.bind_ok, PR.must_ok, PR.map_ok]
  | @rule h b ts us' hh hb =>
    simp only [List.append_assoc, List.cons_append] at hs
    obtain ⟨r, h1, h2⟩ := hh.reads (n := n) (by omega) hs
    have := head_eats n _ _ _ h1
    obtain ⟨r1, h3, h4⟩ := lit_ok h2
    have := lit_length h3
    obtain ⟨r2, h5, h6⟩ := hb.reads (n := n) (s := r1) (by omega) rfl h4
    obtain ⟨r3, h7, h8⟩ := lit_ok h6
    refine ⟨r3, ?_, h8⟩
    unfold clauseP
    rw [h1, PR.bind_ok]
    simp only [h3, h5 (r1.length + 1) (by omega), h7, PR.orElse_ok, PR.bind_ok, PR.must_ok, PR.map_ok]

theorem ClauseSyn.lead {c ts} (h : ClauseSyn c ts) {us s} (hs : Spell (ts ++ us) s) : ∃ ch, lead ts = some ch ∧ isLower ch = true := by
  cases h with
  | fact hh =>
    rw [List.append_assoc] at hs
    obtain ⟨c, h1, h2⟩ := hh.lead hs
    exact ⟨c, lead_append h1, h2⟩
  | rule hh _ =>
    simp only [List.append_assoc, List.cons_append] at hs ⊢
    obtain ⟨c, h1, h2⟩ := hh.lead hs
    exact ⟨c, lead_append h1, h2⟩

theorem comment_reads {t us s} (h : Spell (.comment t :: us) s) : ∃ r, commentP s = .ok () r ∧ Spell us r := by
  obtain ⟨r, h1, h2, _, h4⟩ := h.cons_inv
  refine ⟨r, ?_, h4⟩
  have hl : lit ['%'] s = .ok () (t ++ '\n' :: r) := exactly_ok.2 (by simpa [Tok.text] using h1)
  have ht : ∀ c ∈ t, decide (c ≠ '\n') = true := by
    intro c hc
    simp only [ne_eq, decide_not, Bool.not_eq_eq_eq_not, Bool.not_true, decide_eq_false_iff_not]
    rintro rfl
    exact h2 hc
  have hd := (takeWhile_stop (p := fun c => decide (c ≠ '\n')) (s := '\n' :: r) ht (by simp)).2
  unfold commentP
  rw [hl, PR.bind_ok, hd]
  rfl

theorem comment_fail {us s} (h : Spell us s) (hl : lead us ≠ some '%') : commentP s = .fail := by
  unfold commentP
  rw [lit_fail h hl]; rfl

theorem ClauseSyn.first {c ts} (h : ClauseSyn c ts) {us t us'} : ts ++ us ≠ .comment t :: us' := by
  cases h with
  | fact hh => cases hh <;> simp
  | rule hh _ => cases hh <;> simp

theorem ProgSyn.percent {p ts} (h : ProgSyn p ts) {s} (hs : Spell ts s) (hl : PBfs.lead ts = some '%') : ∃ t us, ts = .comment t :: us := by
  cases h with
  | nil => cases hl
  | comment _ => exact ⟨_, _, rfl⟩
  | clause hc _ =>
    obtain ⟨c, h1, h2⟩ := hc.lead hs
    rw [lead_append h1] at hl
    cases hl
    exact absurd h2 (by decide)

/-- The lines of a program are read. -/
def LinesRead (p : List Clause) (ts : List Tok) : Prop :=
  ∀ n s, s.length < n → Spell ts s → ∃ ls r, (∀ k, s.length < k → many (lineP n) k s = .ok ls r) ∧ skipWs r = [] ∧ ls.filterMap id = p

theorem ProgSyn.reads {p ts} (h : ProgSyn p ts) : LinesRead p ts ∧ ∀ t us, ts = .comment t :: us → LinesRead p us := by
  induction h with
  | nil =>
    refine ⟨fun n s hn hs => ⟨[], s, many_fail ?_, ?_, rfl⟩, fun t us e => by cases e⟩
    · have h1 : commentP s = .fail := comment_fail hs (by simp [lead])
      have h2 : clauseP n s = .fail := by
        unfold clauseP
        rw [functor_fail hs (by simp [lead]), constant_fail hs (by simp [lead])]; rfl
      simp [lineP, ruleP, h1, h2]
    · cases hs with
      | nil hw => exact skipWs_all hw
  | comment _ ih =>
    refine ⟨fun n s hn hs => ?_, fun t us e => by cases e; exact ih.1⟩
    obtain ⟨r, h1, h2⟩ := comment_reads hs
    have := comment_eats _ _ _ h1
    obtain ⟨ls, r1, h3, h4, h5⟩ := ih.1 n r (by omega) h2
    refine ⟨none :: ls, r1, many_step (line_eats n) (r0 := r) ?_ h3, h4, by simpa using h5⟩
    simp [lineP, h1]
  | @clause c p ts us hc hp ih =>
    refine ⟨fun n s hn hs => ?_, fun t us' e => ?_⟩
    · obtain ⟨ch, hl, hlow⟩ := hc.lead hs
      have hcf : commentP s = .fail := by
        refine comment_fail hs ?_
        rw [lead_append hl]; rintro ⟨⟩; revert hlow; decide
      obtain ⟨r, h1, h2⟩ := hc.reads hn hs
      have := clause_eats n _ _ _ h1
      have key : ∃ r', ruleP n s = .ok c r' ∧ ∃ ts', Spell ts' r' ∧ LinesRead p ts' := by
        cases hcm : us with
        | nil =>
          rw [hcm] at h2
          exact ⟨r, by simp [ruleP, h1, comment_fail h2 (by simp [PBfs.lead])], [], h2, hcm ▸ ih.1⟩
        | cons t us' =>
          rw [hcm] at h2
          by_cases ht : ∃ t', t = .comment t'
          · obtain ⟨t', rfl⟩ := ht
            obtain ⟨r', h3, h4⟩ := comment_reads h2
            exact ⟨r', by simp [ruleP, h1, h3], us', h4, ih.2 t' us' hcm⟩
          · refine ⟨r, ?_, _, h2, hcm ▸ ih.1⟩
            have : PBfs.lead (t :: us') ≠ some '%' := fun e => by
              rw [hcm] at hp
              obtain ⟨t', us'', e'⟩ := hp.percent h2 e
              cases e'
              exact ht ⟨_, rfl⟩
            simp [ruleP, h1, comment_fail h2 this]
      obtain ⟨r', h3, ts', h4, h5⟩ := key
      have he : lineP n s = .ok (some c) r' := by simp [lineP, hcf, h3]
      have := line_eats n _ _ _ he
      obtain ⟨ls, r1, g1, g2, g3⟩ := h5 n r' (by omega) h4
      exact ⟨some c :: ls, r1, many_step (line_eats n) he g1, g2, by simpa using g3⟩
    · exact absurd e hc.first

/-- Every text of a program is read as this program. -/
theorem parseProgram_complete {text p} (h : ProgText p text) : parseProgram text = .ok p := by
  obtain ⟨ts, h1, h2⟩ := h
  obtain ⟨ls, r, h3, h4, h5⟩ := h1.reads.1 (text.length + 1) text (by omega) h2
  unfold parseProgram
  rw [h3 _ (by omega)]
  simp only [h4, if_true, h5]

/-- Every text of a query is read as this query. -/
theorem parseQuery_complete {text q} (h : QueryText q text) : parseQuery text = .ok q := by
  obtain ⟨ts, h1, h2⟩ := h
  obtain ⟨r, h3, h4⟩ := h1.reads (n := text.length + 1) (by omega) rfl h2
  obtain ⟨r1, h5, h6⟩ := lit_ok h4
  have h7 : skipWs r1 = [] := by
    cases h6 with
    | nil hw => exact skipWs_all hw
  unfold parseQuery
  rw [h3 _ (by omega)]
  simp only [h5, h7, if_true]

theorem parseProgram_iff {text p} : parseProgram text = .ok p ↔ ProgText p text := ⟨parseProgram_sound, parseProgram_complete⟩

theorem parseQuery_iff {text q} : parseQuery text = .ok q ↔ QueryText q text := ⟨parseQuery_sound, parseQuery_complete⟩

end PBfs
