import Verif.Proof.Reading3
import Verif.Spec.ReadingTexts
/-!
# Texts that take long to read
-/
namespace PBfs

open Timed

theorem Timed.orElse_steps (x y : Timed α) : x.steps ≤ (x.orElse y).steps := by
  unfold Timed.orElse
  split <;> simp

theorem Timed.orElse_steps' {x : Timed α} (h : x.res = .fail) (y : Timed α) : (x.orElse y).steps = x.steps + y.steps := by
  unfold Timed.orElse
  rw [h]

theorem Timed.bind_steps (x : Timed α) (k : α → List Char → Timed β) : x.steps ≤ (x.bind k).steps := by
  unfold Timed.bind
  split <;> simp

theorem Timed.bind_steps' {x : Timed α} {a r} (h : x.res = .ok a r) (k : α → List Char → Timed β) : (x.bind k).steps = x.steps + (k a r).steps := by
  unfold Timed.bind
  rw [h]

theorem Timed.must_steps (x : Timed α) (q) : (x.must q).steps = x.steps := rfl

theorem Timed.map_steps (x : Timed α) (f : α → β) : (x.map f).steps = x.steps := rfl

theorem sepBy1T_steps (p : TP α) (sep k s) : (p s).steps ≤ (sepBy1T p sep k s).steps := bind_steps _ _

/-- What is behind an opening bracket is read twice unless the list ends with a bracket after a comma-separated row. -/
theorem listT_twice {el ls : TP Node} {t} (h1 : lit [']'] t = .fail)
    (h2 : (sepBy1T el [','] (t.length + 1) t).res = .fail ∨ ∃ cs r, (sepBy1T el [','] (t.length + 1) t).res = .ok cs r ∧ lit [']'] r = .fail) :
    2 * (el t).steps ≤ (listT el ls ('[' :: t)).steps := by
  have h0 : (litT ['['] ('[' :: t)).res = .ok () t := by simp [litT, lit, skipWs, isSpace, exactly]
  have hs := sepBy1T_steps el [','] (t.length + 1) t
  unfold listT
  have a1 : ((litT ['['] ('[' :: t)).bind fun _ r => (litT [']'] r).map fun _ => Node.nil).res = .fail := by
    rw [bind_res, h0]
    simp only [PR.bind, map_res]
    simp [litT, h1, PR.map, PR.bind]
  rw [orElse_steps' a1]
  have a2 : ((litT ['['] ('[' :: t)).bind fun _ r => (sepBy1T el [','] (r.length + 1) r).bind fun cs r =>
      (litT [']'] r).map fun _ => Node.list cs).res = .fail := by
    rw [bind_res, h0]
    simp only [PR.bind, bind_res]
    rcases h2 with h2 | ⟨cs, r, h2, h3⟩
    · rw [h2]
    · rw [h2]
      simp [litT, h3, map_res, PR.map, PR.bind]
  rw [orElse_steps' a2, bind_steps' h0, bind_steps' h0, bind_steps' h0]
  have b1 := bind_steps (sepBy1T el [','] (t.length + 1) t) fun cs r => (litT [']'] r).map fun _ => Node.list cs
  have b2 := bind_steps (sepBy1T el [','] (t.length + 1) t) fun cs r => (litT ['|'] r).bind fun _ r => ((variableT r).orElse (ls r)).bind fun t r =>
    (litT [']'] r).map fun _ => Node.listWith t cs
  omega

theorem elementT_list {m s} (h1 : word isLower s = .fail) : (listT (elementT m) (elementListT m).2 s).steps ≤ (elementT (m + 1) s).steps := by
  have f1 : (functorT (elementT m) s).res = .fail := by simp [functorT, wordT, Timed.bind, h1]
  have f2 : (constantT s).res = .fail := by simp [constantT, wordT, Timed.map, h1, PR.map, PR.bind]
  show _ ≤ ((functorT (elementT m) s).orElse <| (constantT s).orElse <| (listT (elementT m) (elementListT m).2 s).orElse (expressionT (m + 1) s)).steps
  rw [orElse_steps' f1, orElse_steps' f2]
  have := orElse_steps (listT (elementT m) (elementListT m).2 s) (expressionT (m + 1) s)
  omega

theorem elementT_pos (m s) : 1 ≤ (elementT (m + 1) s).steps := by
  have h1 := orElse_steps (functorT (elementT m) s) ((constantT s).orElse <| (listT (elementT m) (elementListT m).2 s).orElse (expressionT (m + 1) s))
  have h2 := bind_steps (wordT isLower s) fun w r => (exactlyT ['('] r).bind fun _ r =>
    ((sepBy1T (elementT m) [','] (r.length + 1) r).must r).bind fun cs r => ((litT [')'] r).must (skipWs r)).map fun _ => Node.fn w cs
  have h3 : 1 ≤ (wordT isLower s).steps := by
    show 1 ≤ blanks s + 1 + _
    omega
  exact Nat.le_trans h3 (Nat.le_trans h2 h1)

/-! ## Brackets that are not closed -/

theorem open_word (p : Char → Bool) (hp : p '[' = false) (n) : word p (List.replicate n '[') = .fail := by
  cases n with
  | zero => rfl
  | succ n => simp [word, List.replicate_succ, skipWs, isSpace, hp]

theorem open_lit (c : Char) (hc : c ≠ '[') (cs n) : lit (c :: cs) (List.replicate n '[') = .fail := by
  cases n with
  | zero => rfl
  | succ n => simp [lit, List.replicate_succ, skipWs, isSpace, exactly, Ne.symm hc]

theorem open_expression (m n) : (expressionT (m + 1) (List.replicate n '[')).res = .fail := by
  have h1 : (variableT (List.replicate n '[')).res = .fail := by
    simp [variableT, wordT, Timed.map, open_word isUpper (by decide), PR.map, PR.bind]
  have h2 : (numberT (List.replicate n '[')).res = .fail := by
    show numberP _ = .fail
    cases n with
    | zero => rfl
    | succ n => simp [numberP, List.replicate_succ, skipWs, isSpace, isDigit]
  have h3 : (litT ['('] (List.replicate n '[')).res = .fail := open_lit '(' (by decide) _ _
  simp [expressionT, chainT, productT, powerT, valueT, bind_res, orElse_res, h1, h2, h3, PR.bind, PR.orElse]

theorem open_fails : ∀ m n, n < m → (elementT m (List.replicate n '[')).res = .fail ∧ 2 ^ n ≤ (elementT m (List.replicate n '[')).steps
  | 0, n, h => absurd h (by omega)
  | m + 1, n, h => by
    have f0 := open_word isLower (by decide) n
    have f1 : (functorT (elementT m) (List.replicate n '[')).res = .fail := by simp [functorT, wordT, Timed.bind, f0]
    have f2 : (constantT (List.replicate n '[')).res = .fail := by simp [constantT, wordT, Timed.map, f0, PR.map, PR.bind]
    have f3 : (listT (elementT m) (elementListT m).2 (List.replicate n '[')).res = .fail ∧
        (1 ≤ n → 2 ^ n ≤ (listT (elementT m) (elementListT m).2 (List.replicate n '[')).steps) := by
      cases n with
      | zero => exact ⟨by simp [listT, litT, lit, skipWs, exactly, Timed.bind, Timed.orElse], fun h => absurd h (by omega)⟩
      | succ n =>
        obtain ⟨i1, i2⟩ := open_fails m n (by omega)
        have h0 : lit ['['] (List.replicate (n + 1) '[') = .ok () (List.replicate n '[') := by
          simp [List.replicate_succ, lit, skipWs, isSpace, exactly]
        have h1 := open_lit ']' (by decide) [] n
        have h2 : ∀ k, (sepBy1T (elementT m) [','] k (List.replicate n '[')).res = .fail := by
          intro k
          simp [sepBy1T, bind_res, i1, PR.bind]
        refine ⟨?_, fun _ => ?_⟩
        · simp [listT, bind_res, orElse_res, map_res, litT, h0, h1, h2, PR.bind, PR.orElse, PR.map]
        · have := listT_twice (ls := (elementListT m).2) h1 (.inl (h2 _))
          rw [List.replicate_succ, Nat.pow_succ]
          omega
    refine ⟨?_, ?_⟩
    · show ((functorT (elementT m) _).orElse <| (constantT _).orElse <| (listT (elementT m) (elementListT m).2 _).orElse (expressionT (m + 1) _)).res = _
      simp [orElse_res, f1, f2, f3.1, open_expression, PR.orElse]
    · cases n with
      | zero => exact elementT_pos _ _
      | succ n => exact Nat.le_trans (f3.2 (by omega)) (elementT_list f0)

theorem open_query (n : Nat) : 2 ^ n ≤ querySteps (List.replicate n '[') := by
  unfold querySteps
  simp only [List.length_replicate]
  have h1 := (open_fails (n + 1) n (by omega)).2
  have h2 := sepBy1T_steps (atomT (n + 1)) [','] (n + 1) (List.replicate n '[')
  have h3 := orElse_steps (infixT (elementT (n + 1)) n!"==" (elementT (n + 1)) (List.replicate n '['))
    ((infixT (elementT (n + 1)) n!"\\==" (elementT (n + 1)) (List.replicate n '[')).orElse <|
      (infixT (elementT (n + 1)) n!"is" (expressionT (n + 1)) (List.replicate n '[')).orElse <|
      (functorT (elementT (n + 1)) (List.replicate n '[')).orElse (constantT (List.replicate n '[')))
  have h4 := bind_steps (elementT (n + 1) (List.replicate n '[')) fun l r => (litT n!"==" r).bind fun _ r => (elementT (n + 1) r).map fun x => Node.fn n!"==" [l, x]
  exact Nat.le_trans h1 (Nat.le_trans h4 (Nat.le_trans h3 (Nat.le_trans h2 (Nat.le_add_right _ _))))

/-! ## Lists in the place of the first element -/

theorem nestedText_cons : ∀ n, ∃ c t, nestedText n = c :: t ∧ (c = 'X' ∨ c = '[')
  | 0 => ⟨_, _, rfl, .inl rfl⟩
  | _ + 1 => ⟨_, _, rfl, .inr rfl⟩

/-- What follows in these texts. -/
def Closes (r : List Char) : Prop := ∃ c t, r = c :: t ∧ (c = '|' ∨ c = ')')

theorem Closes.lit {r} (h : Closes r) (c : Char) (hc : c ≠ '|' ∧ c ≠ ')') (cs) : PBfs.lit (c :: cs) r = .fail := by
  obtain ⟨d, t, rfl, rfl | rfl⟩ := h
  · simp [PBfs.lit, skipWs, isSpace, exactly, Ne.symm hc.1]
  · simp [PBfs.lit, skipWs, isSpace, exactly, Ne.symm hc.2]

theorem Closes.word {r} (h : Closes r) : r.takeWhile isWord = [] ∧ r.dropWhile isWord = r := by
  obtain ⟨d, t, rfl, rfl | rfl⟩ := h <;> simp [isWord, isLower, isUpper, isDigit]

theorem X_word {r} (h : Closes r) : word isLower ('X' :: r) = .fail ∧ word isUpper ('X' :: r) = .ok ['X'] r := by
  simp [word, skipWs, isSpace, isLower, isUpper, h.word.1, h.word.2]

theorem X_element (m) {r} (h : Closes r) : elementP (m + 1) ('X' :: r) = .ok (.var n!"X") r := by
  have f0 := (X_word h).1
  have f1 : functorP (elementP m) ('X' :: r) = .fail := by simp [functorP, f0, PR.bind]
  have f2 : constantP ('X' :: r) = .fail := by simp [constantP, f0, PR.map, PR.bind]
  have l0 : lit ['['] ('X' :: r) = .fail := by simp [lit, skipWs, isSpace, exactly]
  have f3 : listP (elementP m) (elementList m).2 ('X' :: r) = .fail := by simp [listP, l0, PR.bind, PR.orElse]
  have v : ∀ ex, valueP ex ('X' :: r) = .ok (.var n!"X") r := by
    intro ex
    simp [valueP, variableP, (X_word h).2, PR.map, PR.bind, PR.orElse]
  have c : ∀ (p : P Node) (o : Char) os, o ≠ '|' ∧ o ≠ ')' → chainedP p [o :: os] r = .fail := by
    intro p o os ho
    simp [chainedP, h.lit o ho, PR.bind, PR.orElse]
  have c2 : ∀ (p : P Node) (o : Char) os (o' : Char) os', o ≠ '|' ∧ o ≠ ')' → o' ≠ '|' ∧ o' ≠ ')' → chainedP p [o :: os, o' :: os'] r = .fail := by
    intro p o os o' os' ho ho'
    simp [chainedP, h.lit o ho, h.lit o' ho', PR.bind, PR.orElse]
  have f4 : expressionP (m + 1) ('X' :: r) = .ok (.var n!"X") r := by
    simp only [expressionP, chainP, productP, powerP, v, PR.bind, c _ '^' _ (by decide), many, c2 _ '*' _ '/' _ (by decide) (by decide), c2 _ '+' _ '-' _ (by decide) (by decide),
      PR.map, chainNode]
  show (functorP (elementP m) ('X' :: r)).orElse ((constantP ('X' :: r)).orElse
    ((listP (elementP m) (elementList m).2 ('X' :: r)).orElse (expressionP (m + 1) ('X' :: r)))) = _
  rw [f1, f2, f3, f4]
  rfl

theorem nested_element : ∀ n m r, n < m → Closes r → elementP m (nestedText n ++ r) = .ok (nestedTerm n) r
  | _, 0, _, h, _ => absurd h (by omega)
  | 0, m + 1, r, _, hr => X_element m hr
  | n + 1, m + 1, r, h, hr => by
    have hc : Closes (n!"|X]" ++ r) := ⟨'|', _, rfl, .inl rfl⟩
    have ih := nested_element n m (n!"|X]" ++ r) (by omega) hc
    have e : nestedText (n + 1) ++ r = '[' :: (nestedText n ++ (n!"|X]" ++ r)) := by simp [nestedText]
    rw [e]
    generalize ht : nestedText n ++ (n!"|X]" ++ r) = t at ih
    have f0 : word isLower ('[' :: t) = .fail := by simp [word, skipWs, isSpace, isLower]
    have f1 : functorP (elementP m) ('[' :: t) = .fail := by simp [functorP, f0, PR.bind]
    have f2 : constantP ('[' :: t) = .fail := by simp [constantP, f0, PR.map, PR.bind]
    have h0 : lit ['['] ('[' :: t) = .ok () t := by simp [lit, skipWs, isSpace, exactly]
    have h1 : lit [']'] t = .fail := by
      obtain ⟨c, t', e, hc⟩ := nestedText_cons n
      rw [← ht, e]
      rcases hc with rfl | rfl <;> simp [lit, skipWs, isSpace, exactly]
    have h2 : sepBy1 (elementP m) [','] (t.length + 1) t = .ok [nestedTerm n] (n!"|X]" ++ r) := by
      simp only [sepBy1, ih, PR.bind, many, hc.lit ',' (by decide), PR.map]
    have h3 : lit [']'] (n!"|X]" ++ r) = .fail := hc.lit ']' (by decide) []
    have h4 : lit ['|'] (n!"|X]" ++ r) = .ok () ('X' :: ']' :: r) := by simp [lit, skipWs, isSpace, exactly]
    have h5 : variableP ('X' :: ']' :: r) = .ok (.var n!"X") (']' :: r) := by
      simp [variableP, word, skipWs, isSpace, isUpper, isWord, isLower, isDigit, PR.map, PR.bind]
    have h6 : lit [']'] (']' :: r) = .ok () r := by simp [lit, skipWs, isSpace, exactly]
    have f3 : listP (elementP m) (elementList m).2 ('[' :: t) = .ok (nestedTerm (n + 1)) r := by
      simp only [listP, h0, PR.bind, h1, PR.map, PR.orElse, h2, h3, h4, h5, h6]
      rfl
    show (functorP (elementP m) ('[' :: t)).orElse ((constantP ('[' :: t)).orElse
      ((listP (elementP m) (elementList m).2 ('[' :: t)).orElse (expressionP (m + 1) ('[' :: t)))) = _
    rw [f1, f2, f3]
    rfl

theorem nested_steps : ∀ n m r, n < m → Closes r → 2 ^ n ≤ (elementT m (nestedText n ++ r)).steps
  | _, 0, _, h, _ => absurd h (by omega)
  | 0, m + 1, r, _, _ => elementT_pos _ _
  | n + 1, m + 1, r, h, hr => by
    have hc : Closes (n!"|X]" ++ r) := ⟨'|', _, rfl, .inl rfl⟩
    have ih := nested_steps n m (n!"|X]" ++ r) (by omega) hc
    have hel := nested_element n m (n!"|X]" ++ r) (by omega) hc
    have e : nestedText (n + 1) ++ r = '[' :: (nestedText n ++ (n!"|X]" ++ r)) := by simp [nestedText]
    rw [e]
    generalize ht : nestedText n ++ (n!"|X]" ++ r) = t at ih hel
    have f0 : word isLower ('[' :: t) = .fail := by simp [word, skipWs, isSpace, isLower]
    have h1 : lit [']'] t = .fail := by
      obtain ⟨c, t', e, hc⟩ := nestedText_cons n
      rw [← ht, e]
      rcases hc with rfl | rfl <;> simp [lit, skipWs, isSpace, exactly]
    have h2 : (sepBy1T (elementT m) [','] (t.length + 1) t).res = .ok [nestedTerm n] (n!"|X]" ++ r) := by
      rw [sepBy1T_res (elementT_res m)]
      simp only [sepBy1, hel, PR.bind, many, hc.lit ',' (by decide), PR.map]
    have := listT_twice (ls := (elementListT m).2) h1 (.inr ⟨_, _, h2, hc.lit ']' (by decide) []⟩)
    have := elementT_list (m := m) f0
    rw [Nat.pow_succ]
    omega

theorem nestedProgram_length : ∀ n, (nestedProgram n).length = 4 * n + 5
  | 0 => rfl
  | n + 1 => by
    have := nestedProgram_length n
    simp only [nestedProgram, nestedText, List.length_append, List.length_cons, List.length_nil] at this ⊢
    omega

theorem nested_functor (n m) (h : n < m) : functorP (elementP m) (nestedProgram n) = .ok (.fn n!"p" [nestedTerm n]) ['.'] ∧
    2 ^ n ≤ (functorT (elementT m) (nestedProgram n)).steps := by
  have hc : Closes n!")." := ⟨')', _, rfl, .inr rfl⟩
  have h0 : word isLower (nestedProgram n) = .ok ['p'] ('(' :: (nestedText n ++ n!").")) := by
    simp [nestedProgram, word, skipWs, isSpace, isLower, isWord, isUpper, isDigit]
  have h1 : exactly ['('] ('(' :: (nestedText n ++ n!").")) = .ok () (nestedText n ++ n!").") := by simp [exactly]
  have h2 := nested_element n m n!")." h hc
  have h3 : sepBy1 (elementP m) [','] ((nestedText n ++ n!").").length + 1) (nestedText n ++ n!").") = .ok [nestedTerm n] n!")." := by
    simp only [sepBy1, h2, PR.bind, many, hc.lit ',' (by decide), PR.map]
  refine ⟨?_, ?_⟩
  · simp only [functorP, h0, PR.bind, h1, h3, PR.must]
    simp [lit, skipWs, isSpace, exactly, PR.map, PR.bind]
  · unfold functorT
    rw [bind_steps' (show (wordT isLower (nestedProgram n)).res = _ from h0), bind_steps' (show (exactlyT ['('] ('(' :: (nestedText n ++ n!")."))).res = _ from h1)]
    have h4 := bind_steps ((sepBy1T (elementT m) [','] ((nestedText n ++ n!").").length + 1) (nestedText n ++ n!").")).must (nestedText n ++ n!")."))
      fun cs r => ((litT [')'] r).must (skipWs r)).map fun _ => Node.fn ['p'] cs
    have h5 := sepBy1T_steps (elementT m) [','] ((nestedText n ++ n!").").length + 1) (nestedText n ++ n!").")
    have h6 := nested_steps n m n!")." h hc
    rw [must_steps] at h4
    omega

theorem nested_line (n m) (h : n < m) : lineP m (nestedProgram n) = .ok (some ⟨.fn n!"p" [nestedTerm n], []⟩) [] ∧
    2 ^ n ≤ (lineT m (nestedProgram n)).steps := by
  obtain ⟨h1, h2⟩ := nested_functor n m h
  have h3 : lit ['%'] (nestedProgram n) = .fail := by simp [nestedProgram, lit, skipWs, isSpace, exactly]
  refine ⟨?_, ?_⟩
  · have h9 : commentP (nestedProgram n) = .fail := by simp [commentP, h3, PR.bind]
    rw [lineP, h9]
    simp [commentP, ruleP, clauseP, h1, PR.bind, PR.map, PR.orElse, lit, skipWs, isSpace, exactly, PR.must]
  · unfold lineT
    have h4 : ((commentT (nestedProgram n)).map fun _ => (none : Option Clause)).res = .fail := by
      rw [map_res, commentT_res]
      simp [commentP, h3, PR.bind, PR.map]
    rw [orElse_steps' h4, map_steps (ruleT _ _)]
    have h5 := bind_steps (clauseT m (nestedProgram n)) fun c r => ((commentT r).map fun _ => c).orElse ⟨.ok c r, 0⟩
    have h6 := bind_steps ((functorT (elementT m) (nestedProgram n)).orElse (constantT (nestedProgram n))) fun h r =>
      let body : Timed (List Node) := (litT n!":-" r).bind fun _ r => sepBy1T (atomT m) [','] (r.length + 1) r
      (body.orElse ⟨.ok [] r, 0⟩).bind fun b r => ((litT ['.'] r).must (skipWs r)).map fun _ => (⟨h, b⟩ : Clause)
    have h7 := orElse_steps (functorT (elementT m) (nestedProgram n)) (constantT (nestedProgram n))
    have h8 := Nat.le_trans h2 (Nat.le_trans h7 (Nat.le_trans h6 h5))
    exact Nat.le_trans h8 (Nat.le_add_left _ _)

theorem nested_program (n) : parseProgram (nestedProgram n) = .ok [⟨.fn n!"p" [nestedTerm n], []⟩] ∧ 2 ^ n ≤ programSteps (nestedProgram n) := by
  have hl := nestedProgram_length n
  obtain ⟨h1, h2⟩ := nested_line n ((nestedProgram n).length + 1) (by omega)
  refine ⟨?_, ?_⟩
  · unfold parseProgram
    have he : ∀ m, lineP m [] = .fail := by
      intro m
      simp [lineP, commentP, ruleP, clauseP, functorP, constantP, lit, word, skipWs, exactly, PR.bind, PR.map, PR.orElse]
    have h3 : many (lineP ((nestedProgram n).length + 1)) ((nestedProgram n).length + 1) (nestedProgram n) =
        .ok [some ⟨.fn n!"p" [nestedTerm n], []⟩] [] := by
      obtain ⟨k, hk⟩ : ∃ k, (nestedProgram n).length = k + 1 := ⟨4 * n + 4, by omega⟩
      have he := he ((nestedProgram n).length + 1)
      generalize lineP ((nestedProgram n).length + 1) = p at h1 he ⊢
      rw [hk]
      simp only [many, h1, he, PR.map, PR.bind]
    rw [h3]
    rfl
  · unfold programSteps
    simp only []
    refine Nat.le_trans (Nat.le_trans h2 ?_) (Nat.le_add_right _ _)
    unfold manyT
    split <;> simp

theorem nestedTerm_depth : ∀ n, (nestedTerm n).listDepth = n
  | 0 => rfl
  | n + 1 => by
    show max ((nestedTerm n).listDepth + 1) 0 = n + 1
    rw [nestedTerm_depth n]
    omega

theorem nested_height : ∀ n q, height (nestedText n ++ q) = max n (height q)
  | 0, q => by simp [nestedText, height]
  | n + 1, q => by
    have e : nestedText (n + 1) ++ q = '[' :: (nestedText n ++ (n!"|X]" ++ q)) := by simp [nestedText]
    rw [e]
    have h1 : height (n!"|X]" ++ q) = height q - 1 := by simp [height]
    have h2 : height ('[' :: (nestedText n ++ (n!"|X]" ++ q))) = height (nestedText n ++ (n!"|X]" ++ q)) + 1 := by simp [height]
    rw [h2, nested_height n, h1]
    omega

theorem nested_nesting : ∀ n q, height q ≤ nesting q → nesting (nestedText n ++ q) = max n (nesting q)
  | 0, q, hq => by simp [nestedText, height, nesting]; omega
  | n + 1, q, hq => by
    have e : nestedText (n + 1) ++ q = '[' :: (nestedText n ++ (n!"|X]" ++ q)) := by simp [nestedText]
    have h1 : nesting (n!"|X]" ++ q) = nesting q := by simp [nesting, height]; omega
    have h2 : height (n!"|X]" ++ q) = height q - 1 := by simp [height]
    have h3 := nested_height (n + 1) q
    rw [e] at h3 ⊢
    rw [nesting, h3, nested_nesting n _ (by omega), h1]
    omega

theorem nestedProgram_nesting (n) : nesting (nestedProgram n) = n := by
  have h1 : nesting (nestedText n ++ n!").") = n := by
    rw [nested_nesting n _ (by decide)]
    simp [nesting, height]
  have h2 : height (nestedText n ++ n!").") = n := by
    rw [nested_height]
    simp [height]
  simp [nestedProgram, nesting, height, h1, h2]

/-! ## No polynomial -/

theorem beats_line (a d : Nat) : ∃ m, a + (m + 4) * d < 2 ^ m := by
  refine ⟨2 * (a + 4 * d), ?_⟩
  generalize hj : a + 4 * d = j
  have h1 : 2 ^ (2 * j) = 2 ^ j * 2 ^ j := by rw [Nat.two_mul, Nat.pow_add]
  have h2 : j + 1 ≤ 2 ^ j := Nat.lt_two_pow_self
  have h3 : (j + 1) * (j + 1) ≤ 2 ^ j * 2 ^ j := Nat.mul_le_mul h2 h2
  have h4 : (j + 1) * (j + 1) = (j + 1) * a + (j + 1) * (4 * d) + (j + 1) := by
    rw [← Nat.mul_add, hj, Nat.mul_add (j + 1) j 1, Nat.mul_one]
  have h5 : a ≤ (j + 1) * a := Nat.le_mul_of_pos_left a (by omega)
  have h6 : (2 * j + 4) * d ≤ (j + 1) * (4 * d) := by
    have : (j + 1) * (4 * d) = (4 * j + 4) * d := by rw [← Nat.mul_assoc]; congr 1; omega
    rw [this]
    exact Nat.mul_le_mul_right d (by omega)
  omega

/-- Powers of two outgrow every polynomial. -/
theorem beats (c d : Nat) : ∃ n, c * (4 * n + 6) ^ d < 2 ^ n := by
  obtain ⟨m, hm⟩ := beats_line c d
  refine ⟨2 ^ m, ?_⟩
  have h1 : 4 * 2 ^ m + 6 ≤ 2 ^ (m + 4) := by
    have : 1 ≤ 2 ^ m := Nat.one_le_two_pow
    rw [Nat.pow_add]
    omega
  have h2 : (4 * 2 ^ m + 6) ^ d ≤ 2 ^ ((m + 4) * d) := by
    rw [Nat.pow_mul]
    exact Nat.pow_le_pow_left h1 d
  have h3 : c * (4 * 2 ^ m + 6) ^ d ≤ 2 ^ c * 2 ^ ((m + 4) * d) := Nat.mul_le_mul (Nat.le_of_lt Nat.lt_two_pow_self) h2
  rw [← Nat.pow_add] at h3
  exact Nat.lt_of_le_of_lt h3 (Nat.pow_lt_pow_right (by decide) hm)

end PBfs
