import Verif.Proof.ParserSound
/-! # The parser consumes text, and its recursion is deep enough -/
namespace PBfs

/-- Success consumes at least one character. -/
def Eats (p : P α) : Prop := ∀ s a r, p s = .ok a r → r.length < s.length

/-- The bounds of the recursion are not reached on texts of at most `n` characters. -/
def Safe (n : Nat) (p : P α) : Prop := ∀ s, s.length ≤ n → p s ≠ .hang

theorem lit_ne_hang {t s} : lit t s ≠ .hang := by
  rcases lit_total (t := t) (s := s) with h | ⟨r, h⟩ <;> rw [h] <;> simp

theorem exactly_ne_hang {t s} : exactly t s ≠ .hang := by
  rcases exactly_total (t := t) (s := s) with h | ⟨r, h⟩ <;> rw [h] <;> simp

theorem word_ne_hang {p s} : word p s ≠ .hang := by
  rcases word_total (p := p) (s := s) with h | ⟨_, r, h⟩ <;> rw [h] <;> simp

theorem variable_ne_hang {s} : variableP s ≠ .hang := by
  unfold variableP
  rw [ne_eq, PR.map_eq_hang]
  exact word_ne_hang

theorem constant_ne_hang {s} : constantP s ≠ .hang := by
  unfold constantP
  rw [ne_eq, PR.map_eq_hang]
  exact word_ne_hang

theorem number_ne_hang {s} : numberP s ≠ .hang := by
  rcases numberP_total (s := s) with h | ⟨_, r, h⟩ <;> rw [h] <;> simp

theorem variable_eats : Eats variableP := by
  intro s a r h
  unfold variableP at h
  obtain ⟨_, h1, _⟩ := PR.map_eq_ok.1 h
  exact word_length h1

theorem constant_eats : Eats constantP := by
  intro s a r h
  unfold constantP at h
  obtain ⟨_, h1, _⟩ := PR.map_eq_ok.1 h
  exact word_length h1

theorem lit_eats {c : Char} {cs s u r} (h : lit (c :: cs) s = .ok u r) : r.length < s.length := by
  have := lit_length h
  rw [List.length_cons] at this
  omega

theorem many_le {p : P α} (hp : Eats p) : ∀ (k : Nat) {s cs r}, many p k s = .ok cs r → r.length ≤ s.length
  | 0, _, _, _, h => by cases h
  | k + 1, s, cs, r, h => by
    simp only [many] at h
    split at h
    · rename_i a r1 h1
      obtain ⟨_, h2, _⟩ := PR.map_eq_ok.1 h
      have := many_le hp k h2
      have := hp _ _ _ h1
      omega
    · cases h; omega
    · cases h
    · cases h

theorem many_safe {p : P α} {L : Nat} (hp : Eats p) (hs : Safe L p) :
    ∀ (k : Nat) {s : List Char}, s.length ≤ L → s.length < k → many p k s ≠ .hang
  | 0, _, _, h => by omega
  | k + 1, s, h1, h2 => by
    simp only [many]
    split
    · rename_i a r h3
      rw [ne_eq, PR.map_eq_hang]
      have := hp _ _ _ h3
      exact many_safe hp hs k (by omega) (by omega)
    · simp
    · simp
    · rename_i h3; exact absurd h3 (hs s h1)

theorem value_eats {ex : P Node} (hex : Eats ex) : Eats (valueP ex) := by
  intro s a r h
  unfold valueP at h
  rcases PR.orElse_eq_ok.1 h with h | ⟨_, h⟩
  · exact variable_eats _ _ _ h
  rcases PR.orElse_eq_ok.1 h with h | ⟨_, h⟩
  · exact numberP_length h
  obtain ⟨_, r1, h1, h⟩ := PR.bind_eq_ok.1 h
  obtain ⟨e, r2, h2, h⟩ := PR.bind_eq_ok.1 h
  obtain ⟨_, h3, rfl⟩ := PR.map_eq_ok.1 h
  rw [PR.must_eq_ok] at h2 h3
  have := lit_eats h1
  have := hex _ _ _ h2
  have := lit_eats h3
  omega

theorem chained_eats {operand : P Node} (ho : Eats operand) : ∀ ops, Eats (chainedP operand ops)
  | [], _, _, _, h => by cases h
  | o :: ops, s, a, r, h => by
    simp only [chainedP] at h
    rcases PR.orElse_eq_ok.1 h with h | ⟨_, h⟩
    · obtain ⟨_, r1, h1, h⟩ := PR.bind_eq_ok.1 h
      obtain ⟨w, h2, e⟩ := PR.map_eq_ok.1 h
      rw [PR.must_eq_ok] at h2
      have := lit_length h1
      have := ho _ _ _ h2
      omega
    · exact chained_eats ho ops _ _ _ h

theorem power_eats {ex : P Node} (hex : Eats ex) : Eats (powerP ex) := by
  intro s a r h
  unfold powerP at h
  obtain ⟨v, r1, h1, h⟩ := PR.bind_eq_ok.1 h
  have := value_eats hex _ _ _ h1
  split at h
  · rename_i c r2 hc
    cases h
    have := chained_eats (value_eats hex) _ _ _ _ hc
    omega
  · cases h; exact this
  · cases h
  · cases h

theorem chain_eats {operand : P Node} {ops} (ho : Eats operand) : Eats (chainP operand ops) := by
  intro s a r h
  unfold chainP at h
  obtain ⟨v, r1, h1, h⟩ := PR.bind_eq_ok.1 h
  obtain ⟨cs, h2, _⟩ := PR.map_eq_ok.1 h
  have := ho _ _ _ h1
  have := many_le (chained_eats ho _) _ h2
  omega

theorem expression_eats : ∀ n, Eats (expressionP n)
  | 0 => fun _ _ _ h => by cases h
  | n + 1 => chain_eats (chain_eats (power_eats (expression_eats n)))

theorem Safe.must_ne {p : P α} {n s q} (h : Safe n p) (hs : s.length ≤ n) : (p s).must q ≠ .hang := by
  rw [ne_eq, PR.must_eq_hang]; exact h s hs

theorem value_safe {ex : P Node} {n : Nat} (hex : ∀ s : List Char, s.length < n → ex s ≠ .hang) : Safe n (valueP ex) := by
  intro s hs h
  unfold valueP at h
  rcases PR.orElse_eq_hang.1 h with h | ⟨_, h⟩
  · exact variable_ne_hang h
  rcases PR.orElse_eq_hang.1 h with h | ⟨_, h⟩
  · exact number_ne_hang h
  rcases PR.bind_eq_hang.1 h with h | ⟨_, r1, h1, h⟩
  · exact lit_ne_hang h
  have := lit_eats h1
  rcases PR.bind_eq_hang.1 h with h | ⟨_, r2, h2, h⟩
  · exact hex r1 (by omega) (PR.must_eq_hang.1 h)
  · exact lit_ne_hang (PR.must_eq_hang.1 (PR.map_eq_hang.1 h))

theorem chained_safe {operand : P Node} {n : Nat} (ho : Safe n operand) : ∀ ops, Safe n (chainedP operand ops)
  | [], _, _ => by simp [chainedP]
  | o :: ops, s, hs => by
    intro h
    simp only [chainedP] at h
    rcases PR.orElse_eq_hang.1 h with h | ⟨_, h⟩
    · rcases PR.bind_eq_hang.1 h with h | ⟨_, r1, h1, h⟩
      · exact lit_ne_hang h
      · have := lit_length h1
        exact ho r1 (by omega) (PR.must_eq_hang.1 (PR.map_eq_hang.1 h))
    · exact chained_safe ho ops s hs h

theorem power_safe {ex : P Node} {n : Nat} (he : Eats ex) (hex : ∀ s : List Char, s.length < n → ex s ≠ .hang) : Safe n (powerP ex) := by
  intro s hs h
  unfold powerP at h
  rcases PR.bind_eq_hang.1 h with h | ⟨v, r1, h1, h⟩
  · exact value_safe hex s hs h
  have := value_eats he _ _ _ h1
  split at h
  · cases h
  · cases h
  · cases h
  · rename_i hc
    exact chained_safe (value_safe hex) _ r1 (by omega) hc

theorem chain_safe {operand : P Node} {ops} {n : Nat} (he : Eats operand) (ho : Safe n operand) : Safe n (chainP operand ops) := by
  intro s hs h
  unfold chainP at h
  rcases PR.bind_eq_hang.1 h with h | ⟨v, r1, h1, h⟩
  · exact ho s hs h
  have := he _ _ _ h1
  exact many_safe (chained_eats he ops) (chained_safe ho ops) _ (by omega) (by omega) (PR.map_eq_hang.1 h)

theorem expression_safe : ∀ n, ∀ s : List Char, s.length < n → expressionP n s ≠ .hang
  | 0, _, h => by omega
  | n + 1, s, h =>
    chain_safe (chain_eats (power_eats (expression_eats n)))
      (chain_safe (power_eats (expression_eats n)) (power_safe (expression_eats n) (expression_safe n))) s (by omega)

theorem sepBy1_eats {p : P α} {c : Char} {k} (hp : Eats p) : Eats (sepBy1 p [c] k) := by
  intro s a r h
  unfold sepBy1 at h
  obtain ⟨v, r1, h1, h⟩ := PR.bind_eq_ok.1 h
  obtain ⟨cs, h2, _⟩ := PR.map_eq_ok.1 h
  have := hp _ _ _ h1
  have : Eats fun s => (lit [c] s).bind fun _ r => p r := by
    intro s a r h
    obtain ⟨_, r1, h1, h⟩ := PR.bind_eq_ok.1 h
    have := lit_eats h1
    have := hp _ _ _ h
    omega
  have := many_le this _ h2
  omega

theorem sepBy1_safe {p : P α} {c : Char} {k n : Nat} (hp : Eats p) (hs : Safe n p) {s : List Char} (hn : s.length ≤ n)
    (hk : s.length ≤ k) : sepBy1 p [c] k s ≠ .hang := by
  intro h
  unfold sepBy1 at h
  rcases PR.bind_eq_hang.1 h with h | ⟨v, r1, h1, h⟩
  · exact hs s hn h
  have := hp _ _ _ h1
  refine many_safe (L := n) ?_ ?_ k (by omega) (by omega) (PR.map_eq_hang.1 h)
  · intro s a r h
    obtain ⟨_, r1, h1, h⟩ := PR.bind_eq_ok.1 h
    have := lit_eats h1
    have := hp _ _ _ h
    omega
  · intro s hs' h
    rcases PR.bind_eq_hang.1 h with h | ⟨_, r1, h1, h⟩
    · exact lit_ne_hang h
    · have := lit_eats h1
      exact hs r1 (by omega) h

theorem functor_eats {el : P Node} (hel : Eats el) : Eats (functorP el) := by
  intro s a r h
  unfold functorP at h
  obtain ⟨w, r1, h1, h⟩ := PR.bind_eq_ok.1 h
  obtain ⟨_, r2, h2, h⟩ := PR.bind_eq_ok.1 h
  obtain ⟨cs, r3, h3, h⟩ := PR.bind_eq_ok.1 h
  obtain ⟨_, h4, rfl⟩ := PR.map_eq_ok.1 h
  rw [PR.must_eq_ok] at h3 h4
  have := word_length h1
  have := congrArg List.length (exactly_ok.1 h2)
  rw [List.length_append] at this
  have := sepBy1_eats hel _ _ _ h3
  have := lit_eats h4
  omega

theorem functor_safe {el : P Node} {n : Nat} (he : Eats el) (hel : ∀ s : List Char, s.length < n → el s ≠ .hang) : Safe n (functorP el) := by
  intro s hs h
  unfold functorP at h
  rcases PR.bind_eq_hang.1 h with h | ⟨w, r1, h1, h⟩
  · exact word_ne_hang h
  have := word_length h1
  rcases PR.bind_eq_hang.1 h with h | ⟨_, r2, h2, h⟩
  · exact exactly_ne_hang h
  have := congrArg List.length (exactly_ok.1 h2)
  rw [List.length_append] at this
  rcases PR.bind_eq_hang.1 h with h | ⟨cs, r3, h3, h⟩
  · exact sepBy1_safe (n := n - 1) he (fun s hs => hel s (by omega)) (by omega) (by omega) (PR.must_eq_hang.1 h)
  · exact lit_ne_hang (PR.must_eq_hang.1 (PR.map_eq_hang.1 h))

theorem list_eats {el ls : P Node} (hel : Eats el) (hls : Eats ls) : Eats (listP el ls) := by
  intro s a r h
  unfold listP at h
  rcases PR.orElse_eq_ok.1 h with h | ⟨_, h⟩
  · obtain ⟨_, r1, h1, h⟩ := PR.bind_eq_ok.1 h
    obtain ⟨_, h2, rfl⟩ := PR.map_eq_ok.1 h
    have := lit_eats h1
    have := lit_eats h2
    omega
  rcases PR.orElse_eq_ok.1 h with h | ⟨_, h⟩
  · obtain ⟨_, r1, h1, h⟩ := PR.bind_eq_ok.1 h
    obtain ⟨cs, r2, h2, h⟩ := PR.bind_eq_ok.1 h
    obtain ⟨_, h3, rfl⟩ := PR.map_eq_ok.1 h
    have := lit_eats h1
    have := sepBy1_eats hel _ _ _ h2
    have := lit_eats h3
    omega
  · obtain ⟨_, r1, h1, h⟩ := PR.bind_eq_ok.1 h
    obtain ⟨cs, r2, h2, h⟩ := PR.bind_eq_ok.1 h
    obtain ⟨_, r3, h3, h⟩ := PR.bind_eq_ok.1 h
    obtain ⟨t, r4, h4, h⟩ := PR.bind_eq_ok.1 h
    obtain ⟨_, h5, rfl⟩ := PR.map_eq_ok.1 h
    have := lit_eats h1
    have := sepBy1_eats hel _ _ _ h2
    have := lit_eats h3
    have := lit_eats h5
    have : r4.length < r3.length := by
      rcases PR.orElse_eq_ok.1 h4 with h4 | ⟨_, h4⟩
      · exact variable_eats _ _ _ h4
      · exact hls _ _ _ h4
    omega

theorem list_safe {el ls : P Node} {n : Nat} (he : Eats el) (hel : ∀ s : List Char, s.length < n → el s ≠ .hang)
    (hls : ∀ s : List Char, s.length < n → ls s ≠ .hang) : Safe n (listP el ls) := by
  have hsep : ∀ r : List Char, r.length < n → sepBy1 el [','] (r.length + 1) r ≠ .hang := fun r hr =>
    sepBy1_safe (n := n - 1) he (fun s hs => hel s (by omega)) (by omega) (by omega)
  intro s hs h
  unfold listP at h
  rcases PR.orElse_eq_hang.1 h with h | ⟨_, h⟩
  · rcases PR.bind_eq_hang.1 h with h | ⟨_, r1, h1, h⟩
    · exact lit_ne_hang h
    · exact lit_ne_hang (PR.map_eq_hang.1 h)
  rcases PR.orElse_eq_hang.1 h with h | ⟨_, h⟩
  · rcases PR.bind_eq_hang.1 h with h | ⟨_, r1, h1, h⟩
    · exact lit_ne_hang h
    have := lit_eats h1
    rcases PR.bind_eq_hang.1 h with h | ⟨_, r2, h2, h⟩
    · exact hsep r1 (by omega) h
    · exact lit_ne_hang (PR.map_eq_hang.1 h)
  · rcases PR.bind_eq_hang.1 h with h | ⟨_, r1, h1, h⟩
    · exact lit_ne_hang h
    have := lit_eats h1
    rcases PR.bind_eq_hang.1 h with h | ⟨_, r2, h2, h⟩
    · exact hsep r1 (by omega) h
    have := sepBy1_eats he _ _ _ h2
    rcases PR.bind_eq_hang.1 h with h | ⟨_, r3, h3, h⟩
    · exact lit_ne_hang h
    have := lit_eats h3
    rcases PR.bind_eq_hang.1 h with h | ⟨_, r4, h4, h⟩
    · rcases PR.orElse_eq_hang.1 h with h | ⟨_, h⟩
      · exact variable_ne_hang h
      · exact hls r3 (by omega) h
    · exact lit_ne_hang (PR.map_eq_hang.1 h)

theorem elementList_eats : ∀ n, Eats (elementList n).1 ∧ Eats (elementList n).2
  | 0 => ⟨(fun _ _ _ h => by cases h), (fun _ _ _ h => by cases h)⟩
  | n + 1 => by
    obtain ⟨hel, hls⟩ := elementList_eats n
    have hl := list_eats hel hls
    refine ⟨fun s a r h => ?_, hl⟩
    simp only [elementList] at h
    rcases PR.orElse_eq_ok.1 h with h | ⟨hf, h⟩
    · exact functor_eats hel _ _ _ h
    rcases PR.orElse_eq_ok.1 h with h | ⟨_, h⟩
    · exact constant_eats _ _ _ h
    rcases PR.orElse_eq_ok.1 h with h | ⟨_, h⟩
    · exact hl _ _ _ h
    · exact expression_eats _ _ _ _ h

theorem element_eats (n : Nat) : Eats (elementP n) := (elementList_eats n).1

theorem elementList_safe : ∀ n, (∀ s : List Char, s.length < n → (elementList n).1 s ≠ .hang) ∧
    ∀ s : List Char, s.length < n → (elementList n).2 s ≠ .hang
  | 0 => ⟨fun _ h => by omega, fun _ h => by omega⟩
  | n + 1 => by
    obtain ⟨hel, hls⟩ := elementList_safe n
    have hl := list_safe (elementList_eats n).1 hel hls
    refine ⟨fun s hs h => ?_, fun s hs => hl s (by omega)⟩
    simp only [elementList] at h
    rcases PR.orElse_eq_hang.1 h with h | ⟨hf, h⟩
    · exact functor_safe (elementList_eats n).1 hel s (by omega) h
    rcases PR.orElse_eq_hang.1 h with h | ⟨_, h⟩
    · exact constant_ne_hang h
    rcases PR.orElse_eq_hang.1 h with h | ⟨_, h⟩
    · exact hl s (by omega) h
    · exact expression_safe _ s hs h

/-- The bound on the nesting of terms is not reached. -/
theorem element_total (n : Nat) (s : List Char) (h : s.length < n) : elementP n s ≠ .hang := (elementList_safe n).1 s h

theorem head_eats (n : Nat) : Eats fun s => (functorP (elementP n) s).orElse (constantP s) := by
  intro s a r h
  rcases PR.orElse_eq_ok.1 h with h | ⟨hf, h⟩
  · exact functor_eats (element_eats n) _ _ _ h
  · exact constant_eats _ _ _ h

theorem head_safe {n : Nat} {s : List Char} (hs : s.length ≤ n) : (functorP (elementP n) s).orElse (constantP s) ≠ .hang := by
  intro h
  rcases PR.orElse_eq_hang.1 h with h | ⟨hf, h⟩
  · exact functor_safe (element_eats n) (element_total n) s hs h
  · exact constant_ne_hang h

theorem infix_eats {el rhs : P Node} {op : Name} (hel : Eats el) (hr : Eats rhs) : Eats (infixP el op rhs) := by
  intro s a r h
  unfold infixP at h
  obtain ⟨x, r1, h1, h⟩ := PR.bind_eq_ok.1 h
  obtain ⟨_, r2, h2, h⟩ := PR.bind_eq_ok.1 h
  obtain ⟨y, h3, rfl⟩ := PR.map_eq_ok.1 h
  have := hel _ _ _ h1
  have := lit_length h2
  have := hr _ _ _ h3
  omega

theorem infix_safe {el rhs : P Node} {op : Name} {n : Nat} (he : Eats el) (hel : Safe n el) (hr : Safe n rhs) : Safe n (infixP el op rhs) := by
  intro s hs h
  unfold infixP at h
  rcases PR.bind_eq_hang.1 h with h | ⟨x, r1, h1, h⟩
  · exact hel s hs h
  have := he _ _ _ h1
  rcases PR.bind_eq_hang.1 h with h | ⟨_, r2, h2, h⟩
  · exact lit_ne_hang h
  have := lit_length h2
  exact hr r2 (by omega) (PR.map_eq_hang.1 h)

theorem atom_eats (n : Nat) : Eats (atomP n) := by
  intro s a r h
  unfold atomP at h
  rcases PR.orElse_eq_ok.1 h with h | ⟨_, h⟩
  · exact infix_eats (element_eats n) (element_eats n) _ _ _ h
  rcases PR.orElse_eq_ok.1 h with h | ⟨_, h⟩
  · exact infix_eats (element_eats n) (element_eats n) _ _ _ h
  rcases PR.orElse_eq_ok.1 h with h | ⟨_, h⟩
  · exact infix_eats (element_eats n) (expression_eats n) _ _ _ h
  · exact head_eats n _ _ _ h

theorem atom_safe (n : Nat) : Safe n (atomP (n + 1)) := by
  have he : Safe n (elementP (n + 1)) := fun s hs => element_total _ s (by omega)
  have hx : Safe n (expressionP (n + 1)) := fun s hs => expression_safe _ s (by omega)
  intro s hs h
  unfold atomP at h
  rcases PR.orElse_eq_hang.1 h with h | ⟨_, h⟩
  · exact infix_safe (element_eats _) he he s hs h
  rcases PR.orElse_eq_hang.1 h with h | ⟨_, h⟩
  · exact infix_safe (element_eats _) he he s hs h
  rcases PR.orElse_eq_hang.1 h with h | ⟨_, h⟩
  · exact infix_safe (element_eats _) he hx s hs h
  · exact head_safe (by omega) h

theorem comment_eats : Eats commentP := by
  intro s u r h
  unfold commentP at h
  obtain ⟨_, r1, h1, h⟩ := PR.bind_eq_ok.1 h
  rw [PR.must_eq_ok] at h
  have h2 := congrArg List.length (exactly_ok.1 h)
  rw [List.length_append] at h2
  have := lit_eats h1
  have h3 := congrArg List.length (takeWhile_split (· ≠ '\n') r1).1
  rw [List.length_append] at h3
  omega

theorem comment_safe {s} : commentP s ≠ .hang := by
  intro h
  unfold commentP at h
  rcases PR.bind_eq_hang.1 h with h | ⟨_, r1, h1, h⟩
  · exact lit_ne_hang h
  · exact exactly_ne_hang (PR.must_eq_hang.1 h)

theorem clause_eats (n : Nat) : Eats (clauseP n) := by
  intro s c r h
  unfold clauseP at h
  obtain ⟨hd, r1, h1, h⟩ := PR.bind_eq_ok.1 h
  have := head_eats n _ _ _ h1
  obtain ⟨b, r2, h2, h⟩ := PR.bind_eq_ok.1 h
  obtain ⟨_, h3, rfl⟩ := PR.map_eq_ok.1 h
  rw [PR.must_eq_ok] at h3
  have := lit_eats h3
  have : r2.length ≤ r1.length := by
    rcases PR.orElse_eq_ok.1 h2 with h2 | ⟨_, h2⟩
    · obtain ⟨_, r3, h4, h5⟩ := PR.bind_eq_ok.1 h2
      have := lit_length h4
      have := sepBy1_eats (atom_eats n) _ _ _ h5
      omega
    · cases h2; omega
  omega

theorem clause_safe (n : Nat) : Safe n (clauseP (n + 1)) := by
  intro s hs h
  unfold clauseP at h
  rcases PR.bind_eq_hang.1 h with h | ⟨hd, r1, h1, h⟩
  · exact head_safe (by omega) h
  have := head_eats _ _ _ _ h1
  rcases PR.bind_eq_hang.1 h with h | ⟨b, r2, h2, h⟩
  · rcases PR.orElse_eq_hang.1 h with h | ⟨_, h⟩
    · rcases PR.bind_eq_hang.1 h with h | ⟨_, r3, h4, h5⟩
      · exact lit_ne_hang h
      · have := lit_length h4
        exact sepBy1_safe (atom_eats _) (atom_safe n) (by omega) (by omega) h5
    · cases h
  · exact lit_ne_hang (PR.must_eq_hang.1 (PR.map_eq_hang.1 h))

theorem line_eats (n : Nat) : Eats (lineP n) := by
  intro s l r h
  unfold lineP at h
  rcases PR.orElse_eq_ok.1 h with h | ⟨_, h⟩
  · obtain ⟨_, h', rfl⟩ := PR.map_eq_ok.1 h
    exact comment_eats _ _ _ h'
  · obtain ⟨c, h', rfl⟩ := PR.map_eq_ok.1 h
    clear h
    unfold ruleP at h'
    obtain ⟨c', r1, h1, h⟩ := PR.bind_eq_ok.1 h'
    have := clause_eats n _ _ _ h1
    split at h
    · rename_i r2 hc
      cases h
      have := comment_eats _ _ _ hc
      omega
    · cases h; exact this
    · cases h
    · cases h

theorem line_safe (n : Nat) : Safe n (lineP (n + 1)) := by
  intro s hs h
  unfold lineP at h
  rcases PR.orElse_eq_hang.1 h with h | ⟨_, h⟩
  · exact comment_safe (PR.map_eq_hang.1 h)
  · replace h := PR.map_eq_hang.1 h
    unfold ruleP at h
    rcases PR.bind_eq_hang.1 h with h | ⟨c', r1, h1, h⟩
    · exact clause_safe n s hs h
    split at h
    · cases h
    · cases h
    · cases h
    · rename_i hc; exact comment_safe hc

/-- Reading a program does not reach the bounds of the recursion. -/
theorem lines_total (text : List Char) : many (lineP (text.length + 1)) (text.length + 1) text ≠ .hang :=
  many_safe (line_eats _) (line_safe _) _ (Nat.le_refl _) (by omega)

/-- Reading a query does not reach the bounds of the recursion. -/
theorem goals_total (text : List Char) : sepBy1 (atomP (text.length + 1)) [','] (text.length + 1) text ≠ .hang :=
  sepBy1_safe (atom_eats _) (atom_safe _) (Nat.le_refl _) (by omega)

end PBfs
