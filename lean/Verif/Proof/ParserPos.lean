import Verif.Proof.ParserComplete
/-! # Where the parser reports an error -/
namespace PBfs

/-! ## Continuing a text -/

/-- Texts before which every token ends. -/
def Closing (w : List Char) : Prop := ∀ c, w.head? = some c → isWord c = false ∧ c ≠ '('

theorem Tok.stops_head {t : Tok} {r r' : List Char} (h : r'.head? = r.head?) (hs : t.stops r) : t.stops r' := by
  cases t <;> simp only [Tok.stops] at hs ⊢ <;> rw [h] <;> exact hs

theorem Tok.stops_closing {t : Tok} {r : List Char} (h : Closing r) : t.stops r := by
  cases t with
  | name _ => exact h
  | var _ => exact fun c hc => (h c hc).1
  | num _ _ =>
    intro c hc
    have := (h c hc).1
    simp only [isWord, Bool.or_eq_false_iff] at this
    exact this.2
  | _ => trivial

theorem closing_cons {c : Char} {w : List Char} (h : isWord c = false ∧ c ≠ '(') : Closing (c :: w) := by
  rintro d ⟨⟩; exact h

theorem closing_nil : Closing [] := fun _ h => by cases h

theorem skipWs_mid {ws x r r' : List Char} {c cs} (hx : x = c :: cs) (hc : isSpace c = false) (hw : ∀ c ∈ ws, isSpace c = true)
    (_ : skipWs (ws ++ (x ++ r)) = x ++ r) : skipWs (ws ++ (x ++ r')) = x ++ r' := by
  rw [skipWs_space hw, hx, List.cons_append, skipWs_cons hc]

/-- What follows the tokens may be replaced. -/
theorem Takes.replace : ∀ {ts s r}, Takes ts s r →
    ∃ u, s = u ++ r ∧ (ts ≠ [] → u ≠ []) ∧ ∀ r' : List Char, r'.head? = r.head? ∨ Closing r' → Takes ts (u ++ r') r'
  | _, _, _, .nil => ⟨[], rfl, fun h => absurd rfl h, fun _ _ => .nil⟩
  | _, s, r, .mk (t := t) (r := r1) h1 h2 h3 h => by
    obtain ⟨u, rfl, _, h5⟩ := h.replace
    obtain ⟨ws, hw, e⟩ := skipWs_split s
    obtain ⟨c, cs, ht, hc⟩ := h2.head
    refine ⟨ws ++ (t.text ++ u), by rw [e, h1]; simp, fun _ => by rw [ht]; simp, fun r' hr => ?_⟩
    have e2 : ws ++ (t.text ++ u) ++ r' = ws ++ (t.text ++ (u ++ r')) := by simp
    rw [e2]
    refine .mk (t := t) (r := u ++ r') ?_ h2 ?_ (h5 r' hr)
    · rw [skipWs_space hw, ht, List.cons_append, skipWs_cons hc]
    · cases u with
      | nil =>
        rcases hr with hr | hr
        · exact Tok.stops_head (by simpa using hr) h3
        · exact Tok.stops_closing hr
      | cons d u => exact Tok.stops_head (by simp) h3

/-- Tokens which end regardless of what follows. -/
def Hard (ts : List Tok) (s r : List Char) : Prop := ∃ u, s = u ++ r ∧ u ≠ [] ∧ ∀ r', Takes ts (u ++ r') r'

theorem Takes.hard {t : Tok} {s r} (h : skipWs s = t.text ++ r) (hv : t.Valid) (hs : ∀ r', t.stops r') : Hard [t] s r := by
  obtain ⟨ws, hw, e⟩ := skipWs_split s
  obtain ⟨c, cs, ht, hc⟩ := hv.head
  refine ⟨ws ++ t.text, by rw [e, h]; simp, by rw [ht]; simp, fun r' => ?_⟩
  rw [List.append_assoc]
  refine .mk ?_ hv (hs r') .nil
  rw [skipWs_space hw, ht, List.cons_append, skipWs_cons hc]

theorem lit_hard {t s u r} (h : lit t s = .ok u r) (hv : (Tok.sym t).Valid) : Hard [.sym t] s r :=
  Takes.hard (exactly_ok.1 h) hv fun _ => trivial

theorem Hard.takes {ts s r} (h : Hard ts s r) : Takes ts s r := by
  obtain ⟨u, rfl, _, h⟩ := h
  exact h r

theorem Takes.ws {t ts s z ws} (h : Takes (t :: ts) s z) (hw : ∀ c ∈ ws, isSpace c = true) : Takes (t :: ts) (ws ++ s) z := by
  cases h with
  | mk h1 h2 h3 h => exact .mk (by rw [skipWs_space hw]; exact h1) h2 h3 h

/-- The tokens `es` are written `x`. -/
def Writes (es : List Tok) (x : List Char) : Prop := ∀ w, Closing w → Takes es (x ++ w) w

theorem Writes.append {es fs x y} (h : Writes es x) (g : Writes fs y) (hy : ∀ w, Closing w → Closing (y ++ w)) : Writes (es ++ fs) (x ++ y) := by
  intro w hw
  rw [List.append_assoc]
  exact (h _ (hy w hw)).append (g w hw)

theorem writes_sym {c : Char} {cs} (h : isSpace c = false) : Writes [.sym (c :: cs)] (c :: cs) := by
  intro w _
  refine .mk (r := w) ?_ (sym_valid h) trivial .nil
  rw [List.cons_append, skipWs_cons h]; rfl

theorem writes_X : Writes [.var n!"X"] n!"X" := by
  intro w hw
  exact .mk (t := .var n!"X") (r := w) rfl ⟨'X', [], rfl, rfl, by simp⟩ (fun c hc => (hw c hc).1) .nil

theorem Writes.symX {c : Char} {cs} (h : isSpace c = false) : Writes [.sym (c :: cs), .var n!"X"] (c :: cs ++ n!"X") := by
  intro w hw
  rw [List.append_assoc]
  refine .mk (r := n!"X" ++ w) ?_ (sym_valid h) trivial (writes_X w hw)
  rw [List.cons_append, skipWs_cons h]; rfl

/-- Everything before `pos` is the beginning of something `F` describes. -/
def Begins (F : α → List Tok → Prop) (s pos : List Char) : Prop :=
  ∃ u v a ts, s = u ++ pos ∧ u ≠ [] ∧ F a ts ∧ Writes ts (u ++ v)

theorem Begins.map {F : α → List Tok → Prop} {G : β → List Tok → Prop} {s pos} (h : Begins F s pos)
    (hG : ∀ a ts, F a ts → ∃ b, G b ts) : Begins G s pos := by
  obtain ⟨u, v, a, ts, h1, h2, h3, h4⟩ := h
  obtain ⟨b, hb⟩ := hG a ts h3
  exact ⟨u, v, b, ts, h1, h2, hb, h4⟩

theorem Begins.length {F : α → List Tok → Prop} {s pos} (h : Begins F s pos) : pos.length < s.length := by
  obtain ⟨u, v, a, ts, rfl, h2, _⟩ := h
  have : 0 < u.length := List.length_pos_iff.2 h2
  rw [List.length_append]; omega

/-- After tokens that were read. -/
theorem Begins.after {F : α → List Tok → Prop} {G : β → List Tok → Prop} {ts0 s r pos} (h0 : Takes ts0 s r) (h : Begins F r pos)
    (hG : ∀ a ts, F a ts → ∃ b, G b (ts0 ++ ts)) : Begins G s pos := by
  obtain ⟨u0, rfl, _, h0⟩ := h0.replace
  obtain ⟨u, v, a, ts, rfl, h2, h3, h4⟩ := h
  obtain ⟨b, hb⟩ := hG a ts h3
  refine ⟨u0 ++ u, v, b, _, by simp, by simp [h2], hb, fun w hw => ?_⟩
  have := (h0 (u ++ v ++ w) (.inl ?_)).append (h4 w hw)
  · simpa using this
  · cases u with
    | nil => cases h2 rfl
    | cons c u => simp

/-- With further tokens at the end. -/
theorem Begins.extend {F : α → List Tok → Prop} {G : β → List Tok → Prop} {es x s pos} (h : Begins F s pos) (hx : Writes es x)
    (hc : ∀ w, Closing w → Closing (x ++ w)) (hG : ∀ a ts, F a ts → ∃ b, G b (ts ++ es)) : Begins G s pos := by
  obtain ⟨u, v, a, ts, h1, h2, h3, h4⟩ := h
  obtain ⟨b, hb⟩ := hG a ts h3
  refine ⟨u, v ++ x, b, _, h1, h2, hb, ?_⟩
  rw [← List.append_assoc]
  exact h4.append hx hc

/-- Immediately after a token that ends by itself. -/
theorem Begins.hard {G : β → List Tok → Prop} {ts0 es x s r b} (h0 : Hard ts0 s r) (hx : Writes es x) (hG : G b (ts0 ++ es)) :
    Begins G s r := by
  obtain ⟨u, rfl, hu, h0⟩ := h0
  refine ⟨u, x, b, _, rfl, hu, hG, fun w hw => ?_⟩
  have := (h0 (x ++ w)).append (hx w hw)
  simpa using this

/-- After tokens that were read and white space, where a certain symbol ought to follow. -/
theorem Begins.skip {G : β → List Tok → Prop} {ts0 t es x s r b} (h0 : Takes ts0 s r) (hne : ts0 ≠ []) (hx : Writes (t :: es) x)
    (hc : ∀ w, Closing w → Closing (x ++ w)) (hG : G b (ts0 ++ t :: es)) : Begins G s (skipWs r) := by
  obtain ⟨u0, rfl, hu, h0⟩ := h0.replace
  obtain ⟨ws, hw, e⟩ := skipWs_split r
  refine ⟨u0 ++ ws, x, b, _, by rw [List.append_assoc, ← e], by simp [hu hne], hG, fun w hwc => ?_⟩
  have := (h0 (ws ++ (x ++ w)) ?_).append ((hx w hwc).ws hw)
  · simpa using this
  · cases ws with
    | nil => exact .inr (hc w hwc)
    | cons c ws => left; rw [e]; simp

theorem closes {c : Char} {cs : List Char} (h : isWord c = false ∧ c ≠ '(') : ∀ w, Closing w → Closing (c :: cs ++ w) :=
  fun _ _ => closing_cons h

/-! ## The parsers -/

/-- Where `p` reports an error, everything before is the beginning of something `F` describes. -/
def ViableP (p : P α) (F : α → List Tok → Prop) : Prop := ∀ s pos, p s = .expect pos → Begins F s pos

theorem variable_ne_expect {s pos} : variableP s ≠ .expect pos := by
  unfold variableP
  rw [ne_eq, PR.map_eq_expect]
  rcases word_total (p := isUpper) (s := s) with h | ⟨_, r, h⟩ <;> rw [h] <;> simp

theorem constant_ne_expect {s pos} : constantP s ≠ .expect pos := by
  unfold constantP
  rw [ne_eq, PR.map_eq_expect]
  rcases word_total (p := isLower) (s := s) with h | ⟨_, r, h⟩ <;> rw [h] <;> simp

theorem number_ne_expect {s pos} : numberP s ≠ .expect pos := by
  rcases numberP_total (s := s) with h | ⟨_, r, h⟩ <;> rw [h] <;> simp

theorem lit_ne_expect {t s pos} : lit t s ≠ .expect pos := by
  rcases lit_total (t := t) (s := s) with h | ⟨r, h⟩ <;> rw [h] <;> simp

theorem exactly_ne_expect {t s pos} : exactly t s ≠ .expect pos := by
  rcases exactly_total (t := t) (s := s) with h | ⟨r, h⟩ <;> rw [h] <;> simp

theorem SoundP.takes {p : P α} {F} (h : SoundP p F) {s a r} (e : p s = .ok a r) : ∃ ts, F a ts ∧ Takes ts s r := by
  obtain ⟨ts, h1, h2⟩ := h s a r e
  exact ⟨ts, h1, by simpa using h2 [] .nil⟩

theorem value_viable {ex : P Node} (hex : SoundP ex fun a => Syn .sum [a]) (hv : ViableP ex fun a => Syn .sum [a]) :
    ViableP (valueP ex) fun a => Syn .value [a] := by
  intro s pos h
  unfold valueP at h
  rcases PR.orElse_eq_expect.1 h with h | ⟨_, h⟩
  · exact absurd h variable_ne_expect
  rcases PR.orElse_eq_expect.1 h with h | ⟨_, h⟩
  · exact absurd h number_ne_expect
  rcases PR.bind_eq_expect.1 h with h | ⟨_, r1, h1, h⟩
  · exact absurd h lit_ne_expect
  have hh := lit_hard h1 (sym_valid rfl)
  have hclose : Writes [.sym [')']] [')'] := writes_sym rfl
  rcases PR.bind_eq_expect.1 h with h | ⟨e, r2, h2, h⟩
  · rcases PR.must_eq_expect.1 h with h | ⟨_, rfl⟩
    · refine Begins.extend (F := fun a => fun ts => ∃ us, Syn .sum [a] us ∧ ts = .sym ['('] :: us) (Begins.after hh.takes (hv _ _ h) ?_)
        hclose (closes (by decide)) ?_
      · intro a ts h; exact ⟨a, ts, h, rfl⟩
      · rintro a _ ⟨us, h, rfl⟩; exact ⟨a, .paren h⟩
    · exact Begins.hard hh (es := [.var n!"X", .sym [')']]) (x := n!"X)") (b := .var n!"X")
        (writes_X.append hclose (closes (by decide))) (.paren (.sum1 (.product1 (.power1 .var))))
  · rw [PR.must_eq_ok] at h2
    rcases PR.must_eq_expect.1 (PR.map_eq_expect.1 h) with h | ⟨_, rfl⟩
    · exact absurd h lit_ne_expect
    obtain ⟨ts, g1, g2⟩ := hex.takes h2
    exact Begins.skip (hh.takes.append g2) (by simp) hclose (closes (by decide)) (b := e) (by simpa using Syn.paren g1)

theorem chained_viable {operand : P Node} {F : Node → List Tok → Prop} (hv : ViableP operand F) (hX : F (.var n!"X") [.var n!"X"]) :
    ∀ {ops : List Name}, (∀ op ∈ ops, (Tok.sym op).Valid) →
      ViableP (chainedP operand ops) fun c ts => c.1 ∈ ops ∧ ∃ us, F c.2 us ∧ ts = .sym c.1 :: us
  | [], _, _, _, h => by cases h
  | o :: ops, ho, s, pos, h => by
    simp only [chainedP] at h
    rcases PR.orElse_eq_expect.1 h with h | ⟨_, h⟩
    · rcases PR.bind_eq_expect.1 h with h | ⟨_, r1, h1, h⟩
      · exact absurd h lit_ne_expect
      have hh := lit_hard h1 (ho _ (by simp))
      rcases PR.must_eq_expect.1 (PR.map_eq_expect.1 h) with h | ⟨_, rfl⟩
      · exact Begins.after hh.takes (hv _ _ h) fun a ts h => ⟨(o, a), by simp, ts, h, rfl⟩
      · exact Begins.hard hh writes_X (b := (o, .var n!"X")) ⟨by simp, _, hX, rfl⟩
    · exact (chained_viable hv hX (fun o h => ho o (by simp [h])) _ _ h).map fun c ts ⟨h1, h2⟩ => ⟨c, by simp [h1], h2⟩

theorem power_viable {ex : P Node} (hex : SoundP ex fun a => Syn .sum [a]) (hv : ViableP ex fun a => Syn .sum [a]) :
    ViableP (powerP ex) fun a => Syn .power [a] := by
  intro s pos h
  unfold powerP at h
  rcases PR.bind_eq_expect.1 h with h | ⟨v, r1, h1, h⟩
  · exact (value_viable hex hv _ _ h).map fun a ts h => ⟨a, .power1 h⟩
  obtain ⟨ts, g1, g2⟩ := (value_sound hex).takes h1
  split at h
  · cases h
  · cases h
  · rename_i p hc
    cases h
    refine Begins.after g2 (chained_viable (value_viable hex hv) .var (by simp; exact sym_valid rfl) _ _ hc) ?_
    rintro ⟨op, a⟩ _ ⟨ho, us, hu, rfl⟩
    simp only [List.mem_singleton] at ho
    subst ho
    exact ⟨_, .pow g1 hu⟩
  · cases h

/-- Repetition: every element read before extends the text in front. -/
theorem many_viable {p : P α} {F : α → List Tok → Prop} {G : β → List Tok → Prop} (hs : SoundP p F) (hv : ViableP p F)
    (I : List Tok → Prop) (hI : ∀ a ts0 ts, I ts0 → F a ts → I (ts0 ++ ts)) (hG : ∀ a ts0 ts, I ts0 → F a ts → ∃ b, G b (ts0 ++ ts)) :
    ∀ (k : Nat) {s0 s pos ts0}, I ts0 → Takes ts0 s0 s → many p k s = .expect pos → Begins G s0 pos
  | 0, _, _, _, _, _, _, h => by cases h
  | k + 1, s0, s, pos, ts0, h0, ht, h => by
    simp only [many] at h
    split at h
    · rename_i a r h1
      obtain ⟨ts, g1, g2⟩ := hs.takes h1
      exact many_viable hs hv I hI hG k (hI _ _ _ h0 g1) (ht.append g2) (PR.map_eq_expect.1 h)
    · cases h
    · rename_i q h1
      cases h
      exact Begins.after ht (hv _ _ h1) fun a ts h => hG a ts0 ts h0 h
    · cases h

/-- A chain of operands, the grammar being closed under adding one at the end. -/
theorem chain_viable {operand : P Node} {ops : List Name} {F G : Node → List Tok → Prop} (ho : SoundP operand F) (hv : ViableP operand F)
    (hX : F (.var n!"X") [.var n!"X"])
    (hops : ∀ op ∈ ops, (Tok.sym op).Valid) (hone : ∀ a ts, F a ts → G a ts)
    (hmore : ∀ op a b ts us, op ∈ ops → F a ts → G b us → G (.efn op [a, b]) (ts ++ .sym op :: us)) :
    ViableP (chainP operand ops) G := by
  intro s pos h
  unfold chainP at h
  rcases PR.bind_eq_expect.1 h with h | ⟨v, r1, h1, h⟩
  · exact (hv _ _ h).map fun a ts h => ⟨a, hone _ _ h⟩
  obtain ⟨ts, g1, g2⟩ := ho.takes h1
  -- tokens after which a whole chain may still follow
  let I : List Tok → Prop := fun ts0 => ∀ op b us, op ∈ ops → G b us → ∃ c, G c (ts0 ++ .sym op :: us)
  have hI : I ts := fun op b us h1 h2 => ⟨_, hmore _ _ _ _ _ h1 g1 h2⟩
  refine many_viable (F := fun c ts => c.1 ∈ ops ∧ ∃ us, F c.2 us ∧ ts = .sym c.1 :: us) (G := G) ?_
    (chained_viable hv hX hops) I ?_ ?_ _ hI g2 (PR.map_eq_expect.1 h)
  · rintro s ⟨op, v⟩ r h
    obtain ⟨h1, ts, h2, h3⟩ := chained_sound ho hops h
    exact ⟨_, ⟨h1, ts, h2, rfl⟩, h3⟩
  · rintro ⟨op, a⟩ ts0 _ h0 ⟨h1, us, h2, rfl⟩ op' b us' h3 h4
    obtain ⟨c, hc⟩ := h0 op _ _ h1 (hmore _ _ _ _ _ h3 h2 h4)
    exact ⟨c, by simpa using hc⟩
  · rintro ⟨op, a⟩ ts0 _ h0 ⟨h1, us, h2, rfl⟩
    exact h0 op _ _ h1 (hone _ _ h2)

theorem product_viable {ex : P Node} (hex : SoundP ex fun a => Syn .sum [a]) (hv : ViableP ex fun a => Syn .sum [a]) :
    ViableP (productP ex) fun a => Syn .product [a] := by
  refine chain_viable (power_sound hex) (power_viable hex hv) (.power1 .var) ?_ (fun a ts h => .product1 h)
    (fun op a b ts us ho h1 h2 => .mul (by simpa using ho) h1 h2)
  simp only [List.mem_cons, List.not_mem_nil, or_false]
  rintro op (rfl | rfl) <;> exact sym_valid rfl

theorem expression_viable : ∀ n, ViableP (expressionP n) fun a => Syn .sum [a]
  | 0 => fun _ _ h => by cases h
  | n + 1 => by
    refine chain_viable (product_sound (expression_sound n)) (product_viable (expression_sound n) (expression_viable n)) (.product1 (.power1 .var))
      ?_ (fun a ts h => .sum1 h) (fun op a b ts us ho h1 h2 => .add (by simpa using ho) h1 h2)
    simp only [List.mem_cons, List.not_mem_nil, or_false]
    rintro op (rfl | rfl) <;> exact sym_valid rfl

/-- Lists with separators. -/
theorem sepBy1_viable {p : P α} {F : α → List Tok → Prop} {G : List α → List Tok → Prop} {c : Char} (hp : SoundP p F) (hv : ViableP p F)
    (hc : isSpace c = false) (hone : ∀ a ts, F a ts → G [a] ts)
    (hmore : ∀ a as ts us, F a ts → G as us → G (a :: as) (ts ++ .sym [c] :: us)) {k : Nat} : ViableP (sepBy1 p [c] k) G := by
  intro s pos h
  unfold sepBy1 at h
  rcases PR.bind_eq_expect.1 h with h | ⟨v, r1, h1, h⟩
  · exact (hv _ _ h).map fun a ts h => ⟨[a], hone _ _ h⟩
  obtain ⟨ts, g1, g2⟩ := hp.takes h1
  let I : List Tok → Prop := fun ts0 => ∀ as us, G as us → ∃ c', G c' (ts0 ++ .sym [c] :: us)
  have hI : I ts := fun as us h => ⟨_, hmore _ _ _ _ g1 h⟩
  refine many_viable (F := fun a ts => ∃ us, F a us ∧ ts = .sym [c] :: us) (G := G) ?_ ?_ I ?_ ?_ _ hI g2 (PR.map_eq_expect.1 h)
  · intro s a r h
    obtain ⟨_, r3, h4, h5⟩ := PR.bind_eq_ok.1 h
    obtain ⟨ts2, g3, g4⟩ := hp _ _ _ h5
    exact ⟨_, ⟨ts2, g3, rfl⟩, fun us hu => lit_sound h4 (sym_valid hc) (g4 _ hu)⟩
  · intro s pos h
    rcases PR.bind_eq_expect.1 h with h | ⟨_, r3, h4, h5⟩
    · exact absurd h lit_ne_expect
    · exact Begins.after (lit_hard h4 (sym_valid hc)).takes (hv _ _ h5) fun a ts h => ⟨a, ts, h, rfl⟩
  · rintro a ts0 _ h0 ⟨us, h2, rfl⟩ as us' h4
    obtain ⟨c', hc'⟩ := h0 _ _ (hmore _ _ _ _ h2 h4)
    exact ⟨c', by simpa using hc'⟩
  · rintro a ts0 _ h0 ⟨us, h2, rfl⟩
    exact h0 _ _ (hone _ _ h2)

theorem args_viable {el : P Node} (hel : SoundP el fun a => Syn .elem [a]) (hv : ViableP el fun a => Syn .elem [a]) {k : Nat} :
    ViableP (sepBy1 el [','] k) (Syn .args) :=
  sepBy1_viable hel hv rfl (fun _ _ h => .one h) (fun _ _ _ _ h1 h2 => .more h1 h2)

theorem syn_X : Syn .elem [.var n!"X"] [.var n!"X"] := .esum (.sum1 (.product1 (.power1 .var)))

theorem functor_viable {el : P Node} (hel : SoundP el fun a => Syn .elem [a]) (hv : ViableP el fun a => Syn .elem [a]) :
    ViableP (functorP el) HeadSyn := by
  intro s pos h
  unfold functorP at h
  rcases PR.bind_eq_expect.1 h with h | ⟨w, r1, h1, h⟩
  · rcases word_total (p := isLower) (s := s) with h' | ⟨_, r, h'⟩ <;> rw [h'] at h <;> cases h
  rcases PR.bind_eq_expect.1 h with h | ⟨_, r2, h2, h⟩
  · exact absurd h exactly_ne_expect
  obtain ⟨g1, g2, _⟩ := word_sound h1
  rw [exactly_ok.1 h2] at g1
  have hh : Hard [.opening w] s r2 := Takes.hard (by simpa [Tok.text] using g1) g2 fun _ => trivial
  have hclose : Writes [.sym [')']] [')'] := writes_sym rfl
  rcases PR.bind_eq_expect.1 h with h | ⟨cs, r3, h3, h⟩
  · rcases PR.must_eq_expect.1 h with h | ⟨_, rfl⟩
    · refine Begins.extend (F := fun as => fun ts => ∃ us, Syn .args as us ∧ ts = .opening w :: us)
        (Begins.after hh.takes (args_viable hel hv _ _ h) ?_) hclose (closes (by decide)) ?_
      · intro a ts h; exact ⟨a, ts, h, rfl⟩
      · rintro a _ ⟨us, h, rfl⟩; exact ⟨_, .fn h⟩
    · exact Begins.hard hh (es := [.var n!"X", .sym [')']]) (x := n!"X)") (b := .fn w [.var n!"X"])
        (writes_X.append hclose (closes (by decide))) (.fn (.one syn_X))
  · rw [PR.must_eq_ok] at h3
    rcases PR.must_eq_expect.1 (PR.map_eq_expect.1 h) with h | ⟨_, rfl⟩
    · exact absurd h lit_ne_expect
    obtain ⟨ts, g3, g4⟩ := (args_sound hel).takes h3
    exact Begins.skip (hh.takes.append g4) (by simp) hclose (closes (by decide)) (b := .fn w cs) (by simpa using HeadSyn.fn g3)

theorem list_viable {el ls : P Node} (hel : SoundP el fun a => Syn .elem [a]) (hels : ViableP el fun a => Syn .elem [a])
    (hls : ViableP ls fun a => Syn .list [a]) :
    ViableP (listP el ls) fun a => Syn .list [a] := by
  intro s pos h
  have hclose : Writes [.sym [']']] [']'] := writes_sym rfl
  unfold listP at h
  rcases PR.orElse_eq_expect.1 h with h | ⟨_, h⟩
  · rcases PR.bind_eq_expect.1 h with h | ⟨_, r1, h1, h⟩
    · exact absurd h lit_ne_expect
    · exact absurd (PR.map_eq_expect.1 h) lit_ne_expect
  have inner : ∀ r1, lit ['['] s = .ok () r1 → sepBy1 el [','] (r1.length + 1) r1 = .expect pos → Begins (fun a => Syn .list [a]) s pos := by
    intro r1 h1 h
    refine Begins.extend (F := fun as => fun ts => ∃ us, Syn .args as us ∧ ts = .sym ['['] :: us)
      (Begins.after (lit_hard h1 (sym_valid rfl)).takes (args_viable hel hels _ _ h) ?_) hclose (closes (by decide)) ?_
    · intro a ts h; exact ⟨a, ts, h, rfl⟩
    · rintro a _ ⟨us, h, rfl⟩; exact ⟨_, .list h⟩
  rcases PR.orElse_eq_expect.1 h with h | ⟨_, h⟩
  · rcases PR.bind_eq_expect.1 h with h | ⟨_, r1, h1, h⟩
    · exact absurd h lit_ne_expect
    rcases PR.bind_eq_expect.1 h with h | ⟨cs, r2, h2, h⟩
    · exact inner r1 h1 h
    · exact absurd (PR.map_eq_expect.1 h) lit_ne_expect
  · rcases PR.bind_eq_expect.1 h with h | ⟨_, r1, h1, h⟩
    · exact absurd h lit_ne_expect
    rcases PR.bind_eq_expect.1 h with h | ⟨cs, r2, h2, h⟩
    · exact inner r1 h1 h
    rcases PR.bind_eq_expect.1 h with h | ⟨_, r3, h3, h⟩
    · exact absurd h lit_ne_expect
    obtain ⟨ts, g1, g2⟩ := (args_sound hel).takes h2
    rcases PR.bind_eq_expect.1 h with h | ⟨t, r4, h4, h⟩
    · rcases PR.orElse_eq_expect.1 h with h | ⟨_, h⟩
      · exact absurd h variable_ne_expect
      refine Begins.extend (F := fun a => fun vs => ∃ us, Syn .list [a] us ∧ vs = .sym ['['] :: ts ++ .sym ['|'] :: us)
        (Begins.after (((lit_hard h1 (sym_valid rfl)).takes.append g2).append (lit_hard h3 (sym_valid rfl)).takes) (hls _ _ h) ?_)
        hclose (closes (by decide)) ?_
      · intro a us h; exact ⟨a, us, h, by simp⟩
      · rintro a _ ⟨us, h, rfl⟩; exact ⟨_, .listList g1 h⟩
    · exact absurd (PR.map_eq_expect.1 h) lit_ne_expect

theorem elementList_viable : ∀ n, ViableP (elementList n).1 (fun a => Syn .elem [a]) ∧ ViableP (elementList n).2 (fun a => Syn .list [a])
  | 0 => ⟨(fun _ _ h => by cases h), (fun _ _ h => by cases h)⟩
  | n + 1 => by
    obtain ⟨hel, hls⟩ := elementList_viable n
    have hs := elementList_sound n
    have hl := list_viable hs.1 hel hls
    refine ⟨fun s pos h => ?_, hl⟩
    simp only [elementList] at h
    rcases PR.orElse_eq_expect.1 h with h | ⟨_, h⟩
    · exact (functor_viable hs.1 hel _ _ h).map fun a ts h => ⟨a, h.element⟩
    rcases PR.orElse_eq_expect.1 h with h | ⟨_, h⟩
    · exact absurd h constant_ne_expect
    rcases PR.orElse_eq_expect.1 h with h | ⟨_, h⟩
    · exact (hl _ _ h).map fun a ts h => ⟨a, .elist h⟩
    · exact (expression_viable _ _ _ h).map fun a ts h => ⟨a, .esum h⟩

theorem element_viable (n : Nat) : ViableP (elementP n) fun a => Syn .elem [a] := (elementList_viable n).1

theorem infix_viable {n : Nat} {op : Name} {rhs : P Node} {G : Node → List Tok → Prop} (ho : (Tok.sym op).Valid) (hr : ViableP rhs G)
    (hG : ∀ x y ts us, Syn .elem [x] ts → G y us → GoalSyn (.fn op [x, y]) (ts ++ .sym op :: us)) :
    ViableP (infixP (elementP n) op rhs) GoalSyn := by
  intro s pos h
  unfold infixP at h
  rcases PR.bind_eq_expect.1 h with h | ⟨x, r1, h1, h⟩
  · exact (element_viable n _ _ h).extend (es := [.sym n!"==", .var n!"X"]) (x := n!"==X") (Writes.symX rfl) (closes (by decide))
      fun a ts h => ⟨_, .eq h syn_X⟩
  rcases PR.bind_eq_expect.1 h with h | ⟨_, r2, h2, h⟩
  · exact absurd h lit_ne_expect
  obtain ⟨ts, g1, g2⟩ := (element_sound n).takes h1
  exact Begins.after (g2.append (lit_hard h2 ho).takes) (hr _ _ (PR.map_eq_expect.1 h)) fun a us h => ⟨_, by simpa using hG _ _ _ _ g1 h⟩

theorem head_viable (n : Nat) : ViableP (fun s => (functorP (elementP n) s).orElse (constantP s)) HeadSyn := by
  intro s pos h
  rcases PR.orElse_eq_expect.1 h with h | ⟨_, h⟩
  · exact functor_viable (element_sound n) (element_viable n) _ _ h
  · exact absurd h constant_ne_expect

theorem atom_viable (n : Nat) : ViableP (atomP n) GoalSyn := by
  intro s pos h
  unfold atomP at h
  rcases PR.orElse_eq_expect.1 h with h | ⟨_, h⟩
  · exact infix_viable (sym_valid rfl) (element_viable n) (fun _ _ _ _ => .eq) _ _ h
  rcases PR.orElse_eq_expect.1 h with h | ⟨_, h⟩
  · exact infix_viable (sym_valid rfl) (element_viable n) (fun _ _ _ _ => .neq) _ _ h
  rcases PR.orElse_eq_expect.1 h with h | ⟨_, h⟩
  · exact infix_viable (sym_valid rfl) (expression_viable n) (fun _ _ _ _ => .is) _ _ h
  exact (head_viable n _ _ h).map fun a ts h => ⟨a, .head h⟩

theorem goals_viable (n k : Nat) : ViableP (sepBy1 (atomP n) [','] k) GoalsSyn :=
  sepBy1_viable (atom_sound n) (atom_viable n) rfl (fun _ _ h => .one h) (fun _ _ _ _ h1 h2 => .more h1 h2)

theorem comment_viable : ViableP commentP fun (_ : Unit) ts => ∃ t, ts = [.comment t] := by
  intro s pos h
  unfold commentP at h
  rcases PR.bind_eq_expect.1 h with h | ⟨_, r1, h1, h⟩
  · exact absurd h lit_ne_expect
  rcases PR.must_eq_expect.1 h with h | ⟨h, rfl⟩
  · exact absurd h exactly_ne_expect
  obtain ⟨t1, t2, t3⟩ := takeWhile_split (· ≠ '\n') r1
  have hd : r1.dropWhile (· ≠ '\n') = [] := by
    cases hr : r1.dropWhile (· ≠ '\n') with
    | nil => rfl
    | cons d r =>
      rw [hr] at t3 h
      have := t3 d rfl
      simp only [ne_eq, decide_not, Bool.not_eq_false', decide_eq_true_eq] at this
      subst this
      simp [exactly] at h
  rw [hd] at t1 ⊢
  rw [List.append_nil] at t1
  obtain ⟨ws, hw, e⟩ := skipWs_split s
  have h2 := exactly_ok.1 h1
  refine ⟨s, ['\n'], (), [.comment r1], by simp, ?_, ⟨r1, rfl⟩, fun w hw' => ?_⟩
  · rw [e, h2]; simp
  · refine .mk (t := .comment r1) (r := w) ?_ ?_ trivial .nil
    · rw [e, h2]
      simp only [List.append_assoc]
      rw [skipWs_space hw]
      simp only [List.cons_append, List.nil_append]
      rw [skipWs_cons (by decide)]
      simp [Tok.text]
    · intro hm
      rw [t1] at hm
      simpa using t2 _ hm

theorem clause_viable (n : Nat) : ViableP (clauseP n) ClauseSyn := by
  intro s pos h
  have hdot : Writes [.sym ['.']] ['.'] := writes_sym rfl
  unfold clauseP at h
  rcases PR.bind_eq_expect.1 h with h | ⟨hd, r1, h1, h⟩
  · exact (head_viable n _ _ h).extend hdot (closes (by decide)) fun a ts h => ⟨_, .fact h⟩
  obtain ⟨ts, g1, g2⟩ := (head_sound n).takes h1
  have hne : ts ≠ [] := by cases g1 <;> simp
  rcases PR.bind_eq_expect.1 h with h | ⟨b, r2, h2, h⟩
  · rcases PR.orElse_eq_expect.1 h with h | ⟨_, h⟩
    · rcases PR.bind_eq_expect.1 h with h | ⟨_, r3, h4, h5⟩
      · exact absurd h lit_ne_expect
      refine Begins.extend (F := fun as => fun vs => ∃ us, GoalsSyn as us ∧ vs = ts ++ .sym n!":-" :: us)
        (Begins.after (g2.append (lit_hard h4 (sym_valid rfl)).takes) (goals_viable _ _ _ _ h5) ?_) hdot (closes (by decide)) ?_
      · intro a us h; exact ⟨a, us, h, by simp⟩
      · rintro a _ ⟨us, h, rfl⟩; exact ⟨_, .rule g1 h⟩
    · cases h
  · rcases PR.must_eq_expect.1 (PR.map_eq_expect.1 h) with h | ⟨_, rfl⟩
    · exact absurd h lit_ne_expect
    rcases PR.orElse_eq_ok.1 h2 with h2 | ⟨_, h2⟩
    · obtain ⟨_, r3, h4, h5⟩ := PR.bind_eq_ok.1 h2
      obtain ⟨us, g3, g4⟩ := (goals_sound _ _).takes h5
      exact Begins.skip ((g2.append (lit_hard h4 (sym_valid rfl)).takes).append g4) (by simp [hne]) hdot (closes (by decide)) (b := ⟨hd, b⟩)
        (by simpa using ClauseSyn.rule g1 g3)
    · cases h2
      exact Begins.skip g2 hne hdot (closes (by decide)) (b := ⟨hd, []⟩) (.fact g1)

theorem line_viable (n : Nat) : ViableP (lineP n) fun l ts => ProgSyn l.toList ts := by
  intro s pos h
  unfold lineP at h
  rcases PR.orElse_eq_expect.1 h with h | ⟨_, h⟩
  · refine (comment_viable _ _ (PR.map_eq_expect.1 h)).map ?_
    rintro _ _ ⟨t, rfl⟩
    exact ⟨none, .comment .nil⟩
  have h := PR.map_eq_expect.1 h
  unfold ruleP at h
  rcases PR.bind_eq_expect.1 h with h | ⟨c, r1, h1, h⟩
  · exact (clause_viable n _ _ h).map fun c ts h => ⟨some c, by simpa using ProgSyn.clause h .nil⟩
  obtain ⟨ts, g1, g2⟩ := (clause_sound n).takes h1
  split at h
  · cases h
  · cases h
  · rename_i p hc
    cases h
    refine Begins.after g2 (comment_viable _ _ hc) ?_
    rintro _ _ ⟨t, rfl⟩
    exact ⟨some c, .clause g1 (.comment .nil)⟩
  · cases h

theorem ProgSyn.append {p q ts us} (h : ProgSyn p ts) (g : ProgSyn q us) : ProgSyn (p ++ q) (ts ++ us) := by
  induction h with
  | nil => exact g
  | comment _ ih => exact .comment ih
  | clause hc _ ih => simpa using ProgSyn.clause hc ih

theorem lines_viable (n k : Nat) {s pos} (h : many (lineP n) k s = .expect pos) : Begins ProgSyn s pos := by
  refine many_viable (F := fun l ts => ProgSyn l.toList ts) (G := ProgSyn) ?_ (line_viable n) (fun ts => ∃ p, ProgSyn p ts) ?_ ?_ k ⟨[], .nil⟩
    .nil h
  · intro s l r h
    obtain ⟨ts, h1, h2⟩ := line_sound n h
    exact ⟨ts, by simpa using h1 [] [] .nil, h2⟩
  · rintro l ts0 ts ⟨p, hp⟩ h
    exact ⟨_, hp.append h⟩
  · rintro l ts0 ts ⟨p, hp⟩ h
    exact ⟨_, hp.append h⟩

theorem space_not_word {c : Char} (h : isSpace c = true) : isWord c = false ∧ c ≠ '(' := by
  rcases isSpace_cases h with rfl | rfl | rfl | rfl | rfl | rfl <;> decide

theorem spaces_closing {ws : List Char} (h : ∀ c ∈ ws, isSpace c = true) : Closing ws := by
  intro c hc
  exact space_not_word (h c (List.mem_of_mem_head? hc))

theorem many_ne_fail {p : P α} : ∀ {k : Nat} {s}, many p k s ≠ .fail
  | 0, _, h => by cases h
  | k + 1, s, h => by
    simp only [many] at h
    split at h
    · exact many_ne_fail (PR.map_eq_fail.1 h)
    all_goals cases h

/-- What stands before a reported position is the beginning of a correct program. -/
theorem parseProgram_viable {text pos} (h : parseProgram text = .error pos) : ∃ u v p, text = u ++ pos ∧ ProgText p (u ++ v) := by
  unfold parseProgram at h
  split at h
  · rename_i ls r hl
    split at h
    · cases h
    cases h
    obtain ⟨ts, h1, h2⟩ := lines_sound _ _ hl
    obtain ⟨u, hu, _, hr⟩ := (by simpa using h2 [] .nil : Takes ts text r).replace
    obtain ⟨ws, hw, e⟩ := skipWs_split r
    refine ⟨u ++ ws, [], _, by rw [List.append_assoc, ← e]; exact hu, ts, h1, ?_⟩
    rw [List.append_nil]
    exact (hr ws (.inr (spaces_closing hw))).spells hw
  · rename_i p hp
    cases h
    obtain ⟨u, v, p, ts, h1, _, h3, h4⟩ := lines_viable _ _ hp
    exact ⟨u, v, p, h1, ts, h3, by simpa using (h4 [] closing_nil).spells (by simp)⟩
  · rename_i h1 h2
    exfalso
    cases hm : many (lineP (text.length + 1)) (text.length + 1) text with
    | ok ls r => exact h1 _ _ hm
    | expect p => exact h2 _ hm
    | hang => exact lines_total text hm
    | fail => exact many_ne_fail hm

/-- What stands before a reported position is the beginning of a correct query. -/
theorem parseQuery_viable {text pos} (h : parseQuery text = .error pos) : ∃ u v q, text = u ++ pos ∧ QueryText q (u ++ v) := by
  have hdot : Writes [.sym ['.']] ['.'] := writes_sym rfl
  unfold parseQuery at h
  split at h
  · rename_i as r hl
    split at h
    · split at h <;> cases h
    cases h
    obtain ⟨ts, h1, h2⟩ := (goals_sound _ _).takes hl
    have hne : ts ≠ [] := by
      cases h1 with
      | one h =>
        cases h with
        | head h => cases h <;> simp
        | _ => simp
      | more _ _ => simp
    obtain ⟨u, v, q, ts', e, _, g1, g2⟩ := Begins.skip (G := fun q ts => ∃ us, GoalsSyn q us ∧ ts = us ++ [.sym ['.']]) h2 hne hdot
      (closes (by decide)) (b := as) ⟨ts, h1, rfl⟩
    obtain ⟨us, g3, rfl⟩ := g1
    exact ⟨u, v, q, e, us, g3, by simpa using (g2 [] closing_nil).spells (by simp)⟩
  · cases h
    obtain ⟨ws, hw, e⟩ := skipWs_split text
    refine ⟨ws, n!"x.", [.cons n!"x"], e, [.name n!"x"], .one (.head .cons), ?_⟩
    exact .cons (t := .name n!"x") hw ⟨'x', [], rfl, rfl, by simp⟩ (fun c hc => by cases hc; decide)
      (.cons (ws := []) (t := .sym ['.']) (s := []) (by simp) (sym_valid rfl) trivial (.nil (by simp)))
  · rename_i p hp
    cases h
    obtain ⟨u, v, q, ts, h1, _, h3, h4⟩ := Begins.extend (G := fun q ts => ∃ us, GoalsSyn q us ∧ ts = us ++ [.sym ['.']])
      (goals_viable _ _ _ _ hp) hdot (closes (by decide)) fun a ts h => ⟨a, ts, h, rfl⟩
    obtain ⟨us, g3, rfl⟩ := h3
    exact ⟨u, v, q, h1, us, g3, by simpa using (h4 [] closing_nil).spells (by simp)⟩
  · rename_i hm
    exact absurd hm (goals_total text)

/-! ## Correct programs in front -/

theorem skipWs_skipWs (s : List Char) : skipWs (skipWs s) = skipWs s := by
  obtain ⟨ws, hw, e⟩ := skipWs_split s
  conv => rhs; rw [e, skipWs_space hw]

theorem lit_skip (t s : List Char) : lit t (skipWs s) = lit t s := by
  unfold lit
  rw [skipWs_skipWs]

theorem word_skip (p : Char → Bool) (s : List Char) : word p (skipWs s) = word p s := by
  unfold word
  rw [skipWs_skipWs]

theorem comment_skip (s : List Char) : commentP (skipWs s) = commentP s := by
  unfold commentP
  rw [lit_skip]

theorem line_skip (n : Nat) (s : List Char) : lineP n (skipWs s) = lineP n s := by
  simp only [lineP, ruleP, clauseP, functorP, constantP, comment_skip, word_skip]

/-- How far the reading of lines gets: at most `L` characters are left. -/
def Bound (L : Nat) (x : PR α) : Prop := (∀ pos, x = .expect pos → pos.length ≤ L) ∧ ∀ a r, x = .ok a r → (skipWs r).length ≤ L

theorem Bound.map {L : Nat} {x : PR α} {f : α → β} (h : Bound L x) : Bound L (x.map f) := by
  refine ⟨fun pos e => h.1 pos (PR.map_eq_expect.1 e), fun a r e => ?_⟩
  obtain ⟨a', e', _⟩ := PR.map_eq_ok.1 e
  exact h.2 a' r e'

theorem Bound.mono {L M : Nat} {x : PR α} (h : Bound L x) (hl : L ≤ M) : Bound M x :=
  ⟨fun pos e => Nat.le_trans (h.1 pos e) hl, fun a r e => Nat.le_trans (h.2 a r e) hl⟩

theorem lines_bound (n k : Nat) (s : List Char) : Bound s.length (many (lineP n) k s) :=
  ⟨fun _ e => Nat.le_of_lt (lines_viable n k e).length, fun _ r e => Nat.le_trans (skipWs_length r) (many_le (line_eats n) k e)⟩

theorem lines_bound_skip (n k : Nat) (s : List Char) : Bound (skipWs s).length (many (lineP n) k s) := by
  cases k with
  | zero => exact ⟨fun _ e => (by cases e), fun _ _ e => by cases e⟩
  | succ k =>
    simp only [many]
    rw [← line_skip]
    split
    · rename_i a r h
      exact ((lines_bound n k r).mono (Nat.le_of_lt (line_eats n _ _ _ h))).map
    · exact ⟨fun _ e => (by cases e), fun _ _ e => by cases e; exact Nat.le_refl _⟩
    · rename_i p h
      refine ⟨fun _ e => ?_, fun _ _ e => by cases e⟩
      cases e
      exact Nat.le_of_lt (line_viable n _ _ h).length
    · exact ⟨fun _ e => (by cases e), fun _ _ e => by cases e⟩

theorem comment_expect {s pos} (h : commentP s = .expect pos) : pos = [] := by
  unfold commentP at h
  rcases PR.bind_eq_expect.1 h with h | ⟨_, r1, h1, h⟩
  · exact absurd h lit_ne_expect
  rcases PR.must_eq_expect.1 h with h | ⟨h, rfl⟩
  · exact absurd h exactly_ne_expect
  obtain ⟨t1, t2, t3⟩ := takeWhile_split (· ≠ '\n') r1
  cases hr : r1.dropWhile (· ≠ '\n') with
  | nil => rfl
  | cons d r =>
    rw [hr] at t3 h
    have := t3 d rfl
    simp only [ne_eq, decide_not, Bool.not_eq_false', decide_eq_true_eq] at this
    subst this
    simp [exactly] at h

/-- A correct program in front of any text is read to its end. -/
theorem ProgSyn.bound {text : List Char} {tail : List Tok} {L : Nat} (H : ∀ r, r <:+ text → Spell tail r → (skipWs r).length ≤ L)
    {p ts} (h : ProgSyn p ts) :
    (∀ n k s, s.length < n → s <:+ text → Spell (ts ++ tail) s → Bound L (many (lineP n) k s)) ∧
    ∀ t us, ts = .comment t :: us → ∀ n k s, s.length < n → s <:+ text → Spell (us ++ tail) s → Bound L (many (lineP n) k s) := by
  have suf : ∀ {s r ts}, Takes ts s r → s <:+ text → r <:+ text := by
    intro s r ts ht hs
    obtain ⟨u, rfl, _⟩ := ht.replace
    exact List.IsSuffix.trans ⟨u, rfl⟩ hs
  have zero : ∀ {n s}, Bound L (many (lineP n) 0 s) := ⟨fun _ e => (by cases e), fun _ _ e => by cases e⟩
  induction h with
  | nil => exact ⟨fun n k s _ hs hsp => (lines_bound_skip n k s).mono (H s hs hsp), fun t us e => by cases e⟩
  | @comment t p ts _ ih =>
    refine ⟨fun n k s hn hs hsp => ?_, fun t us e => by cases e; exact ih.1⟩
    cases k with
    | zero => exact zero
    | succ k =>
      obtain ⟨r, h1, h2⟩ := comment_reads hsp
      have := comment_eats _ _ _ h1
      obtain ⟨t', ht'⟩ := comment_sound h1
      have hl : lineP n s = .ok none r := by simp [lineP, h1]
      simp only [many, hl]
      exact (ih.1 n k r (by omega) (suf (ht' [] .nil) hs) h2).map
  | @clause c p ts us hc hp ih =>
    refine ⟨fun n k s hn hs hsp => ?_, fun t us' e => absurd e hc.first⟩
    cases k with
    | zero => exact zero
    | succ k =>
      rw [List.append_assoc] at hsp
      obtain ⟨ch, hl, hlow⟩ := hc.lead hsp
      have hcf : commentP s = .fail := by
        refine comment_fail hsp ?_
        rw [lead_append hl]; rintro ⟨⟩; revert hlow; decide
      obtain ⟨r, h1, h2⟩ := hc.reads hn hsp
      have := clause_eats n _ _ _ h1
      obtain ⟨ts', _, ht'⟩ := (clause_sound n).takes h1
      have hr := suf ht' hs
      simp only [many]
      cases hcm : commentP r with
      | fail =>
        have : lineP n s = .ok (some c) r := by simp [lineP, ruleP, hcf, h1, hcm]
        rw [this]
        exact (ih.1 n k r (by omega) hr h2).map
      | expect pos =>
        have : lineP n s = .expect pos := by simp [lineP, ruleP, hcf, h1, hcm]
        rw [this]
        refine ⟨fun _ e => ?_, fun _ _ e => by cases e⟩
        cases e
        rw [comment_expect hcm]
        exact Nat.zero_le _
      | hang =>
        have : lineP n s = .hang := by simp [lineP, ruleP, hcf, h1, hcm]
        rw [this]
        exact ⟨fun _ e => (by cases e), fun _ _ e => by cases e⟩
      | ok u r' =>
        have hline : lineP n s = .ok (some c) r' := by simp [lineP, ruleP, hcf, h1, hcm]
        rw [hline]
        have hr' := comment_eats _ _ _ hcm
        obtain ⟨t', ht2⟩ := comment_sound hcm
        refine Bound.map ?_
        cases hus : us with
        | nil =>
          rw [hus] at h2
          have h3 := H r hr h2
          rw [← comment_skip] at hcm
          have := comment_eats _ _ _ hcm
          exact (lines_bound n k r').mono (by omega)
        | cons t us' =>
          by_cases ht : ∃ t', t = .comment t'
          · obtain ⟨t2, rfl⟩ := ht
            rw [hus] at h2
            obtain ⟨r2, h3, h4⟩ := comment_reads h2
            rw [hcm] at h3
            cases h3
            exact ih.2 t2 us' hus n k r' (by omega) (suf (ht2 [] .nil) hr) h4
          · exfalso
            have hlead : PBfs.lead (us ++ tail) ≠ some '%' := by
              intro e
              cases hp with
              | nil => cases hus
              | comment _ => cases hus; exact ht ⟨_, rfl⟩
              | clause hc' _ =>
                rw [List.append_assoc] at h2 e
                obtain ⟨c', g1, g2⟩ := hc'.lead h2
                rw [lead_append g1] at e
                cases e
                exact absurd g2 (by decide)
            rw [comment_fail h2 hlead] at hcm
            cases hcm

/-- The last token ends by itself. -/
def LastHard (ts : List Tok) : Prop := ∀ t, ts.getLast? = some t → ∀ r, t.stops r

theorem ProgSyn.lastHard {p ts} (h : ProgSyn p ts) : LastHard ts := by
  induction h with
  | nil => intro t e; cases e
  | @comment t p ts _ ih =>
    intro t' e
    cases ts with
    | nil => cases e; intro _; trivial
    | cons a ts => exact ih t' (by simpa using e)
  | @clause c p ts us hc _ ih =>
    intro t' e
    cases us with
    | nil =>
      have : ts.getLast? = some (.sym ['.']) := by
        cases hc with
        | fact _ => exact List.getLast?_concat ..
        | rule _ _ => exact List.getLast?_concat ..
      rw [List.append_nil, this] at e
      cases e; intro _; trivial
    | cons a us => exact ih t' (by simpa [List.getLast?_append] using e)

theorem Spell.ws {ts s ws} (h : Spell ts s) (hw : ∀ c ∈ ws, isSpace c = true) : Spell ts (ws ++ s) := by
  cases ts with
  | nil =>
    cases h with
    | nil hs => exact .nil fun c hc => (List.mem_append.1 hc).elim (hw c) (hs c)
  | cons t ts =>
    obtain ⟨r, h1, h2, h3, h4⟩ := h.cons_inv
    exact .mk (by rw [skipWs_space hw]; exact h1) h2 h3 h4

theorem Spell.append {us b} (hb : Spell us b) : ∀ {ts a}, Spell ts a → LastHard ts → Spell (ts ++ us) (a ++ b)
  | [], a, .nil hw, _ => hb.ws hw
  | t :: ts, _, .cons (ws := ws) (s := s) hw hv hst h, hl => by
    have e : ws ++ (t.text ++ s) ++ b = ws ++ (t.text ++ (s ++ b)) := by simp
    rw [e]
    cases ts with
    | nil => exact .cons hw hv (hl t rfl _) (Spell.append hb h fun _ e => by cases e)
    | cons t2 ts =>
      refine .cons hw hv ?_ (Spell.append hb h fun t' e => hl t' (by simpa using e))
      obtain ⟨r, h1, h2, _⟩ := h.cons_inv
      obtain ⟨c, cs, e2, _⟩ := h2.head
      cases s with
      | nil => rw [e2] at h1; cases h1
      | cons d s => exact Tok.stops_head (by simp) hst

theorem trailing {x y ws ws' : List Char} {c : Char} (hc : isSpace c = false) (hw : ∀ c ∈ ws, isSpace c = true)
    (hw' : ∀ c ∈ ws', isSpace c = true) (h : x ++ (c :: ws) = y ++ (c :: ws')) : ws = ws' := by
  have h2 : ∀ {x ws : List Char}, (∀ c ∈ ws, isSpace c = true) → (x ++ (c :: ws)).reverse.takeWhile isSpace = ws.reverse := by
    intro x ws hw
    have : (x ++ (c :: ws)).reverse = ws.reverse ++ (c :: x.reverse) := by simp
    rw [this]
    exact (takeWhile_stop (by simpa using hw) (by intro d hd; cases hd; exact hc)).1
  have := h2 (x := x) hw
  rw [h, h2 hw'] at this
  simpa using this.symm

/-- A correct program at the beginning of a text ends before a reported position. -/
theorem parseProgram_beyond {a b pos : List Char} {p} (h : parseProgram (a ++ b) = .error pos) (ha : ProgText p a) : pos.length ≤ b.length := by
  obtain ⟨ts, h1, h2⟩ := ha
  -- the last character of `b` that is not white space
  obtain ⟨b1, c, ws2, hb, hc, hw2⟩ : ∃ b1 c ws2, b = b1 ++ (c :: ws2) ∧ isSpace c = false ∧ ∀ c ∈ ws2, isSpace c = true := by
    obtain ⟨t1, t2, t3⟩ := takeWhile_split isSpace b.reverse
    cases hd : b.reverse.dropWhile isSpace with
    | nil =>
      exfalso
      have hb : ∀ c ∈ b, isSpace c = true := by
        rw [hd, List.append_nil] at t1
        intro c hc
        exact t2 c (by rw [← t1]; simpa using hc)
      have := parseProgram_complete ⟨ts, h1, by simpa using (Spell.nil hb).append h2 h1.lastHard⟩
      rw [this] at h
      cases h
    | cons c r =>
      refine ⟨r.reverse, c, (b.reverse.takeWhile isSpace).reverse, ?_, t3 c (by rw [hd]; rfl), fun c hc => t2 c (by simpa using hc)⟩
      have := congrArg List.reverse t1
      rw [hd] at this
      simpa using this
  obtain ⟨ws1, hw1, e1⟩ := skipWs_split (b1 ++ [c])
  have hne : skipWs (b1 ++ [c]) ≠ [] := fun e => by
    have := skipWs_nil e c (by simp)
    rw [hc] at this; cases this
  have hlast : ∃ y, skipWs (b1 ++ [c]) = y ++ [c] := by
    rcases List.eq_nil_or_concat (skipWs (b1 ++ [c])) with e | ⟨y, d, e⟩
    · exact absurd e hne
    · rw [List.concat_eq_append] at e
      rw [e, ← List.append_assoc] at e1
      obtain ⟨_, e2⟩ := List.append_inj' e1 rfl
      cases e2
      exact ⟨y, e⟩
  obtain ⟨y, hy⟩ := hlast
  have hvalid : (Tok.sym (skipWs (b1 ++ [c]))).Valid := by
    cases hs : skipWs (b1 ++ [c]) with
    | nil => exact absurd hs hne
    | cons d r =>
      refine ⟨d, r, rfl, ?_⟩
      have h3 := skipWs_skipWs (b1 ++ [c])
      rw [hs] at h3
      cases hd : isSpace d with
      | false => rfl
      | true =>
        have := skipWs_length r
        have h4 : skipWs (d :: r) = skipWs r := by simp [skipWs, hd]
        rw [h4] at h3
        rw [h3, List.length_cons] at this
        omega
  have hb' : b = ws1 ++ (skipWs (b1 ++ [c]) ++ ws2) := by
    rw [← List.append_assoc, ← e1, hb]; simp
  have hsb : Spell [.sym (skipWs (b1 ++ [c]))] b := by
    rw [hb']
    exact .cons (t := .sym _) hw1 hvalid trivial (.nil hw2)
  have hbound := (ProgSyn.bound (text := a ++ b) (tail := [.sym (skipWs (b1 ++ [c]))]) (L := b.length) ?_ h1).1 ((a ++ b).length + 1)
    ((a ++ b).length + 1) (a ++ b) (by omega) (List.suffix_refl _) (hsb.append h2 h1.lastHard)
  · unfold parseProgram at h
    split at h
    · rename_i ls r hm
      split at h
      · cases h
      · cases h; exact hbound.2 _ _ hm
    · rename_i q hm
      cases h
      exact hbound.1 _ hm
    · rename_i g1 g2
      cases hm : many (lineP ((a ++ b).length + 1)) ((a ++ b).length + 1) (a ++ b) with
      | ok ls r => exact absurd hm (g1 _ _)
      | expect q => exact absurd hm (g2 _)
      | hang => exact absurd hm (lines_total _)
      | fail => exact absurd hm many_ne_fail
  · rintro r ⟨x, hx⟩ hr
    obtain ⟨r', g1, _, _, g4⟩ := hr.cons_inv
    have hr' : ∀ c ∈ r', isSpace c = true := by
      cases g4 with
      | nil h => exact h
    obtain ⟨ws, _, e⟩ := skipWs_split r
    simp only [Tok.text] at g1
    have := trailing (x := x ++ ws ++ y) (y := a ++ ws1 ++ y) hc hr' hw2 (by
      have e2 : x ++ ws ++ y ++ c :: r' = x ++ r := by rw [e, g1, hy]; simp
      have e3 : a ++ ws1 ++ y ++ c :: ws2 = a ++ b := by rw [hb', hy]; simp
      rw [e2, e3, hx])
    rw [g1, this]
    have := congrArg List.length hb'
    simp only [List.length_append] at this ⊢
    omega

end PBfs
