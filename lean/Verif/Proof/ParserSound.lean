import Verif.Proof.Lexer
/-! # What the parser accepts belongs to the grammar -/
namespace PBfs

/-- `p` only returns values which the grammar `F` gives to the tokens consumed. -/
def SoundP (p : P α) (F : α → List Tok → Prop) : Prop :=
  ∀ s a r, p s = .ok a r → ∃ ts, F a ts ∧ ∀ {z} us, Takes us r z → Takes (ts ++ us) s z

theorem sym_valid {c : Char} {cs} (h : isSpace c = false) : (Tok.sym (c :: cs)).Valid := ⟨c, cs, rfl, h⟩

theorem SoundP.mono {p : P α} {F G : α → List Tok → Prop} (h : SoundP p F) (hFG : ∀ a ts, F a ts → G a ts) : SoundP p G := by
  intro s a r e
  obtain ⟨ts, h1, h2⟩ := h s a r e
  exact ⟨ts, hFG _ _ h1, h2⟩

theorem value_sound {ex : P Node} (hex : SoundP ex fun a => Syn .sum [a]) : SoundP (valueP ex) fun a => Syn .value [a] := by
  intro s a r h
  unfold valueP at h
  rcases PR.orElse_eq_ok.1 h with h | ⟨_, h⟩
  · obtain ⟨w, rfl, g⟩ := variableP_sound h
    exact ⟨[.var w], .var, g⟩
  rcases PR.orElse_eq_ok.1 h with h | ⟨_, h⟩
  · obtain ⟨neg, ds, rfl, g⟩ := numberP_sound h
    exact ⟨[.num neg ds], .num, g⟩
  obtain ⟨_, r1, h1, h⟩ := PR.bind_eq_ok.1 h
  obtain ⟨e, r2, h2, h⟩ := PR.bind_eq_ok.1 h
  obtain ⟨_, h3, rfl⟩ := PR.map_eq_ok.1 h
  rw [PR.must_eq_ok] at h2 h3
  obtain ⟨ts, g1, g2⟩ := hex _ _ _ h2
  refine ⟨_, .paren g1, fun us hu => ?_⟩
  have := lit_sound h1 (sym_valid rfl) (g2 _ (lit_sound h3 (sym_valid rfl) hu))
  simpa using this

theorem chained_sound {operand : P Node} {F} (ho : SoundP operand F) :
    ∀ {ops : List Name}, (∀ op ∈ ops, (Tok.sym op).Valid) →
      ∀ {s op v r}, chainedP operand ops s = .ok (op, v) r →
        op ∈ ops ∧ ∃ ts, F v ts ∧ ∀ {z} us, Takes us r z → Takes (.sym op :: ts ++ us) s z
  | [], _, _, _, _, _, h => by cases h
  | o :: ops, hv, s, op, v, r, h => by
    simp only [chainedP] at h
    rcases PR.orElse_eq_ok.1 h with h | ⟨_, h⟩
    · obtain ⟨_, r1, h1, h⟩ := PR.bind_eq_ok.1 h
      obtain ⟨w, h2, e⟩ := PR.map_eq_ok.1 h
      cases e
      rw [PR.must_eq_ok] at h2
      obtain ⟨ts, g1, g2⟩ := ho _ _ _ h2
      refine ⟨by simp, ts, g1, fun us hu => ?_⟩
      simpa using lit_sound h1 (hv _ (by simp)) (g2 us hu)
    · obtain ⟨h1, h2⟩ := chained_sound ho (fun o ho => hv o (by simp [ho])) h
      exact ⟨by simp [h1], h2⟩

theorem power_sound {ex : P Node} (hex : SoundP ex fun a => Syn .sum [a]) : SoundP (powerP ex) fun a => Syn .power [a] := by
  intro s a r h
  unfold powerP at h
  obtain ⟨v, r1, h1, h⟩ := PR.bind_eq_ok.1 h
  obtain ⟨ts, g1, g2⟩ := value_sound hex _ _ _ h1
  split at h
  · rename_i c r2 hc
    cases h
    obtain ⟨op, w⟩ := c
    obtain ⟨ho, ts2, g3, g4⟩ := chained_sound (value_sound hex) (by simp; exact sym_valid rfl) hc
    simp only [List.mem_singleton] at ho
    subst ho
    refine ⟨_, .pow g1 g3, fun us hu => ?_⟩
    simpa using g2 _ (g4 us hu)
  · cases h
    exact ⟨ts, .power1 g1, g2⟩
  · cases h
  · cases h

theorem chain_sound {operand : P Node} {ops : List Name} {F G : Node → List Tok → Prop} (ho : SoundP operand F)
    (hv : ∀ op ∈ ops, (Tok.sym op).Valid) (hone : ∀ a ts, F a ts → G a ts)
    (hmore : ∀ op a b ts us, op ∈ ops → F a ts → G b us → G (.efn op [a, b]) (ts ++ .sym op :: us)) :
    SoundP (chainP operand ops) G := by
  intro s a r h
  unfold chainP at h
  obtain ⟨v, r1, h1, h⟩ := PR.bind_eq_ok.1 h
  obtain ⟨cs, h2, rfl⟩ := PR.map_eq_ok.1 h
  obtain ⟨ts, g1, g2⟩ := ho _ _ _ h1
  generalize r1.length + 1 = k at h2
  suffices ∀ k r1 cs v ts, many (chainedP operand ops) k r1 = .ok cs r → F v ts →
      ∃ ts', G (chainNode v cs) (ts ++ ts') ∧ ∀ {z} us, Takes us r z → Takes (ts' ++ us) r1 z by
    obtain ⟨ts', h3, h4⟩ := this _ _ _ _ _ h2 g1
    refine ⟨_, h3, fun us hu => ?_⟩
    simpa using g2 _ (h4 us hu)
  clear h2 g1 g2 h1 h
  intro k
  induction k with
  | zero => intro _ _ _ _ h; cases h
  | succ k ih =>
    intro r1 cs v ts h hF
    simp only [many] at h
    split at h
    · rename_i c r2 hc
      obtain ⟨cs', h3, rfl⟩ := PR.map_eq_ok.1 h
      obtain ⟨op, w⟩ := c
      obtain ⟨hop, ts2, g3, g4⟩ := chained_sound ho hv hc
      obtain ⟨ts3, g5, g6⟩ := ih _ _ w ts2 h3 g3
      refine ⟨.sym op :: (ts2 ++ ts3), hmore _ _ _ _ _ hop hF g5, fun us hu => ?_⟩
      simpa using g4 _ (g6 us hu)
    · cases h
      exact ⟨[], by simpa [chainNode] using hone _ _ hF, fun us hu => hu⟩
    · cases h
    · cases h

theorem product_sound {ex : P Node} (hex : SoundP ex fun a => Syn .sum [a]) : SoundP (productP ex) fun a => Syn .product [a] := by
  refine chain_sound (power_sound hex) ?_ (fun a ts h => .product1 h) (fun op a b ts us ho h1 h2 => .mul (by simpa using ho) h1 h2)
  simp only [List.mem_cons, List.not_mem_nil, or_false]
  rintro op (rfl | rfl) <;> exact sym_valid rfl

theorem expression_sound : ∀ n, SoundP (expressionP n) fun a => Syn .sum [a]
  | 0 => fun _ _ _ h => by cases h
  | n + 1 => by
    refine chain_sound (product_sound (expression_sound n)) ?_ (fun a ts h => .sum1 h)
      (fun op a b ts us ho h1 h2 => .add (by simpa using ho) h1 h2)
    simp only [List.mem_cons, List.not_mem_nil, or_false]
    rintro op (rfl | rfl) <;> exact sym_valid rfl

/-- Lists with separators. -/
theorem sepBy1_sound {p : P α} {F : α → List Tok → Prop} {G : List α → List Tok → Prop} {c : Char} (hp : SoundP p F)
    (hc : isSpace c = false) (hone : ∀ a ts, F a ts → G [a] ts)
    (hmore : ∀ a as ts us, F a ts → G as us → G (a :: as) (ts ++ .sym [c] :: us)) {k : Nat} : SoundP (sepBy1 p [c] k) G := by
  intro s as r h
  unfold sepBy1 at h
  obtain ⟨v, r1, h1, h⟩ := PR.bind_eq_ok.1 h
  obtain ⟨cs, h2, rfl⟩ := PR.map_eq_ok.1 h
  obtain ⟨ts, g1, g2⟩ := hp _ _ _ h1
  suffices ∀ k r1 cs v ts, many (fun s => (lit [c] s).bind fun _ r => p r) k r1 = .ok cs r → F v ts →
      ∃ ts', G (v :: cs) (ts ++ ts') ∧ ∀ {z} us, Takes us r z → Takes (ts' ++ us) r1 z by
    obtain ⟨ts', h3, h4⟩ := this _ _ _ _ _ h2 g1
    refine ⟨_, h3, fun us hu => ?_⟩
    simpa using g2 _ (h4 us hu)
  clear h2 g1 g2 h1 h
  intro k
  induction k with
  | zero => intro _ _ _ _ h; cases h
  | succ k ih =>
    intro r1 cs v ts h hF
    simp only [many] at h
    split at h
    · rename_i w r2 hc'
      obtain ⟨cs', h3, rfl⟩ := PR.map_eq_ok.1 h
      obtain ⟨_, r3, h4, h5⟩ := PR.bind_eq_ok.1 hc'
      obtain ⟨ts2, g3, g4⟩ := hp _ _ _ h5
      obtain ⟨ts3, g5, g6⟩ := ih _ _ w ts2 h3 g3
      refine ⟨.sym [c] :: (ts2 ++ ts3), hmore _ _ _ _ hF g5, fun us hu => ?_⟩
      simpa using lit_sound h4 (sym_valid hc) (g4 _ (g6 us hu))
    · cases h
      exact ⟨[], by simpa using hone _ _ hF, fun us hu => hu⟩
    · cases h
    · cases h

theorem args_sound {el : P Node} (hel : SoundP el fun a => Syn .elem [a]) {k : Nat} : SoundP (sepBy1 el [','] k) (Syn .args) :=
  sepBy1_sound hel rfl (fun _ _ h => .one h) (fun _ _ _ _ h1 h2 => .more h1 h2)

theorem functor_sound {el : P Node} (hel : SoundP el fun a => Syn .elem [a]) {s a r} (h : functorP el s = .ok a r) :
    ∃ w cs ts, a = .fn w cs ∧ Syn .args cs ts ∧ ∀ {z} us, Takes us r z → Takes (.opening w :: ts ++ [.sym [')']] ++ us) s z := by
  unfold functorP at h
  obtain ⟨w, r1, h1, h⟩ := PR.bind_eq_ok.1 h
  obtain ⟨_, r2, h2, h⟩ := PR.bind_eq_ok.1 h
  obtain ⟨cs, r3, h3, h⟩ := PR.bind_eq_ok.1 h
  obtain ⟨_, h4, rfl⟩ := PR.map_eq_ok.1 h
  rw [PR.must_eq_ok] at h3 h4
  obtain ⟨g1, g2, _⟩ := word_sound h1
  have g4 := exactly_ok.1 h2
  obtain ⟨ts, g5, g6⟩ := args_sound hel _ _ _ h3
  refine ⟨w, cs, ts, rfl, g5, fun us hu => ?_⟩
  rw [g4] at g1
  have := Takes.mk (t := .opening w) (s := s) (by simpa [Tok.text] using g1) g2 trivial (g6 _ (lit_sound h4 (sym_valid rfl) hu))
  simpa using this

/-- A name not followed by a parenthesis. -/
theorem constant_sound {el : P Node} {s a r} (hf : functorP el s = .fail) (h : constantP s = .ok a r) :
    ∃ w, a = .cons w ∧ ∀ {z} us, Takes us r z → Takes (.name w :: us) s z := by
  unfold constantP at h
  obtain ⟨w, h1, rfl⟩ := PR.map_eq_ok.1 h
  obtain ⟨h2, h3, h4⟩ := word_sound h1
  refine ⟨w, rfl, fun us hu => .mk h2 h3 (fun c hc => ⟨h4 c hc, ?_⟩) hu⟩
  rintro rfl
  unfold functorP at hf
  rw [h1] at hf
  cases r with
  | nil => cases hc
  | cons d r =>
    simp only [List.head?_cons, Option.some.injEq] at hc
    subst hc
    simp only [PR.bind_ok, exactly, if_true] at hf
    rcases PR.bind_eq_fail.1 hf with hf | ⟨_, _, _, hf⟩
    · exact PR.must_ne_fail hf
    · exact PR.must_ne_fail (PR.map_eq_fail.1 hf)

theorem list_sound {el ls : P Node} (hel : SoundP el fun a => Syn .elem [a]) (hls : SoundP ls fun a => Syn .list [a]) :
    SoundP (listP el ls) fun a => Syn .list [a] := by
  intro s a r h
  unfold listP at h
  rcases PR.orElse_eq_ok.1 h with h | ⟨_, h⟩
  · obtain ⟨_, r1, h1, h⟩ := PR.bind_eq_ok.1 h
    obtain ⟨_, h2, rfl⟩ := PR.map_eq_ok.1 h
    exact ⟨_, .nil, fun us hu => lit_sound h1 (sym_valid rfl) (lit_sound h2 (sym_valid rfl) hu)⟩
  rcases PR.orElse_eq_ok.1 h with h | ⟨_, h⟩
  · obtain ⟨_, r1, h1, h⟩ := PR.bind_eq_ok.1 h
    obtain ⟨cs, r2, h2, h⟩ := PR.bind_eq_ok.1 h
    obtain ⟨_, h3, rfl⟩ := PR.map_eq_ok.1 h
    obtain ⟨ts, g1, g2⟩ := args_sound hel _ _ _ h2
    refine ⟨_, .list g1, fun us hu => ?_⟩
    simpa using lit_sound h1 (sym_valid rfl) (g2 _ (lit_sound h3 (sym_valid rfl) hu))
  · obtain ⟨_, r1, h1, h⟩ := PR.bind_eq_ok.1 h
    obtain ⟨cs, r2, h2, h⟩ := PR.bind_eq_ok.1 h
    obtain ⟨_, r3, h3, h⟩ := PR.bind_eq_ok.1 h
    obtain ⟨t, r4, h4, h⟩ := PR.bind_eq_ok.1 h
    obtain ⟨_, h5, rfl⟩ := PR.map_eq_ok.1 h
    obtain ⟨ts, g1, g2⟩ := args_sound hel _ _ _ h2
    rcases PR.orElse_eq_ok.1 h4 with h4 | ⟨_, h4⟩
    · obtain ⟨w, rfl, g4⟩ := variableP_sound h4
      refine ⟨_, .listVar g1, fun us hu => ?_⟩
      simpa using lit_sound h1 (sym_valid rfl) (g2 _ (lit_sound h3 (sym_valid rfl) (g4 _ (lit_sound h5 (sym_valid rfl) hu))))
    · obtain ⟨us', g3, g4⟩ := hls _ _ _ h4
      refine ⟨_, .listList g1 g3, fun us hu => ?_⟩
      simpa using lit_sound h1 (sym_valid rfl) (g2 _ (lit_sound h3 (sym_valid rfl) (g4 _ (lit_sound h5 (sym_valid rfl) hu))))

theorem elementList_sound : ∀ n, SoundP (elementList n).1 (fun a => Syn .elem [a]) ∧ SoundP (elementList n).2 (fun a => Syn .list [a])
  | 0 => ⟨(fun _ _ _ h => by cases h), (fun _ _ _ h => by cases h)⟩
  | n + 1 => by
    obtain ⟨hel, hls⟩ := elementList_sound n
    have hl := list_sound hel hls
    refine ⟨fun s a r h => ?_, hl⟩
    simp only [elementList] at h
    rcases PR.orElse_eq_ok.1 h with h | ⟨hf, h⟩
    · obtain ⟨w, cs, ts, rfl, g1, g2⟩ := functor_sound hel h
      exact ⟨_, .fn g1, g2⟩
    rcases PR.orElse_eq_ok.1 h with h | ⟨_, h⟩
    · obtain ⟨w, rfl, g⟩ := constant_sound hf h
      exact ⟨_, .cons, g⟩
    rcases PR.orElse_eq_ok.1 h with h | ⟨_, h⟩
    · obtain ⟨ts, g1, g2⟩ := hl _ _ _ h
      exact ⟨ts, .elist g1, g2⟩
    · obtain ⟨ts, g1, g2⟩ := expression_sound _ _ _ _ h
      exact ⟨ts, .esum g1, g2⟩

theorem element_sound (n : Nat) : SoundP (elementP n) fun a => Syn .elem [a] := (elementList_sound n).1

theorem head_sound (n : Nat) : SoundP (fun s => (functorP (elementP n) s).orElse (constantP s)) HeadSyn := by
  intro s a r h
  rcases PR.orElse_eq_ok.1 h with h | ⟨hf, h⟩
  · obtain ⟨w, cs, ts, rfl, g1, g2⟩ := functor_sound (element_sound n) h
    exact ⟨_, .fn g1, g2⟩
  · obtain ⟨w, rfl, g⟩ := constant_sound hf h
    exact ⟨_, .cons, g⟩

theorem infix_sound {el rhs : P Node} {op : Name} {F G : Node → List Tok → Prop} (hel : SoundP el F) (hr : SoundP rhs G)
    (ho : (Tok.sym op).Valid) {s a r} (h : infixP el op rhs s = .ok a r) :
    ∃ x y ts us, a = .fn op [x, y] ∧ F x ts ∧ G y us ∧ ∀ {z} vs, Takes vs r z → Takes (ts ++ .sym op :: us ++ vs) s z := by
  unfold infixP at h
  obtain ⟨x, r1, h1, h⟩ := PR.bind_eq_ok.1 h
  obtain ⟨_, r2, h2, h⟩ := PR.bind_eq_ok.1 h
  obtain ⟨y, h3, rfl⟩ := PR.map_eq_ok.1 h
  obtain ⟨ts, g1, g2⟩ := hel _ _ _ h1
  obtain ⟨us, g3, g4⟩ := hr _ _ _ h3
  refine ⟨x, y, ts, us, rfl, g1, g3, fun vs hv => ?_⟩
  simpa using g2 _ (lit_sound h2 ho (g4 _ hv))

theorem atom_sound (n : Nat) : SoundP (atomP n) GoalSyn := by
  intro s a r h
  unfold atomP at h
  rcases PR.orElse_eq_ok.1 h with h | ⟨_, h⟩
  · obtain ⟨x, y, ts, us, rfl, h1, h2, h3⟩ := infix_sound (element_sound n) (element_sound n) (sym_valid rfl) h
    exact ⟨_, .eq h1 h2, h3⟩
  rcases PR.orElse_eq_ok.1 h with h | ⟨_, h⟩
  · obtain ⟨x, y, ts, us, rfl, h1, h2, h3⟩ := infix_sound (element_sound n) (element_sound n) (sym_valid rfl) h
    exact ⟨_, .neq h1 h2, h3⟩
  rcases PR.orElse_eq_ok.1 h with h | ⟨_, h⟩
  · obtain ⟨x, y, ts, us, rfl, h1, h2, h3⟩ := infix_sound (element_sound n) (expression_sound n) (sym_valid rfl) h
    exact ⟨_, .is h1 h2, h3⟩
  obtain ⟨ts, h1, h2⟩ := head_sound n _ _ _ h
  exact ⟨ts, .head h1, h2⟩

theorem goals_sound (n k : Nat) : SoundP (sepBy1 (atomP n) [','] k) GoalsSyn :=
  sepBy1_sound (atom_sound n) rfl (fun _ _ h => .one h) (fun _ _ _ _ h1 h2 => .more h1 h2)

theorem comment_sound {s u r} (h : commentP s = .ok u r) : ∃ t, ∀ {z} us, Takes us r z → Takes (.comment t :: us) s z := by
  unfold commentP at h
  obtain ⟨_, r1, h1, h⟩ := PR.bind_eq_ok.1 h
  rw [PR.must_eq_ok] at h
  have h2 := exactly_ok.1 h
  have h3 := exactly_ok.1 h1
  obtain ⟨t1, t2, _⟩ := takeWhile_split (· ≠ '\n') r1
  refine ⟨r1.takeWhile (· ≠ '\n'), fun us hu => .mk (r := r) ?_ ?_ trivial hu⟩
  · rw [h3]
    conv => lhs; rw [t1, h2]
    simp [Tok.text]
  · intro hm
    simpa using t2 _ hm

theorem clause_sound (n : Nat) : SoundP (clauseP n) ClauseSyn := by
  intro s c r h
  unfold clauseP at h
  obtain ⟨hd, r1, h1, h⟩ := PR.bind_eq_ok.1 h
  obtain ⟨ts, g1, g2⟩ := head_sound n _ _ _ h1
  obtain ⟨b, r2, h2, h⟩ := PR.bind_eq_ok.1 h
  obtain ⟨_, h3, rfl⟩ := PR.map_eq_ok.1 h
  rw [PR.must_eq_ok] at h3
  rcases PR.orElse_eq_ok.1 h2 with h2 | ⟨_, h2⟩
  · obtain ⟨_, r3, h4, h5⟩ := PR.bind_eq_ok.1 h2
    obtain ⟨us, g3, g4⟩ := goals_sound _ _ _ _ _ h5
    refine ⟨_, .rule g1 g3, fun vs hv => ?_⟩
    simpa using g2 _ (lit_sound h4 (sym_valid rfl) (g4 _ (lit_sound h3 (sym_valid rfl) hv)))
  · cases h2
    refine ⟨_, .fact g1, fun vs hv => ?_⟩
    simpa using g2 _ (lit_sound h3 (sym_valid rfl) hv)

theorem line_sound (n : Nat) {s l r} (h : lineP n s = .ok l r) :
    ∃ ts, (∀ p us, ProgSyn p us → ProgSyn (l.toList ++ p) (ts ++ us)) ∧ ∀ {z} us, Takes us r z → Takes (ts ++ us) s z := by
  unfold lineP at h
  rcases PR.orElse_eq_ok.1 h with h | ⟨_, h⟩
  · obtain ⟨_, h', rfl⟩ := PR.map_eq_ok.1 h
    obtain ⟨t, ht⟩ := comment_sound h'
    exact ⟨[.comment t], fun p us hp => .comment hp, ht⟩
  · obtain ⟨c, h', rfl⟩ := PR.map_eq_ok.1 h
    clear h
    unfold ruleP at h'
    obtain ⟨c', r1, h1, h⟩ := PR.bind_eq_ok.1 h'
    obtain ⟨ts, g1, g2⟩ := clause_sound n _ _ _ h1
    split at h
    · rename_i r2 hc
      cases h
      obtain ⟨t, ht⟩ := comment_sound hc
      refine ⟨ts ++ [.comment t], fun p us hp => ?_, fun us hu => ?_⟩
      · have := ProgSyn.clause g1 (.comment (t := t) hp)
        simpa using this
      · simpa using g2 _ (ht _ hu)
    · cases h
      exact ⟨ts, fun p us hp => .clause g1 hp, g2⟩
    · cases h
    · cases h

theorem lines_sound (n : Nat) : ∀ (k : Nat) {s ls r}, many (lineP n) k s = .ok ls r →
    ∃ ts, ProgSyn (ls.filterMap id) ts ∧ ∀ {z} us, Takes us r z → Takes (ts ++ us) s z
  | 0, _, _, _, h => by cases h
  | k + 1, s, ls, r, h => by
    simp only [many] at h
    split at h
    · rename_i l r1 hl
      obtain ⟨ls', h1, rfl⟩ := PR.map_eq_ok.1 h
      obtain ⟨ts, g1, g2⟩ := lines_sound n k h1
      obtain ⟨ts', g3, g4⟩ := line_sound n hl
      refine ⟨ts' ++ ts, ?_, fun us hu => ?_⟩
      · have := g3 _ _ g1
        cases l <;> simpa using this
      · simpa using g4 _ (g2 us hu)
    · cases h
      exact ⟨[], .nil, fun us hu => hu⟩
    · cases h
    · cases h

/-- A text read as a program is a text of that program. -/
theorem parseProgram_sound {text p} (h : parseProgram text = .ok p) : ProgText p text := by
  unfold parseProgram at h
  split at h
  · rename_i ls r hl
    split at h
    · rename_i hr
      cases h
      obtain ⟨ts, h1, h2⟩ := lines_sound _ _ hl
      refine ⟨ts, h1, ?_⟩
      simpa using (h2 [] .nil).spells (skipWs_nil hr)
    · cases h
  · cases h
  · cases h

/-- A text read as a query is a text of that query. -/
theorem parseQuery_sound {text q} (h : parseQuery text = .ok q) : QueryText q text := by
  unfold parseQuery at h
  split at h
  · rename_i as r hl
    split at h
    · rename_i r' hr'
      split at h
      · rename_i hr
        cases h
        obtain ⟨ts, h1, h2⟩ := goals_sound _ _ _ _ _ hl
        exact ⟨ts, h1, (h2 _ (lit_sound hr' (sym_valid rfl) .nil)).spells (skipWs_nil hr)⟩
      · cases h
    · cases h
  · cases h
  · cases h
  · cases h

end PBfs
