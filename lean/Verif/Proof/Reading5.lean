import Verif.Proof.Reading3
/-!
# How deep the brackets are where the parser stands
-/
namespace PBfs

/-! ## White space, words, signs -/

theorem height_cons {c : Char} (s) (h : c ≠ '[' ∧ c ≠ ']') : height (c :: s) = height s := by simp [height, h.1, h.2]

theorem height_dropWhile {p : Char → Bool} (h1 : p '[' = false) (h2 : p ']' = false) : ∀ s, height (s.dropWhile p) = height s
  | [] => rfl
  | c :: s => by
    rw [List.dropWhile_cons]
    split
    · rename_i hc
      rw [height_dropWhile h1 h2 s, height_cons s ⟨fun e => by subst e; simp [h1] at hc, fun e => by subst e; simp [h2] at hc⟩]
    · rfl

theorem height_skipWs (s) : height (skipWs s) = height s := height_dropWhile (by decide) (by decide) s

theorem height_exactly : ∀ {t : List Char} {s u r}, (∀ c ∈ t, c ≠ '[' ∧ c ≠ ']') → exactly t s = .ok u r → height r = height s
  | [], s, u, r, _, h => by cases h; rfl
  | c :: t, [], u, r, _, h => by cases h
  | c :: t, d :: s, u, r, ht, h => by
    unfold exactly at h
    simp only [] at h
    split at h
    · subst d
      rw [height_exactly (fun c hc => ht c (by simp [hc])) h, height_cons s (ht c (by simp))]
    · cases h

theorem height_lit {t s u r} (ht : ∀ c ∈ t, c ≠ '[' ∧ c ≠ ']') (h : lit t s = .ok u r) : height r = height s := by
  rw [height_exactly ht h, height_skipWs]

theorem height_open {s u r} (h : lit ['['] s = .ok u r) : height s = height r + 1 := by
  rw [← height_skipWs s]
  unfold lit exactly at h
  split at h
  · cases h
  · rename_i c s' hs
    rw [hs]
    split at h
    · subst c
      cases h
      simp [height]
    · cases h

theorem height_close {s u r} (h : lit [']'] s = .ok u r) : height r ≤ height s + 1 := by
  rw [← height_skipWs s]
  unfold lit exactly at h
  split at h
  · cases h
  · rename_i c s' hs
    rw [hs]
    split at h
    · subst c
      cases h
      simp [height]
      omega
    · cases h

theorem height_word {p : Char → Bool} {s w r} (h1 : p '[' = false) (h2 : p ']' = false) (h : word p s = .ok w r) : height r = height s := by
  rw [← height_skipWs s]
  unfold word at h
  cases hs : skipWs s with
  | nil => rw [hs] at h; cases h
  | cons c s' =>
    rw [hs] at h
    simp only [] at h
    split at h
    · rename_i hc
      cases h
      rw [height_dropWhile (by decide) (by decide), height_cons s' ⟨fun e => by subst e; simp [h1] at hc, fun e => by subst e; simp [h2] at hc⟩]
    · cases h

theorem height_number {s a r} (h : numberP s = .ok a r) : height r = height s ∧ a.listDepth = 0 := by
  have key : ∀ (neg : Bool) s', height s' = height s → (match s'.takeWhile isDigit with
      | [] => PR.fail
      | d :: ds => .ok (Node.int (if neg then -(digitsVal (d :: ds) : Int) else (digitsVal (d :: ds) : Int))) (s'.dropWhile isDigit)) = .ok a r →
      height r = height s ∧ a.listDepth = 0 := by
    intro neg s' hs h
    split at h
    · cases h
    · cases h
      exact ⟨by rw [height_dropWhile (by decide) (by decide), hs], by simp [Node.listDepth]⟩
  have hw := height_skipWs s
  have e : ∀ x : Bool × List Char, height x.2 = height s → (match x.2.takeWhile isDigit with
      | [] => PR.fail
      | d :: ds => .ok (Node.int (if x.1 then -(digitsVal (d :: ds) : Int) else (digitsVal (d :: ds) : Int))) (x.2.dropWhile isDigit)) = .ok a r →
      height r = height s ∧ a.listDepth = 0 := fun x => key x.1 x.2
  refine e (match skipWs s with | '-' :: r => (true, r) | _ => (false, skipWs s)) ?_ h
  split
  · rename_i r' heq
    rw [← hw, heq, height_cons _ (by decide)]
  · exact hw

/-! ## Terms -/

/-- What is read is at most as deep as the text, and the rest is not deeper. -/
def Low (p : P Node) : Prop := ∀ s a r, p s = .ok a r → height r ≤ height s ∧ a.listDepth ≤ height s

theorem variable_low : Low variableP := by
  intro s a r h
  obtain ⟨w, hw, rfl⟩ := PR.map_eq_ok.1 h
  exact ⟨Nat.le_of_eq (height_word (by decide) (by decide) hw), by simp [Node.listDepth]⟩

theorem constant_low : Low constantP := by
  intro s a r h
  obtain ⟨w, hw, rfl⟩ := PR.map_eq_ok.1 h
  exact ⟨Nat.le_of_eq (height_word (by decide) (by decide) hw), by simp [Node.listDepth]⟩

theorem orElse_low {s : List Char} {x y : PR Node} {a r} (hx : x = .ok a r → height r ≤ height s ∧ a.listDepth ≤ height s)
    (hy : y = .ok a r → height r ≤ height s ∧ a.listDepth ≤ height s) (h : x.orElse y = .ok a r) : height r ≤ height s ∧ a.listDepth ≤ height s := by
  cases x with
  | fail => exact hy h
  | _ => exact hx h

theorem value_low {ex : P Node} (hex : Low ex) : Low (valueP ex) := by
  intro s a r h
  refine orElse_low (variable_low s a r) (orElse_low (fun h => ?_) fun h => ?_) h
  · have := height_number h
    omega
  · obtain ⟨_, r0, h1, h2⟩ := PR.bind_eq_ok.1 h
    obtain ⟨e, r1, h3, h4⟩ := PR.bind_eq_ok.1 h2
    obtain ⟨_, h5, rfl⟩ := PR.map_eq_ok.1 h4
    have := height_lit (by decide) h1
    have := height_lit (by decide) (PR.must_eq_ok.1 h5)
    have := hex _ _ _ (PR.must_eq_ok.1 h3)
    omega

theorem chained_low {p : P Node} (hp : Low p) : ∀ (ops : List Name), (∀ op ∈ ops, ∀ c ∈ op, c ≠ '[' ∧ c ≠ ']') → ∀ s a r, chainedP p ops s = .ok a r →
    height r ≤ height s ∧ a.2.listDepth ≤ height s
  | [], _, s, a, r, h => by cases h
  | op :: ops, ho, s, a, r, h => by
    unfold chainedP at h
    cases hx : ((lit op s).bind fun _ r => ((p r).must r).map fun v => (op, v)) with
    | fail =>
      rw [hx] at h
      exact chained_low hp ops (fun o h => ho o (by simp [h])) s a r h
    | ok b r' =>
      rw [hx] at h
      cases h
      obtain ⟨_, r0, h1, h2⟩ := PR.bind_eq_ok.1 hx
      obtain ⟨v, h3, rfl⟩ := PR.map_eq_ok.1 h2
      have := height_lit (ho op (by simp)) h1
      have := hp _ _ _ (PR.must_eq_ok.1 h3)
      simp only []
      omega
    | _ => rw [hx] at h; cases h

theorem chainNode_depth {H : Nat} : ∀ (cs : List (Name × Node)) (v : Node), v.listDepth ≤ H → (∀ c ∈ cs, c.2.listDepth ≤ H) → (chainNode v cs).listDepth ≤ H
  | [], v, hv, _ => hv
  | (op, w) :: cs, v, hv, hc => by
    have := chainNode_depth cs w (hc (op, w) (by simp)) fun c h => hc c (by simp [h])
    simp only [chainNode, Node.listDepth, Node.listDepths]
    omega

theorem power_low {ex : P Node} (hex : Low ex) : Low (powerP ex) := by
  intro s a r h
  unfold powerP at h
  obtain ⟨v, r1, h1, h2⟩ := PR.bind_eq_ok.1 h
  have hv := value_low hex _ _ _ h1
  split at h2
  · rename_i c r2 hc
    cases h2
    have := chained_low (value_low hex) _ (by decide) _ _ _ hc
    refine ⟨by omega, chainNode_depth _ _ hv.2 ?_⟩
    simp only [List.mem_singleton, forall_eq]
    omega
  · cases h2
    exact hv
  · cases h2
  · cases h2

theorem many_low {p : P α} {d : α → Nat} (hp : ∀ s a r, p s = .ok a r → height r ≤ height s ∧ d a ≤ height s) : ∀ n s as r, many p n s = .ok as r →
    height r ≤ height s ∧ ∀ a ∈ as, d a ≤ height s
  | 0, s, as, r, h => by cases h
  | n + 1, s, as, r, h => by
    unfold many at h
    cases hx : p s with
    | ok a r1 =>
      simp only [hx] at h
      obtain ⟨as', h1, rfl⟩ := PR.map_eq_ok.1 h
      have ih := many_low hp n r1 as' r h1
      have := hp _ _ _ hx
      refine ⟨by omega, fun b hb => ?_⟩
      rcases List.mem_cons.1 hb with rfl | hb
      · exact this.2
      · have := ih.2 b hb; omega
    | fail =>
      simp only [hx] at h
      cases h
      exact ⟨Nat.le_refl _, by simp⟩
    | expect q => simp only [hx] at h; cases h
    | hang => simp only [hx] at h; cases h

theorem chain_low {p : P Node} (hp : Low p) {ops : List Name} (ho : ∀ op ∈ ops, ∀ c ∈ op, c ≠ '[' ∧ c ≠ ']') : Low (chainP p ops) := by
  intro s a r h
  obtain ⟨v, r1, h1, h2⟩ := PR.bind_eq_ok.1 h
  obtain ⟨cs, h3, rfl⟩ := PR.map_eq_ok.1 h2
  have hv := hp _ _ _ h1
  have hm := many_low (d := fun c : Name × Node => c.2.listDepth) (chained_low hp ops ho) _ _ _ _ h3
  exact ⟨by omega, chainNode_depth _ _ hv.2 fun c hc => Nat.le_trans (hm.2 c hc) hv.1⟩

theorem expression_low : ∀ n, Low (expressionP n)
  | 0 => fun _ _ _ h => by cases h
  | n + 1 => chain_low (chain_low (power_low (expression_low n)) (by decide)) (by decide)

theorem sepBy1_low {p : P Node} (hp : Low p) (n) : ∀ s as r, sepBy1 p [','] n s = .ok as r → height r ≤ height s ∧ ∀ a ∈ as, a.listDepth ≤ height s := by
  intro s as r h
  obtain ⟨a, r1, h1, h2⟩ := PR.bind_eq_ok.1 h
  obtain ⟨as', h3, rfl⟩ := PR.map_eq_ok.1 h2
  have ha := hp _ _ _ h1
  have hm := many_low (d := Node.listDepth) (fun s a r h => by
    obtain ⟨_, r0, h1, h2⟩ := PR.bind_eq_ok.1 h
    have := height_lit (by decide) h1
    have := hp _ _ _ h2
    omega) _ _ _ _ h3
  refine ⟨by omega, fun b hb => ?_⟩
  rcases List.mem_cons.1 hb with rfl | hb
  · exact ha.2
  · have := hm.2 b hb; omega

theorem word_not_bracket {p : Char → Bool} (hp : p '[' = false) {s w r} (h : word p s = .ok w r) : w ≠ n!"[" := by
  unfold word at h
  split at h
  · cases h
  · split at h
    · rename_i hc
      cases h
      intro e
      simp only [List.cons.injEq] at e
      rw [e.1, hp] at hc
      cases hc
    · cases h

theorem functor_low {el : P Node} (hel : Low el) : Low (functorP el) := by
  intro s a r h
  obtain ⟨w, r0, h1, h2⟩ := PR.bind_eq_ok.1 h
  obtain ⟨_, r1, h3, h4⟩ := PR.bind_eq_ok.1 h2
  obtain ⟨cs, r2, h5, h6⟩ := PR.bind_eq_ok.1 h4
  obtain ⟨_, h7, rfl⟩ := PR.map_eq_ok.1 h6
  have e1 := height_word (by decide) (by decide) h1
  have e2 := height_exactly (by decide) h3
  have e3 := sepBy1_low hel _ _ _ _ (PR.must_eq_ok.1 h5)
  have e4 := height_lit (by decide) (PR.must_eq_ok.1 h7)
  rw [listDepth_fn (word_not_bracket (by decide) h1)]
  refine ⟨by omega, listDepths_le.2 fun c hc => ?_⟩
  have := e3.2 c hc
  omega

theorem listWith_low {t : Node} {H : Nat} (ht : t.listDepth ≤ H) : ∀ cs : List Node, (∀ c ∈ cs, c.listDepth + 1 ≤ H) → (Node.listWith t cs).listDepth ≤ H
  | [], _ => ht
  | c :: cs, h => by
    have ih := listWith_low ht cs fun c hc => h c (by simp [hc])
    have e : (Node.listWith t (c :: cs)).listDepth = max (c.listDepth + 1) (Node.listWith t cs).listDepth := by
      simp [Node.listWith, Node.listDepth]
    have := h c (by simp)
    omega

theorem list_low {el ls : P Node} (hel : Low el) (hls : Low ls) : Low (listP el ls) := by
  intro s a r h
  refine orElse_low (fun h => ?_) (orElse_low (fun h => ?_) fun h => ?_) h
  · obtain ⟨_, r0, h1, h2⟩ := PR.bind_eq_ok.1 h
    obtain ⟨_, h3, rfl⟩ := PR.map_eq_ok.1 h2
    have := height_open h1
    have := height_close h3
    exact ⟨by omega, by simp [Node.nil, Node.listDepth, Node.listDepths]⟩
  · obtain ⟨_, r0, h1, h2⟩ := PR.bind_eq_ok.1 h
    obtain ⟨cs, r1, h3, h4⟩ := PR.bind_eq_ok.1 h2
    obtain ⟨_, h5, rfl⟩ := PR.map_eq_ok.1 h4
    have := height_open h1
    have := height_close h5
    have hs := sepBy1_low hel _ _ _ _ h3
    refine ⟨by omega, listWith_low (by simp [Node.nil, Node.listDepth, Node.listDepths]) cs fun c hc => ?_⟩
    have := hs.2 c hc
    omega
  · obtain ⟨_, r0, h1, h2⟩ := PR.bind_eq_ok.1 h
    obtain ⟨cs, r1, h3, h4⟩ := PR.bind_eq_ok.1 h2
    obtain ⟨_, r2, h5, h6⟩ := PR.bind_eq_ok.1 h4
    obtain ⟨t, r3, h7, h8⟩ := PR.bind_eq_ok.1 h6
    obtain ⟨_, h9, rfl⟩ := PR.map_eq_ok.1 h8
    have := height_open h1
    have := height_close h9
    have := height_lit (by decide) h5
    have hs := sepBy1_low hel _ _ _ _ h3
    have ht := orElse_low (variable_low _ _ _) (hls _ _ _) h7
    refine ⟨by omega, listWith_low (by omega) cs fun c hc => ?_⟩
    have := hs.2 c hc
    omega

theorem elementList_low : ∀ n, Low (elementList n).1 ∧ Low (elementList n).2
  | 0 => ⟨fun _ _ _ h => (by cases h), fun _ _ _ h => (by cases h)⟩
  | n + 1 => by
    obtain ⟨h1, h2⟩ := elementList_low n
    exact ⟨fun s a r h => orElse_low (functor_low h1 s a r) (orElse_low (constant_low s a r) (orElse_low (list_low h1 h2 s a r) (expression_low (n + 1) s a r))) h,
      list_low h1 h2⟩

theorem element_low (n) : Low (elementP n) := (elementList_low n).1

theorem infix_low {el rhs : P Node} (hel : Low el) (hr : Low rhs) {op : Name} (ho : ∀ c ∈ op, c ≠ '[' ∧ c ≠ ']') (ho' : op ≠ n!"[") : Low (infixP el op rhs) := by
  intro s a r h
  obtain ⟨l, r0, h1, h2⟩ := PR.bind_eq_ok.1 h
  obtain ⟨_, r1, h3, h4⟩ := PR.bind_eq_ok.1 h2
  obtain ⟨x, h5, rfl⟩ := PR.map_eq_ok.1 h4
  have := hel _ _ _ h1
  have := height_lit ho h3
  have := hr _ _ _ h5
  rw [listDepth_fn ho']
  simp only [Node.listDepths]
  omega

theorem atom_low (n) : Low (atomP n) := fun s a r h =>
  orElse_low (infix_low (element_low n) (element_low n) (by decide) (by decide) s a r)
    (orElse_low (infix_low (element_low n) (element_low n) (by decide) (by decide) s a r)
    (orElse_low (infix_low (element_low n) (expression_low n) (by decide) (by decide) s a r)
    (orElse_low (functor_low (element_low n) s a r) (constant_low s a r)))) h

end PBfs
