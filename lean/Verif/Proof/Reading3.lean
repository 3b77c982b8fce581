import Verif.Proof.Reading2
/-! # The number of steps for terms, goals and clauses -/
namespace PBfs

open Timed

/-- The price of a character, by the depth of lists. -/
def rate : Nat → Nat
  | 0 => 16
  | d + 1 => 2 * rate d + 16

theorem rate_ge : ∀ d, 16 ≤ rate d
  | 0 => Nat.le_refl _
  | d + 1 => by simp [rate]

theorem rate_mono {d e : Nat} (h : d ≤ e) : rate d ≤ rate e := by
  induction h with
  | refl => exact Nat.le_refl _
  | step _ ih => simp only [rate]; omega

theorem rate_le : ∀ d, rate d + 16 = 32 * 2 ^ d
  | 0 => rfl
  | d + 1 => by
    have := rate_le d
    simp only [rate, Nat.pow_succ]
    omega

/-! ## Depths -/

theorem listDepths_le {cs : List Node} {D} : Node.listDepths cs ≤ D ↔ ∀ c ∈ cs, c.listDepth ≤ D := by
  induction cs with
  | nil => simp [Node.listDepths]
  | cons c cs ih => simp only [Node.listDepths, Nat.max_le, ih, List.mem_cons, forall_eq_or_imp]

theorem listDepth_fn {n : Name} {cs : List Node} (h : n ≠ n!"[") : (Node.fn n cs).listDepth = Node.listDepths cs := by
  match cs with
  | [] => simp [Node.listDepth]
  | [c] => simp [Node.listDepth]
  | [c, d] => simp [Node.listDepth, h, Node.listDepths]
  | c :: d :: e :: cs => simp [Node.listDepth]

theorem listWith_depth (t : Node) : ∀ cs : List Node, t.listDepth ≤ (Node.listWith t cs).listDepth ∧
    ∀ c ∈ cs, c.listDepth + 1 ≤ (Node.listWith t cs).listDepth
  | [] => ⟨Nat.le_refl _, by simp⟩
  | c :: cs => by
    have ih := listWith_depth t cs
    have e : (Node.listWith t (c :: cs)).listDepth = max (c.listDepth + 1) (Node.listWith t cs).listDepth := by
      simp [Node.listWith, Node.listDepth]
    rw [e]
    refine ⟨by omega, fun d hd => ?_⟩
    rcases List.mem_cons.1 hd with rfl | hd
    · omega
    · have := ih.2 d hd; omega

/-! ## Sequences with separators -/

/-- `dead`: places where the search ends without success, whatever was paid before. -/
theorem manyT_sep {p : TP α} {Q : α → Prop} {dead : List Char → Prop} {F B : Nat} {c : Char} {cs : List Char}
    (hp : ∀ s a r, (p s).res = .ok a r → Q a → Cheap F 0 B s r (p s).steps ∨ dead r)
    (hd : ∀ r, dead r → lit (c :: cs) r = .fail) (hF : B + 1 ≤ F) :
    ∀ n {s as r}, (manyT (fun s => (litT (c :: cs) s).bind fun _ r => p r) n s).res = .ok as r → (∀ a ∈ as, Q a) → ¬ dead r →
      lit (c :: cs) r = .fail →
      ¬ dead s ∧ r.length ≤ s.length ∧
      (manyT (fun s => (litT (c :: cs) s).bind fun _ r => p r) n s).steps + B * (blanks s + 1) + F * r.length ≤
        F * s.length + (B + 1) * (blanks r + 1)
  | 0, s, as, r, h, _, _, _ => by cases h
  | n + 1, s, as, r, h, hQ, hr, hf => by
    unfold manyT at h ⊢
    cases hi : ((litT (c :: cs) s).bind fun _ r => p r).res with
    | ok a r1 =>
      simp only [hi] at h ⊢
      obtain ⟨as', h1, rfl⟩ := PR.map_eq_ok.1 h
      obtain ⟨hnd, hl, hm⟩ := manyT_sep hp hd hF n h1 (fun a ha => hQ a (by simp [ha])) hr hf
      obtain ⟨_, r0, h2, h3, hs⟩ := bind_ok hi
      have h2 : lit (c :: cs) s = .ok _ r0 := h2
      have hc := (hp _ _ _ h3 (hQ a (by simp))).resolve_right hnd
      have h4 := pay_lit (K := B + 1) h2 hF
      have hl0 := lit_span h2
      have hc1 := hc.1
      have hc2 := hc.2
      refine ⟨fun hds => by simp [hd s hds] at h2, by simp at hl0; omega, ?_⟩
      rw [hs]
      have : (litT (c :: cs) s).steps = blanks s + 1 := rfl
      rw [this]
      rw [Nat.add_mul B 1 (blanks s + 1)] at h4
      omega
    | fail =>
      simp only [hi, PR.ok.injEq] at h ⊢
      obtain ⟨_, rfl⟩ := h
      refine ⟨hr, Nat.le_refl _, ?_⟩
      rcases bind_fail hi with ⟨_, hs⟩ | ⟨_, r0, h2, _, _⟩
      · rw [hs, Nat.add_mul]
        have : (litT (c :: cs) s).steps = blanks s + 1 := rfl
        omega
      · rw [litT_res, hf] at h2; cases h2
    | expect q => simp only [hi] at h; cases h
    | hang => simp only [hi] at h; cases h

theorem sepBy1T_cheap {p : TP α} {Q : α → Prop} {dead : List Char → Prop} {F B : Nat} {c : Char} {cs : List Char}
    (hp : ∀ s a r, (p s).res = .ok a r → Q a → Cheap F 0 B s r (p s).steps ∨ dead r)
    (hd : ∀ r, dead r → lit (c :: cs) r = .fail) (hF : B + 1 ≤ F) {n s as r}
    (h : (sepBy1T p (c :: cs) n s).res = .ok as r) (hQ : ∀ a ∈ as, Q a) (hr : ¬ dead r) (hf : lit (c :: cs) r = .fail) :
    as ≠ [] ∧ Cheap F 0 (B + 1) s r (sepBy1T p (c :: cs) n s).steps := by
  unfold sepBy1T at h ⊢
  obtain ⟨a, r1, h1, h2, hs⟩ := bind_ok h
  obtain ⟨as', h3, rfl⟩ := map_ok h2
  obtain ⟨hnd, hl, hm⟩ := manyT_sep hp hd hF n h3 (fun a ha => hQ a (by simp [ha])) hr hf
  have hc := (hp _ _ _ h1 (hQ a (by simp))).resolve_right hnd
  have hc1 := hc.1
  have hc2 := hc.2
  refine ⟨by simp, by omega, ?_⟩
  rw [hs]
  have e : ((manyT (fun s => (litT (c :: cs) s).bind fun _ r => p r) n r1).map (a :: ·)).steps =
    (manyT (fun s => (litT (c :: cs) s).bind fun _ r => p r) n r1).steps := rfl
  rw [e]
  omega

/-! ## Terms -/

/-- What a parser of terms reads it reads at the price of its depth. -/
def Fair (p : TP Node) (S B : Nat) : Prop := ∀ s a r, (p s).res = .ok a r → Cheap (rate a.listDepth) S B s r (p s).steps

theorem Fair.args {el : TP Node} (h : Fair el 0 5) {D n s as r c} (hs : (sepBy1T el [','] n s).res = .ok as r)
    (hD : ∀ a ∈ as, a.listDepth ≤ D) {u r'} (hl : lit [c] r = .ok u r') (hc : c ≠ ',') :
    as ≠ [] ∧ Cheap (rate D) 0 6 s r (sepBy1T el [','] n s).steps :=
  sepBy1T_cheap (Q := fun a => a.listDepth ≤ D) (dead := fun _ => False)
    (fun _ a _ h1 h2 => .inl ((h _ _ _ h1).raise (rate_mono h2))) (fun _ h => h.elim) (by have := rate_ge D; omega) hs hD (fun h => h)
    (lit_other hl hc)

theorem functorT_fail {el : TP Node} {s} (h : (functorT el s).res = .fail) :
    (word isLower s = .fail ∧ (functorT el s).steps = blanks s + 1) ∨
    ∃ w r, word isLower s = .ok w r ∧ (functorT el s).steps = blanks s + 2 + w.length := by
  unfold functorT at h ⊢
  rcases bind_fail h with ⟨h1, hs⟩ | ⟨w, r, h1, h2, hs⟩
  · exact .inl ⟨h1, by rw [hs, wordT_fail h1]⟩
  · refine .inr ⟨w, r, h1, ?_⟩
    rw [hs, wordT_ok h1]
    rcases bind_fail h2 with ⟨_, hs2⟩ | ⟨_, r2, _, h3, _⟩
    · rw [hs2]; simp only [exactlyT]; omega
    · exfalso
      rcases bind_fail h3 with ⟨h4, _⟩ | ⟨_, r3, _, h4, _⟩
      · exact PR.must_ne_fail h4
      · exact PR.must_ne_fail (PR.map_eq_fail.1 h4)

theorem functorT_cheap {el : TP Node} (hel : Fair el 0 5) : Fair (functorT el) 1 0 := by
  intro s a r h
  unfold functorT at h ⊢
  obtain ⟨w, r0, h1, h2, hs⟩ := bind_ok h
  rw [hs]
  obtain ⟨_, r1, h3, h4, hs⟩ := bind_ok h2
  rw [hs]
  obtain ⟨cs, r2, h5, h6, hs⟩ := bind_ok h4
  rw [hs]
  obtain ⟨_, h7, rfl⟩ := map_ok h6
  have h5 := must_ok h5
  have h7 : lit [')'] r2 = .ok _ r := must_ok h7
  have h1 : word isLower s = .ok w r0 := h1
  have hw := word_span h1
  have h3 : exactly ['('] r0 = .ok _ r1 := h3
  have hn : w ≠ n!"[" := by
    rintro rfl
    unfold word at h1
    cases hs : skipWs s with
    | nil => rw [hs] at h1; cases h1
    | cons c u =>
      rw [hs] at h1
      simp only [] at h1
      split at h1
      · rename_i hc
        simp only [PR.ok.injEq, List.cons.injEq] at h1
        rw [h1.1.1] at hc
        exact absurd hc (by decide)
      · cases h1
  rw [listDepth_fn hn]
  have hc := (hel.args (D := Node.listDepths cs) h5 (listDepths_le.1 (Nat.le_refl _)) h7 (by decide)).2
  generalize Node.listDepths cs = D at hc ⊢
  have hF := rate_ge D
  generalize rate D = F at hc hF ⊢
  have hl1 := exactly_length h3
  simp only [List.length_cons, List.length_nil] at hl1
  have hl2 := lit_span h7
  simp only [List.length_cons, List.length_nil] at hl2
  have h8 := pay_lit (K := 7) h7 (by omega : 7 ≤ F)
  have h9 := pay (F := F) (K := 4) (r := r1) (s := s) (x := blanks s + w.length + 1) (by omega) (by omega)
  have hc1 := hc.1
  have hc2 := hc.2
  refine ⟨by omega, ?_⟩
  have e : (wordT isLower s).steps = blanks s + 1 + w.length := wordT_ok h1
  show (wordT isLower s).steps + (1 + ((sepBy1T el [','] (r1.length + 1) r1).steps + (blanks r2 + 1))) + _ + _ ≤ _
  rw [e]
  omega

theorem constantT_cheap {s a r} (h : (constantT s).res = .ok a r) : a.listDepth = 0 ∧
    ∃ w, word isLower s = .ok w r ∧ (constantT s).steps = blanks s + 1 + w.length := by
  obtain ⟨w, hw, rfl⟩ := map_ok h
  exact ⟨by simp [Node.listDepth], w, hw, wordT_ok hw⟩

theorem constantT_fail {s} (h : (constantT s).res = .fail) : word isLower s = .fail ∧ (constantT s).steps = blanks s + 1 :=
  ⟨PR.map_eq_fail.1 h, wordT_fail (PR.map_eq_fail.1 h)⟩

theorem listT_cheap {el ls : TP Node} (hel : Fair el 0 5) (hls : Fair ls 2 0) : Fair (listT el ls) 2 0 := by
  intro s a r h
  unfold listT at h ⊢
  rcases orElse_ok h with ⟨h1, hs⟩ | ⟨h1, h2, hs⟩
  · -- `[]`
    rw [hs]
    obtain ⟨_, r0, h3, h4, hs⟩ := bind_ok h1
    rw [hs]
    obtain ⟨_, h5, rfl⟩ := map_ok h4
    have h3 : lit ['['] s = .ok _ r0 := h3
    have h5 : lit [']'] r0 = .ok _ r := h5
    have hF := rate_ge Node.nil.listDepth
    have h6 := pay_lit (K := 3) h3 (by omega : 3 ≤ rate Node.nil.listDepth)
    have h7 := pay_lit (K := 1) h5 (by omega : 1 ≤ rate Node.nil.listDepth)
    have hl0 := lit_span h3
    have hl1 := lit_span h5
    simp only [List.length_cons, List.length_nil] at hl0 hl1
    refine ⟨by omega, ?_⟩
    show blanks s + 1 + (blanks r0 + 1) + _ + _ ≤ _
    omega
  · rw [hs]
    -- the bracket is there, else nothing can be read
    obtain ⟨r0, hb⟩ : ∃ r0, lit ['['] s = .ok () r0 := by
      rcases lit_ok_or_fail ['['] s with h | hf
      · exact h
      · exfalso
        rcases orElse_ok h2 with ⟨h3, _⟩ | ⟨_, h3, _⟩ <;>
        · obtain ⟨_, _, h4, _, _⟩ := bind_ok h3
          rw [litT_res, hf] at h4
          cases h4
    have hs1 : ((litT ['['] s).bind fun _ r => (litT [']'] r).map fun _ => Node.nil).steps = blanks s + 1 + (blanks r0 + 1) := by
      rcases bind_fail h1 with ⟨h3, _⟩ | ⟨_, r0', h3, _, hs⟩
      · rw [litT_res, hb] at h3; cases h3
      · rw [litT_res, hb] at h3; cases h3; rw [hs]; rfl
    rw [hs1]
    clear hs hs1 h1
    have hl0 := lit_span hb
    simp only [List.length_cons, List.length_nil] at hl0
    rcases orElse_ok h2 with ⟨h3, hs⟩ | ⟨h3, h4, hs⟩
    · -- `[a, b]`
      rw [hs]
      obtain ⟨_, r0', h5, h6, hs⟩ := bind_ok h3
      rw [hs]
      rw [litT_res, hb] at h5
      cases h5
      obtain ⟨cs, r1, h7, h8, hs⟩ := bind_ok h6
      rw [hs]
      obtain ⟨_, h9, rfl⟩ := map_ok h8
      have h9 : lit [']'] r1 = .ok _ r := h9
      have hD := (listWith_depth Node.nil cs).2
      have hne := (hel.args (D := Node.listDepths cs) h7 (listDepths_le.1 (Nat.le_refl _)) h9 (by decide)).1
      have hd : ∃ d, (Node.list cs).listDepth = d + 1 := by
        cases cs with
        | nil => exact absurd rfl hne
        | cons c cs => have := hD c (by simp); exact ⟨(Node.list (c :: cs)).listDepth - 1, by simp only [Node.list]; omega⟩
      obtain ⟨d, hd⟩ := hd
      have hc := (hel.args (D := d) h7 (fun a ha => by have := hD a ha; simp only [Node.list] at hd; omega) h9 (by decide)).2
      rw [hd]
      have hF := rate_ge d
      have e : rate (d + 1) = 2 * rate d + 16 := rfl
      have h10 := pay_lit (K := 4) hb (by omega : 4 ≤ rate (d + 1))
      have h11 := pay_lit (K := 14) h9 (by omega : 14 ≤ rate (d + 1))
      have hl2 := lit_span h9
      simp only [List.length_cons, List.length_nil] at hl2
      have hc1 := hc.1
      have hc2 := hc.2
      have e0 : rate (d + 1) * r0.length = 2 * (rate d * r0.length) + 16 * r0.length := by rw [e, Nat.add_mul, Nat.mul_assoc]
      have e1 : rate (d + 1) * r1.length = 2 * (rate d * r1.length) + 16 * r1.length := by rw [e, Nat.add_mul, Nat.mul_assoc]
      have hm : rate d * r1.length ≤ rate d * r0.length := Nat.mul_le_mul_left _ (by omega)
      refine ⟨by omega, ?_⟩
      show blanks s + 1 + (blanks r0 + 1) + (blanks s + 1 + ((sepBy1T el [','] (r0.length + 1) r0).steps + (blanks r1 + 1))) + _ + _ ≤ _
      omega
    · -- `[a, b | t]`: the elements are read twice
      rw [hs]
      obtain ⟨_, r0', h5, h6, hs⟩ := bind_ok h4
      rw [hs]
      rw [litT_res, hb] at h5
      cases h5
      obtain ⟨cs, r1, h7, h8, hs⟩ := bind_ok h6
      rw [hs]
      obtain ⟨_, r2, h9, h10, hs⟩ := bind_ok h8
      rw [hs]
      obtain ⟨t, r3, h11, h12, hs⟩ := bind_ok h10
      rw [hs]
      obtain ⟨_, h13, rfl⟩ := map_ok h12
      have h9 : lit ['|'] r1 = .ok _ r2 := h9
      have h13 : lit [']'] r3 = .ok _ r := h13
      -- what was read in vain
      have hv : ((litT ['['] s).bind fun _ r => (sepBy1T el [','] (r.length + 1) r).bind fun cs r =>
          (litT [']'] r).map fun _ => Node.list cs).steps = blanks s + 1 + ((sepBy1T el [','] (r0.length + 1) r0).steps + (blanks r1 + 1)) := by
        rcases bind_fail h3 with ⟨h, _⟩ | ⟨_, r0', h, h', hs⟩
        · rw [litT_res, hb] at h; cases h
        · rw [litT_res, hb] at h
          cases h
          rw [hs]
          rcases bind_fail h' with ⟨h, _⟩ | ⟨_, r1', h, _, hs'⟩
          · rw [h7] at h; cases h
          · rw [h7] at h; cases h; rw [hs']; rfl
      rw [hv]
      have hD := listWith_depth t cs
      have hne := (hel.args (D := Node.listDepths cs) h7 (listDepths_le.1 (Nat.le_refl _)) h9 (by decide)).1
      have hd : ∃ d, (Node.listWith t cs).listDepth = d + 1 := by
        cases cs with
        | nil => exact absurd rfl hne
        | cons c cs => have := hD.2 c (by simp); exact ⟨(Node.listWith t (c :: cs)).listDepth - 1, by omega⟩
      obtain ⟨d, hd⟩ := hd
      have hc := (hel.args (D := d) h7 (fun a ha => by have := hD.2 a ha; omega) h9 (by decide)).2
      rw [hd]
      have hF := rate_ge d
      have e : rate (d + 1) = 2 * rate d + 16 := rfl
      have ht : Cheap (rate (d + 1)) 0 0 r2 r3 ((variableT r2).orElse (ls r2)).steps := by
        rcases orElse_ok h11 with ⟨h, hs⟩ | ⟨h, h', hs⟩
        · rw [hs]; exact (variableT_cheap h (by omega)).weaken (by omega) (by omega)
        · rw [hs, variableT_fail h]
          have hl := (hls _ _ _ h').raise (G := rate (d + 1)) (rate_mono (by have := hD.1; omega))
          have := hl.1
          have := hl.2
          exact ⟨by omega, by omega⟩
      have h14 := pay_lit (K := 5) hb (by omega : 5 ≤ rate (d + 1))
      have h15 := pay_lit (K := 14) h9 (by omega : 14 ≤ rate (d + 1))
      have h16 := pay_lit (K := 1) h13 (by omega : 1 ≤ rate (d + 1))
      have hl2 := lit_span h9
      have hl3 := lit_span h13
      simp only [List.length_cons, List.length_nil] at hl2 hl3
      have hc1 := hc.1
      have hc2 := hc.2
      have ht1 := ht.1
      have ht2 := ht.2
      have e0 : rate (d + 1) * r0.length = 2 * (rate d * r0.length) + 16 * r0.length := by rw [e, Nat.add_mul, Nat.mul_assoc]
      have e1 : rate (d + 1) * r1.length = 2 * (rate d * r1.length) + 16 * r1.length := by rw [e, Nat.add_mul, Nat.mul_assoc]
      refine ⟨by omega, ?_⟩
      show blanks s + 1 + (blanks r0 + 1) + (blanks s + 1 + ((sepBy1T el [','] (r0.length + 1) r0).steps + (blanks r1 + 1)) +
        (blanks s + 1 + ((sepBy1T el [','] (r0.length + 1) r0).steps + (blanks r1 + 1 + (((variableT r2).orElse (ls r2)).steps + (blanks r3 + 1)))))) +
        _ + _ ≤ _
      omega

theorem listT_fail {el ls : TP Node} {s} (h : lit ['['] s = .fail) : (listT el ls s).steps = 3 * (blanks s + 1) := by
  have key : ∀ {α} (k : Unit → List Char → Timed α), (litT ['['] s).bind k = ⟨.fail, blanks s + 1⟩ := by
    intro α k
    simp [Timed.bind, litT, h]
  unfold listT
  rw [key, key, key]
  simp only [Timed.orElse]
  omega

theorem elementListT_cheap : ∀ n, Fair (elementListT n).1 0 5 ∧ Fair (elementListT n).2 2 0
  | 0 => ⟨fun _ _ _ h => (by cases h), fun _ _ _ h => (by cases h)⟩
  | n + 1 => by
    obtain ⟨hel, hls⟩ := elementListT_cheap n
    have hl := listT_cheap hel hls
    refine ⟨fun s a r h => ?_, hl⟩
    have e : (elementListT (n + 1)).1 s = (functorT (elementListT n).1 s).orElse ((constantT s).orElse
      ((listT (elementListT n).1 (elementListT n).2 s).orElse (expressionT (n + 1) s))) := rfl
    rw [e] at h ⊢
    clear e
    rcases orElse_ok h with ⟨h1, hs⟩ | ⟨h1, h2, hs⟩
    · rw [hs]; exact (functorT_cheap hel _ _ _ h1).weaken (by omega) (by omega)
    · rw [hs]
      have hf := functorT_fail h1
      rcases orElse_ok h2 with ⟨h3, hs⟩ | ⟨h3, h4, hs⟩
      · rw [hs]
        obtain ⟨_, w, hw, hs⟩ := constantT_cheap h3
        rw [hs]
        have hl := word_span hw
        have := rate_ge a.listDepth
        have hp := pay (F := rate a.listDepth) (K := 16) (r := r) (s := s) (x := blanks s + w.length) (by omega) (by omega)
        rcases hf with ⟨h, _⟩ | ⟨w', r', h, hs⟩
        · rw [hw] at h; cases h
        · rw [hw] at h; cases h
          exact ⟨by omega, by omega⟩
      · rw [hs]
        have hw := constantT_fail h3
        rw [hw.2]
        have hf : (functorT (elementListT n).1 s).steps = blanks s + 1 := by
          rcases hf with ⟨_, h⟩ | ⟨_, _, h, _⟩
          · exact h
          · rw [hw.1] at h; cases h
        rw [hf]
        rcases orElse_ok h4 with ⟨h5, hs⟩ | ⟨h5, h6, hs⟩
        · rw [hs]
          have := hl _ _ _ h5
          have h7 := this.1
          have h8 := this.2
          exact ⟨by omega, by omega⟩
        · rw [hs]
          have hb := expression_no_bracket (n + 1) (a := a) (r := r) (by rw [← expressionT_res (n + 1) s]; exact h6)
          rw [listT_fail hb]
          have hc := expressionT_cheap (rate_ge a.listDepth) (n + 1) _ _ _ h6
          have h7 := hc.1
          have h8 := hc.2
          exact ⟨by omega, by omega⟩

theorem elementT_cheap (n) : Fair (elementT n) 0 5 := (elementListT_cheap n).1

/-! ## More fuel changes nothing -/

/-- The second is the first, unless the first ran out of fuel. -/
def Timed.Le (x y : Timed α) : Prop := x.res ≠ .hang → y = x

/-- The same for parsers. -/
def TLe (p q : TP α) : Prop := ∀ s, (p s).Le (q s)

theorem Timed.Le.refl (x : Timed α) : x.Le x := fun _ => rfl

theorem Timed.Le.bind {x y : Timed α} {k l : α → List Char → Timed β} (h : x.Le y) (hk : ∀ a r, (k a r).Le (l a r)) : (x.bind k).Le (y.bind l) := by
  intro hn
  have hx : x.res ≠ .hang := by
    intro hx
    apply hn
    rw [bind_res, hx]
    rfl
  rw [h hx]
  unfold Timed.bind at hn ⊢
  cases hr : x.res with
  | ok a r =>
    rw [hr] at hn
    simp only [] at hn ⊢
    rw [hk a r hn]
  | _ => rfl

theorem Timed.Le.must {x y : Timed α} (h : x.Le y) (q) : (x.must q).Le (y.must q) := by
  intro hn
  rw [h fun hx => hn (by rw [must_res, hx]; rfl)]

theorem Timed.Le.map {x y : Timed α} (h : x.Le y) (f : α → β) : (x.map f).Le (y.map f) := by
  intro hn
  rw [h fun hx => hn (by rw [map_res, hx]; rfl)]

theorem Timed.Le.orElse {x y x' y' : Timed α} (h : x.Le y) (h' : x'.Le y') : (x.orElse x').Le (y.orElse y') := by
  intro hn
  have hx : x.res ≠ .hang := by
    intro hx
    apply hn
    rw [orElse_res, hx]
    rfl
  rw [h hx]
  unfold Timed.orElse at hn ⊢
  cases hr : x.res with
  | fail =>
    rw [hr] at hn
    simp only [] at hn ⊢
    rw [h' hn]
  | _ => rfl

theorem manyT_le {p q : TP α} (h : TLe p q) : ∀ n, TLe (manyT p n) (manyT q n)
  | 0, s, hn => absurd rfl hn
  | n + 1, s, hn => by
    unfold manyT at hn ⊢
    have hp : (p s).res ≠ .hang := by
      intro hp
      rw [hp] at hn
      exact hn rfl
    rw [h s hp]
    cases hr : (p s).res with
    | ok a r =>
      rw [hr] at hn
      simp only [] at hn ⊢
      rw [manyT_le h n r fun hm => hn (by rw [hm]; rfl)]
    | _ => rfl

theorem sepBy1T_le {p q : TP α} (h : TLe p q) (sep n) : TLe (sepBy1T p sep n) (sepBy1T q sep n) := fun s =>
  (h s).bind fun a r => Timed.Le.map (manyT_le (fun s => (Timed.Le.refl _).bind fun _ r => h r) n r) _

theorem valueT_le {p q : TP Node} (h : TLe p q) : TLe (valueT p) (valueT q) := fun s =>
  (Timed.Le.refl _).orElse <| (Timed.Le.refl _).orElse <| (Timed.Le.refl _).bind fun _ r => ((h r).must r).bind fun _ _ => Timed.Le.refl _

theorem chainedT_le {p q : TP Node} (h : TLe p q) : ∀ ops, TLe (chainedT p ops) (chainedT q ops)
  | [], s => Timed.Le.refl _
  | op :: ops, s => ((Timed.Le.refl _).bind fun _ r => ((h r).must r).map _).orElse (chainedT_le h ops s)

theorem powerT_le {p q : TP Node} (h : TLe p q) : TLe (powerT p) (powerT q) := fun s =>
  (valueT_le h s).bind fun _ r => ((chainedT_le (valueT_le h) _ r).map _).orElse (Timed.Le.refl _)

theorem chainT_le {p q : TP Node} (h : TLe p q) (ops) : TLe (chainT p ops) (chainT q ops) := fun s =>
  (h s).bind fun _ r => (manyT_le (chainedT_le h ops) _ r).map _

theorem expressionT_le : ∀ n, TLe (expressionT n) (expressionT (n + 1))
  | 0, s => fun h => absurd rfl h
  | n + 1, s => chainT_le (chainT_le (powerT_le (expressionT_le n)) _) _ s

theorem functorT_le {p q : TP Node} (h : TLe p q) : TLe (functorT p) (functorT q) := fun s =>
  (Timed.Le.refl _).bind fun _ r => (Timed.Le.refl _).bind fun _ r => ((sepBy1T_le h _ _ r).must _).bind fun _ _ => Timed.Le.refl _

theorem listT_le {p q l m : TP Node} (h : TLe p q) (g : TLe l m) : TLe (listT p l) (listT q m) := fun s =>
  (Timed.Le.refl _).orElse <|
  ((Timed.Le.refl _).bind fun _ r => (sepBy1T_le h _ _ r).bind fun _ _ => Timed.Le.refl _).orElse <|
  (Timed.Le.refl _).bind fun _ r => (sepBy1T_le h _ _ r).bind fun _ r => (Timed.Le.refl _).bind fun _ r =>
    ((Timed.Le.refl _).orElse (g r)).bind fun _ _ => Timed.Le.refl _

theorem elementListT_le : ∀ n, TLe (elementListT n).1 (elementListT (n + 1)).1 ∧ TLe (elementListT n).2 (elementListT (n + 1)).2
  | 0 => ⟨fun _ h => absurd rfl h, fun _ h => absurd rfl h⟩
  | n + 1 => by
    obtain ⟨h, g⟩ := elementListT_le n
    exact ⟨fun s => (functorT_le h s).orElse <| (Timed.Le.refl _).orElse <| (listT_le h g s).orElse (expressionT_le (n + 1) s), listT_le h g⟩

/-- What begins like a functor or a constant is one: reading a term there reads that. -/
theorem head_element {n s a r} (h : ((functorT (elementT n) s).orElse (constantT s)).res = .ok a r) {l r1} (hl : (elementT n s).res = .ok l r1) :
    a = l ∧ r = r1 ∧ ((functorT (elementT n) s).orElse (constantT s)).steps ≤ (elementT n s).steps := by
  cases n with
  | zero => cases hl
  | succ n =>
    have e : elementT (n + 1) s = (functorT (elementT n) s).orElse ((constantT s).orElse
      ((listT (elementT n) (elementListT n).2 s).orElse (expressionT (n + 1) s))) := rfl
    rw [e] at hl ⊢
    have hle : (functorT (elementT n) s).Le (functorT (elementT (n + 1)) s) := functorT_le (elementListT_le n).1 s
    have hne : (functorT (elementT n) s).res ≠ .hang := by
      intro hh
      rw [orElse_res, hh] at hl
      cases hl
    have hf := hle hne
    rw [hf] at h ⊢
    rcases orElse_ok h with ⟨h1, hs⟩ | ⟨h1, h2, hs⟩
    · rw [hs]
      rcases orElse_ok hl with ⟨h3, hs3⟩ | ⟨h3, _, _⟩
      · rw [hs3]; rw [h1] at h3; cases h3; exact ⟨rfl, rfl, Nat.le_refl _⟩
      · rw [h1] at h3; cases h3
    · rw [hs]
      rcases orElse_ok hl with ⟨h3, _⟩ | ⟨_, h3, hs3⟩
      · rw [h1] at h3; cases h3
      · rw [hs3]
        rcases orElse_ok h3 with ⟨h4, hs4⟩ | ⟨h4, _, _⟩
        · rw [hs4]; rw [h2] at h4; cases h4; exact ⟨rfl, rfl, Nat.le_refl _⟩
        · rw [h2] at h4; cases h4

/-- If a functor or a constant can be read, then a term can. -/
theorem element_of_head {n s a r} (h : ((functorT (elementT n) s).orElse (constantT s)).res = .ok a r) : (elementT n s).res ≠ .fail := by
  cases n with
  | zero => exact fun h => by cases h
  | succ n =>
    have e : elementT (n + 1) s = (functorT (elementT n) s).orElse ((constantT s).orElse
      ((listT (elementT n) (elementListT n).2 s).orElse (expressionT (n + 1) s))) := rfl
    rw [e]
    intro hl
    obtain ⟨h1, h2, _⟩ := orElse_fail hl
    have hf := functorT_le (elementListT_le n).1 s (show (functorT (elementT n) s).res ≠ .hang by rw [h1]; simp)
    have hf : functorT (elementT (n + 1)) s = functorT (elementT n) s := hf
    rw [orElse_res, hf, h1] at h
    obtain ⟨h3, _, _⟩ := orElse_fail h2
    rw [h3] at h
    cases h

/-! ## Goals -/

/-- Places behind which a list of goals does not go on and does not end. -/
def Dead (r : List Char) : Prop := lit [','] r = .fail ∧ lit ['.'] r = .fail

theorem infixT_ok {el rhs : TP Node} {op : Name} {s a r} (h : (infixT el op rhs s).res = .ok a r) :
    ∃ l r1 r2 x, (el s).res = .ok l r1 ∧ lit op r1 = .ok () r2 ∧ (rhs r2).res = .ok x r ∧ a = .fn op [l, x] ∧
      (infixT el op rhs s).steps = (el s).steps + (blanks r1 + 1) + (rhs r2).steps := by
  unfold infixT at h ⊢
  obtain ⟨l, r1, h1, h2, hs⟩ := bind_ok h
  obtain ⟨_, r2, h3, h4, hs2⟩ := bind_ok h2
  obtain ⟨x, h5, rfl⟩ := map_ok h4
  refine ⟨l, r1, r2, x, h1, h3, h5, rfl, ?_⟩
  rw [hs, hs2]
  show _ + (blanks r1 + 1 + (rhs r2).steps) = _
  omega

/-- Where nothing between two terms follows: either it is not that predicate, or its second argument cannot be read. -/
theorem infixT_fail {el rhs : TP Node} {op : Name} {s l r1} (h : (infixT el op rhs s).res = .fail) (hl : (el s).res = .ok l r1) :
    (lit op r1 = .fail ∧ (infixT el op rhs s).steps = (el s).steps + (blanks r1 + 1)) ∨ ∃ r2, lit op r1 = .ok () r2 := by
  unfold infixT at h ⊢
  rcases bind_fail h with ⟨h1, _⟩ | ⟨l', r1', h1, h2, hs⟩
  · rw [hl] at h1; cases h1
  · rw [hl] at h1
    cases h1
    rcases bind_fail h2 with ⟨h3, hs2⟩ | ⟨_, r2, h3, _, _⟩
    · left
      refine ⟨h3, ?_⟩
      rw [hs, hs2]; rfl
    · exact .inr ⟨r2, h3⟩

theorem dead_of_lit {c : Char} {cs r u r'} (h : lit (c :: cs) r = .ok u r') (h1 : c ≠ ',') (h2 : c ≠ '.') : Dead r :=
  ⟨lit_other h h1, lit_other h h2⟩

theorem infix_depth {op : Name} {l x : Node} (h : op ≠ n!"[") : l.listDepth ≤ (Node.fn op [l, x]).listDepth ∧
    x.listDepth ≤ (Node.fn op [l, x]).listDepth := by
  rw [listDepth_fn h]
  simp only [Node.listDepths]
  omega

/-- A built-in predicate, after at most two others were tried in vain. -/
theorem infix_pays {F : Nat} {s r1 r2 r : List Char} {c1 c2 k : Nat} {c : Char} {cs} (hk : k ≤ 2) (hF : 16 ≤ F)
    (h1 : Cheap F 0 5 s r1 c1) (hl : lit (c :: cs) r1 = .ok () r2) (h2 : Cheap F 0 5 r2 r c2) :
    Cheap (4 * F) 0 23 s r (k * (c1 + (blanks r1 + 1)) + (c1 + (blanks r1 + 1) + c2)) := by
  have h3 := pay_lit (F := 4 * F) (K := 24) hl (by omega)
  have hs := lit_span hl
  simp only [List.length_cons] at hs
  have h11 := h1.1
  have h12 := h1.2
  have h21 := h2.1
  have h22 := h2.2
  simp only [Nat.mul_assoc] at h3 ⊢
  have hk' : k * (c1 + (blanks r1 + 1)) ≤ 2 * (c1 + (blanks r1 + 1)) := Nat.mul_le_mul_right _ hk
  have hm1 : F * r2.length ≤ F * r1.length := Nat.mul_le_mul_left _ (by omega)
  have hm2 : F * r.length ≤ F * r2.length := Nat.mul_le_mul_left _ (by omega)
  have hm3 : F * r1.length ≤ F * s.length := Nat.mul_le_mul_left _ (by omega)
  refine ⟨by omega, ?_⟩
  simp only [Nat.mul_assoc]
  omega

theorem atomT_cheap (n : Nat) (s : List Char) (a : Node) (r : List Char) (h : (atomT n s).res = .ok a r) :
    Cheap (4 * rate a.listDepth) 0 23 s r (atomT n s).steps ∨ Dead r := by
  have hel := elementT_cheap n
  have hex : Fair (expressionT n) 0 5 := fun s a r h => (expressionT_cheap (rate_ge a.listDepth) n s a r h).weaken (by omega) (by omega)
  unfold atomT at h ⊢
  rcases orElse_ok h with ⟨h1, hs⟩ | ⟨h1, h2, hs⟩
  · obtain ⟨l, r1, r2, x, e1, e2, e3, rfl, e4⟩ := infixT_ok h1
    have hd := infix_depth (op := n!"==") (l := l) (x := x) (by decide)
    have := infix_pays (k := 0) (by omega) (rate_ge _) ((hel _ _ _ e1).raise (rate_mono hd.1)) e2 ((hel _ _ _ e3).raise (rate_mono hd.2))
    rw [hs, e4]
    left
    simpa using this
  · rw [hs]
    clear hs h
    -- the first term can be read
    obtain ⟨l, r1, hl⟩ : ∃ l r1, (elementT n s).res = .ok l r1 := by
      rcases bind_fail h1 with ⟨hf, _⟩ | ⟨l, r1, hl, _⟩
      · exfalso
        rcases orElse_ok h2 with ⟨h3, _⟩ | ⟨_, h3, _⟩
        · obtain ⟨l, r1, _, _, e1, _⟩ := infixT_ok h3; rw [hf] at e1; cases e1
        · rcases orElse_ok h3 with ⟨h4, _⟩ | ⟨_, h4, _⟩
          · obtain ⟨l, r1, _, _, e1, _⟩ := infixT_ok h4; rw [hf] at e1; cases e1
          · exact element_of_head h4 hf
      · exact ⟨l, r1, hl⟩
    have hc := hel _ _ _ hl
    rcases infixT_fail h1 hl with ⟨hn1, hs1⟩ | ⟨q, hq1⟩
    · rw [hs1]
      rcases orElse_ok h2 with ⟨h3, hs⟩ | ⟨h3, h4, hs⟩
      · obtain ⟨l', r1', r2, x, e1, e2, e3, rfl, e4⟩ := infixT_ok h3
        rw [hl] at e1
        cases e1
        have hd := infix_depth (op := n!"\\==") (l := l) (x := x) (by decide)
        have := infix_pays (k := 1) (by omega) (rate_ge _) (hc.raise (rate_mono hd.1)) e2 ((hel _ _ _ e3).raise (rate_mono hd.2))
        rw [hs, e4]
        left
        simpa using this
      · rw [hs]
        rcases infixT_fail h3 hl with ⟨hn2, hs2⟩ | ⟨q, hq2⟩
        · rw [hs2]
          rcases orElse_ok h4 with ⟨h5, hs⟩ | ⟨h5, h6, hs⟩
          · obtain ⟨l', r1', r2, x, e1, e2, e3, rfl, e4⟩ := infixT_ok h5
            rw [hl] at e1
            cases e1
            have hd := infix_depth (op := n!"is") (l := l) (x := x) (by decide)
            have := infix_pays (k := 2) (by omega) (rate_ge _) (hc.raise (rate_mono hd.1)) e2 ((hex _ _ _ e3).raise (rate_mono hd.2))
            rw [hs, e4]
            left
            refine ⟨this.1, ?_⟩
            have := this.2
            omega
          · rw [hs]
            rcases infixT_fail h5 hl with ⟨hn3, hs3⟩ | ⟨q, hq3⟩
            · rw [hs3]
              obtain ⟨rfl, rfl, hle⟩ := head_element h6 hl
              left
              have hc1 := hc.1
              have hc2 := hc.2
              refine ⟨hc1, ?_⟩
              simp only [Nat.mul_assoc]
              omega
            · obtain ⟨_, rfl, _⟩ := head_element h6 hl
              exact .inr (dead_of_lit hq3 (by decide) (by decide))
        · right
          have : r = r1 := by
            rcases orElse_ok h4 with ⟨h5, _⟩ | ⟨_, h6, _⟩
            · obtain ⟨l', r1', r2, x, e1, e2, _⟩ := infixT_ok h5
              rw [hl] at e1
              cases e1
              rw [lit_other hq2 (by decide)] at e2
              cases e2
            · exact (head_element h6 hl).2.1
          rw [this]
          exact dead_of_lit hq2 (by decide) (by decide)
    · right
      have : r = r1 := by
        rcases orElse_ok h2 with ⟨h3, _⟩ | ⟨_, h4, _⟩
        · obtain ⟨l', r1', r2, x, e1, e2, _⟩ := infixT_ok h3
          rw [hl] at e1
          cases e1
          rw [lit_other hq1 (by decide)] at e2
          cases e2
        · rcases orElse_ok h4 with ⟨h5, _⟩ | ⟨_, h6, _⟩
          · obtain ⟨l', r1', r2, x, e1, e2, _⟩ := infixT_ok h5
            rw [hl] at e1
            cases e1
            rw [lit_other hq1 (by decide)] at e2
            cases e2
          · exact (head_element h6 hl).2.1
      rw [this]
      exact dead_of_lit hq1 (by decide) (by decide)

/-! ## Clauses and programs -/

/-- Goals that end with a dot. -/
theorem goalsT_cheap {n k s as r D u r'} (h : (sepBy1T (atomT n) [','] k s).res = .ok as r) (hD : Node.listDepths as ≤ D)
    (hdot : lit ['.'] r = .ok u r') : Cheap (4 * rate D) 0 24 s r (sepBy1T (atomT n) [','] k s).steps := by
  have hr := rate_ge D
  refine (sepBy1T_cheap (Q := fun a => a.listDepth ≤ D) (dead := Dead) (B := 23) (fun s a r h1 h2 => ?_) (fun r h => h.1) (by omega) h
    (listDepths_le.1 hD) (fun h => by rw [h.2] at hdot; cases hdot) (lit_other hdot (by decide))).2
  rcases atomT_cheap n s a r h1 with h | h
  · exact .inl (h.raise (by have := rate_mono h2; omega))
  · exact .inr h

/-- A higher rate pays more at the beginning. -/
theorem Cheap.slack {F G S B K s r c} (h : Cheap F S B s r c) (hFG : F + K ≤ G) : Cheap G (S + K) B s r c := by
  refine ⟨h.1, ?_⟩
  have h1 := h.1
  have h2 := h.2
  obtain ⟨k, rfl⟩ := Nat.exists_eq_add_of_le (show F ≤ G by omega)
  have := pay (F := k) (K := K) (r := r) (s := s) (x := blanks s + 1) (by omega) (by omega)
  simp only [Nat.add_mul]
  omega

theorem clauseT_cheap {n s c r} (h : (clauseT n s).res = .ok c r) : Cheap (4 * rate c.listDepth) 2 0 s r (clauseT n s).steps := by
  unfold clauseT at h ⊢
  obtain ⟨hd, r1, h1, h2, hs⟩ := bind_ok h
  rw [hs]
  obtain ⟨b, r2, h3, h4, hs⟩ := bind_ok h2
  rw [hs]
  obtain ⟨_, h5, rfl⟩ := map_ok h4
  have h5 : lit ['.'] r2 = .ok _ r := must_ok h5
  have hdep : hd.listDepth ≤ Clause.listDepth ⟨hd, b⟩ ∧ Node.listDepths b ≤ Clause.listDepth ⟨hd, b⟩ := by
    simp only [Clause.listDepth]; omega
  generalize Clause.listDepth ⟨hd, b⟩ = D at hdep ⊢
  have hF := rate_ge D
  have hh : Cheap (4 * rate D) 2 0 s r1 ((functorT (elementT n) s).orElse (constantT s)).steps := by
    rcases orElse_ok h1 with ⟨h6, hs⟩ | ⟨h6, h7, hs⟩
    · rw [hs]; exact (functorT_cheap (elementT_cheap n) _ _ _ h6).slack (K := 1) (by have := rate_mono hdep.1; omega)
    · rw [hs]
      obtain ⟨_, w, hw, hs⟩ := constantT_cheap h7
      rw [hs]
      have hl := word_span hw
      have hp := pay (F := 4 * rate D) (K := 16) (r := r1) (s := s) (x := blanks s + w.length) (by omega) (by omega)
      rcases functorT_fail h6 with ⟨h, _⟩ | ⟨w', r', h, hs⟩
      · rw [hw] at h; cases h
      · rw [hw] at h; cases h
        exact ⟨by omega, by omega⟩
  have hh1 := hh.1
  have hh2 := hh.2
  have hl := lit_span h5
  simp only [List.length_cons, List.length_nil] at hl
  have hp := pay_lit (F := 4 * rate D) (K := 26) h5 (by omega)
  have fin : ∀ c1, r2.length ≤ r1.length → c1 + 4 * rate D * r2.length ≤ 4 * rate D * r1.length + 25 * (blanks r2 + 1) →
      Cheap (4 * rate D) 2 0 s r (((functorT (elementT n) s).orElse (constantT s)).steps + (c1 + (blanks r2 + 1))) := by
    intro c1 hle hc1
    exact ⟨by omega, by omega⟩
  rcases orElse_ok h3 with ⟨h6, hs⟩ | ⟨h6, h7, hs⟩
  · rw [hs]
    obtain ⟨_, r0, h8, h9, hs⟩ := bind_ok h6
    rw [hs]
    have h8 : lit n!":-" r1 = .ok _ r0 := h8
    have hg := goalsT_cheap h9 hdep.2 h5
    have hg1 := hg.1
    have hg2 := hg.2
    have hl0 := lit_span h8
    simp only [List.length_cons, List.length_nil] at hl0
    have hp0 := pay_lit (F := 4 * rate D) (K := 1) h8 (by omega)
    exact fin _ (by omega) (by
      show blanks r1 + 1 + (sepBy1T (atomT n) [','] (r0.length + 1) r0).steps + _ ≤ _
      omega)
  · rw [hs]
    simp only [PR.ok.injEq] at h7
    obtain ⟨rfl, rfl⟩ := h7
    rcases bind_fail h6 with ⟨_, hs⟩ | ⟨_, r0, h8, _, _⟩
    · rw [hs]
      exact fin _ (Nat.le_refl _) (by
        show blanks r1 + 1 + 0 + _ ≤ _
        omega)
    · have h8 : lit n!":-" r1 = .ok _ r0 := h8
      rw [lit_other h8 (by decide)] at h5
      cases h5

theorem commentT_ok {s u r} (h : (commentT s).res = .ok u r) : (commentT s).steps + r.length ≤ s.length + 1 ∧ r.length + blanks s + 1 ≤ s.length := by
  unfold commentT at h ⊢
  obtain ⟨_, r0, h1, h2, hs⟩ := bind_ok h
  rw [hs]
  have h1 : lit ['%'] s = .ok _ r0 := h1
  have h2 : exactly ['\n'] (r0.dropWhile (· ≠ '\n')) = .ok _ r := PR.must_eq_ok.1 h2
  have hl := lit_span h1
  have hl2 := exactly_length h2
  have hl3 := dropWhile_take_length (· ≠ '\n') r0
  simp only [List.length_cons, List.length_nil] at hl hl2
  have e : (litT ['%'] s).steps = blanks s + 1 := rfl
  rw [e]
  exact ⟨by simp only []; omega, by omega⟩

theorem commentT_fail {s} (h : (commentT s).res = .fail) : (commentT s).steps = blanks s + 1 := by
  unfold commentT at h ⊢
  rcases bind_fail h with ⟨_, hs⟩ | ⟨_, _, _, h2, _⟩
  · rw [hs]; rfl
  · exact absurd h2 PR.must_ne_fail

/-- The depth of a line. -/
def lineDepth : Option Clause → Nat
  | none => 0
  | some c => c.listDepth

theorem lineT_cheap {n s l r} (h : (lineT n s).res = .ok l r) : Cheap (4 * rate (lineDepth l)) 1 1 s r (lineT n s).steps := by
  unfold lineT at h ⊢
  have hF := rate_ge (lineDepth l)
  rcases orElse_ok h with ⟨h1, hs⟩ | ⟨h1, h2, hs⟩
  · rw [hs]
    obtain ⟨u, h3, rfl⟩ := map_ok h1
    have hc := commentT_ok h3
    have e : ((commentT s).map fun _ => (none : Option Clause)).steps = (commentT s).steps := rfl
    rw [e]
    have hp := pay (F := 4 * rate (lineDepth none)) (K := 2) (r := r) (s := s) (x := s.length - r.length) (by omega) (by omega)
    exact ⟨by omega, by omega⟩
  · rw [hs]
    have e : ((commentT s).map fun _ => (none : Option Clause)).steps = (commentT s).steps := rfl
    rw [e, commentT_fail (PR.map_eq_fail.1 h1)]
    obtain ⟨c, h3, rfl⟩ := map_ok h2
    have e : ((ruleT n s).map some).steps = (ruleT n s).steps := rfl
    rw [e]
    unfold ruleT at h3 ⊢
    obtain ⟨c', r1, h4, h5, hs⟩ := bind_ok h3
    rw [hs]
    have hc := clauseT_cheap h4
    have hc1 := hc.1
    have hc2 := hc.2
    rcases orElse_ok h5 with ⟨h6, hs⟩ | ⟨h6, h7, hs⟩
    · rw [hs]
      obtain ⟨u, h7, rfl⟩ := map_ok h6
      have hk := commentT_ok h7
      have e : ((commentT r1).map fun _ => c').steps = (commentT r1).steps := rfl
      rw [e]
      have hp := pay (F := 4 * rate (lineDepth (some c'))) (K := 2) (r := r) (s := r1) (x := r1.length - r.length) (by omega) (by omega)
      simp only [lineDepth] at hp ⊢
      exact ⟨by omega, by omega⟩
    · rw [hs]
      simp only [PR.ok.injEq] at h7
      obtain ⟨rfl, rfl⟩ := h7
      have e : ((commentT r1).map fun _ => c').steps = (commentT r1).steps := rfl
      rw [e, commentT_fail (PR.map_eq_fail.1 h6)]
      simp only [lineDepth]
      exact ⟨by omega, by omega⟩

/-- Where nothing is left. -/
theorem lineT_end {n s} (h : skipWs s = []) : (lineT n s).steps = 4 * (blanks s + 1) - (blanks s + 1) := by
  have h1 : lit ['%'] s = .fail := by simp [lit, h, exactly]
  have h2 : word isLower s = .fail := by simp [word, h]
  have h3 : commentT s = ⟨.fail, blanks s + 1⟩ := by simp [commentT, Timed.bind, litT, h1]
  have h4 : constantT s = ⟨.fail, blanks s + 1⟩ := by simp [constantT, wordT, Timed.map, h2]
  have h5 : functorT (elementT n) s = ⟨.fail, blanks s + 1⟩ := by simp [functorT, wordT, Timed.bind, h2]
  simp only [lineT, ruleT, clauseT, h3, h4, h5, Timed.map, Timed.orElse, Timed.bind, PR.map_fail]
  omega

theorem linesT_cheap {n D : Nat} : ∀ k {s ls r}, (manyT (lineT n) k s).res = .ok ls r → (∀ l ∈ ls, lineDepth l ≤ D) → skipWs r = [] →
    r.length ≤ s.length ∧
    (manyT (lineT n) k s).steps + (blanks s + 1) + 4 * rate D * r.length ≤ 4 * rate D * s.length + 4 * (blanks r + 1)
  | 0, s, ls, r, h, _, _ => by cases h
  | k + 1, s, ls, r, h, hD, hr => by
    unfold manyT at h ⊢
    cases hi : (lineT n s).res with
    | ok l r1 =>
      simp only [hi] at h ⊢
      obtain ⟨ls', h1, rfl⟩ := PR.map_eq_ok.1 h
      have ih := linesT_cheap k h1 (fun l hl => hD l (by simp [hl])) hr
      have hF := rate_ge D
      have hc := (lineT_cheap hi).raise (G := 4 * rate D) (by have := rate_mono (hD l (by simp)); omega)
      have hc1 := hc.1
      have hc2 := hc.2
      refine ⟨by omega, ?_⟩
      show (lineT n s).steps + (manyT (lineT n) k r1).steps + _ + _ ≤ _
      omega
    | fail =>
      simp only [hi, PR.ok.injEq] at h ⊢
      obtain ⟨_, rfl⟩ := h
      have := lineT_end (n := n) hr
      exact ⟨Nat.le_refl _, by omega⟩
    | expect q => simp only [hi] at h; cases h
    | hang => simp only [hi] at h; cases h

theorem blanks_le (s : List Char) : blanks s ≤ s.length := by
  have := skipWs_le s
  unfold blanks
  omega

theorem mem_listDepthOf : ∀ {p : List Clause} {c}, c ∈ p → c.listDepth ≤ listDepthOf p
  | d :: p, c, h => by
    simp only [listDepthOf]
    rcases List.mem_cons.1 h with rfl | h
    · omega
    · have := mem_listDepthOf h; omega

theorem programSteps_le {text p} (h : parseProgram text = .ok p) : programSteps text ≤ 128 * 2 ^ listDepthOf p * (text.length + 1) := by
  unfold parseProgram at h
  have hm := manyT_res (lineT_res (text.length + 1)) (text.length + 1) text
  rw [← hm] at h
  unfold programSteps
  simp only []
  cases hr : (manyT (lineT (text.length + 1)) (text.length + 1) text).res with
  | ok ls r =>
    simp only [hr] at h ⊢
    split at h
    case isFalse => cases h
    case isTrue he =>
      cases h
      have hl := linesT_cheap (D := listDepthOf (ls.filterMap id)) _ hr (fun l hl => by
        cases l with
        | none => exact Nat.zero_le _
        | some c => exact mem_listDepthOf (List.mem_filterMap.2 ⟨some c, hl, rfl⟩)) he
      have hb := blanks_le r
      have hF := rate_ge (listDepthOf (ls.filterMap id))
      have he := rate_le (listDepthOf (ls.filterMap id))
      have hp := pay (F := 4 * rate (listDepthOf (ls.filterMap id))) (K := 5) (r := []) (s := r) (x := r.length) (by simp) (by omega)
      have hq : 128 * 2 ^ listDepthOf (ls.filterMap id) * (text.length + 1) =
          4 * rate (listDepthOf (ls.filterMap id)) * text.length + 64 * text.length + 128 * 2 ^ listDepthOf (ls.filterMap id) := by
        rw [Nat.mul_add, Nat.mul_one, show 128 * 2 ^ listDepthOf (ls.filterMap id) = 4 * rate (listDepthOf (ls.filterMap id)) + 64 by omega,
          Nat.add_mul]
      rw [hq]
      simp only [List.length_nil, Nat.mul_zero] at hp
      omega
  | _ => simp only [hr] at h; cases h

theorem querySteps_le {text as} (h : parseQuery text = .ok as) : querySteps text ≤ 128 * 2 ^ Node.listDepths as * (text.length + 1) := by
  unfold parseQuery at h
  have hm := sepBy1T_res (atomT_res (text.length + 1)) [','] (text.length + 1) text
  rw [← hm] at h
  unfold querySteps
  simp only []
  cases hr : (sepBy1T (atomT (text.length + 1)) [','] (text.length + 1) text).res with
  | ok ls r =>
    simp only [hr] at h ⊢
    cases hd : lit ['.'] r with
    | ok u r' =>
      simp only [hd] at h ⊢
      split at h
      case isFalse => cases h
      case isTrue he =>
        cases h
        have hl := goalsT_cheap hr (Nat.le_refl _) hd
        have hl1 := hl.1
        have hl2 := hl.2
        have hb := blanks_le r'
        have hF := rate_ge (Node.listDepths as)
        have he := rate_le (Node.listDepths as)
        have hs := lit_span hd
        have hp := pay_lit (F := 4 * rate (Node.listDepths as)) (K := 25) hd (by omega)
        have hp' := pay (F := 4 * rate (Node.listDepths as)) (K := 1) (r := []) (s := r') (x := r'.length) (by simp) (by omega)
        have hq : 128 * 2 ^ Node.listDepths as * (text.length + 1) =
            4 * rate (Node.listDepths as) * text.length + 64 * text.length + 128 * 2 ^ Node.listDepths as := by
          rw [Nat.mul_add, Nat.mul_one, show 128 * 2 ^ Node.listDepths as = 4 * rate (Node.listDepths as) + 64 by omega,
            Nat.add_mul]
        rw [hq]
        simp only [List.length_nil, Nat.mul_zero] at hp'
        omega
    | _ => simp only [hd] at h; cases h
  | _ => simp only [hr] at h; cases h

end PBfs
