import Verif.Spec.Region
import Verif.Props.Unify
import Verif.Props.Doubling
/-! # C88: how many iterations unification takes -/
namespace PBfs

theorem Region.deref {H : HV} {S} (g : Region H S) {a d} (h : DerefTo H a d) (ha : S a) :
    S d ∧ ∃ c, H d = some c ∧ c.isPtr = false := by
  obtain ⟨n, h⟩ := h
  induction h with
  | val h1 h2 => exact ⟨ha, _, h1, h2⟩
  | self h1 => exact absurd rfl (g.ref ha h1).1
  | ref h1 _ _ ih => exact ih (g.ref ha h1).2
  | str h1 _ _ ih => exact ih (g.str ha h1)

/-- Of every pair, one address is in the one region and one in the other. -/
def Facing (S T : Nat → Prop) : List Nat → Prop
  | a :: b :: l => ((S a ∧ T b) ∨ (T a ∧ S b)) ∧ Facing S T l
  | _ => True

theorem facing_pushArgs {S T d1 d2 k pdl} (h : ∀ i, i < k → (S (d1 + 1 + i) ∧ T (d2 + 1 + i)) ∨ (T (d1 + 1 + i) ∧ S (d2 + 1 + i)))
    (hp : Facing S T pdl) : Facing S T (pushArgs d1 d2 k pdl) := by
  induction k with
  | zero => exact hp
  | succ k ih =>
    refine ⟨?_, ih fun i hi => h i (by omega)⟩
    have := h k (by omega)
    rw [show d2 + k + 1 = d2 + 1 + k by omega, show d1 + k + 1 = d1 + 1 + k by omega]
    exact this.elim (fun q => .inr ⟨q.2, q.1⟩) fun q => .inl ⟨q.2, q.1⟩

variable {pre : Nat → Option Cell}

theorem unifyLoop_exact {st : Storage} {I} (s : StOK st) (hI : Interp I st) {S T : Nat → Prop} {h : Hp} {σ : Nat → Tree}
    (g : Good (ValidCell st) (h.at? pre) h.size h.size) (m : Mod (toIAlg treeAlg I) (h.at? pre) σ)
    (gS : Region (h.at? pre) S) (gT : Region (h.at? pre) T) (dis : ∀ x, S x → T x → False) :
    ∀ (n : Nat) (pdl : List Nat), (∀ x ∈ pdl, x < h.size) → pdl.length % 2 = 0 → PairsEq σ pdl → Facing S T pdl →
      unifyLoop pre n h pdl = if pdlWeight σ pdl ≤ n then .ok ⟨h, true⟩ else .error .hang := by
  intro n
  have VL := ValidCell.laws s
  have fr := treeAlg_free s hI
  induction n with
  | zero =>
    intro pdl hlt hev pe hf
    match pdl with
    | [] => simp [unifyLoop, pdlWeight]
    | [x] => simp at hev
    | a :: b :: pdl =>
      have := Tree.size_pos (σ a)
      rw [if_neg (by simp only [pdlWeight]; omega)]
      simp [unifyLoop]
  | succ n ih =>
    intro pdl hlt hev pe hf
    match pdl with
    | [] => simp [unifyLoop, pdlWeight]
    | [x] => simp at hev
    | a :: b :: pdl =>
      have hlt' : ∀ x ∈ pdl, x < h.size := fun x hx => hlt x (by simp [hx])
      have hev' : pdl.length % 2 = 0 := by simp only [List.length_cons] at hev; omega
      obtain ⟨d1, e1, hd1⟩ := deref_ok g (hlt a (by simp))
      obtain ⟨d2, e2, hd2⟩ := deref_ok g (hlt b (by simp))
      have had : σ a = σ d1 := m.deref hd1
      have hbd : σ b = σ d2 := m.deref hd2
      have hab : σ d1 = σ d2 := by rw [← had, ← hbd]; exact pe.1
      -- both ends are no pointers, and they lie in different regions
      obtain ⟨hd, ⟨c1, hc1, hp1⟩, c2, hc2, hp2⟩ : ((S d1 ∧ T d2) ∨ (T d1 ∧ S d2)) ∧ (∃ c, h.at? pre d1 = some c ∧ c.isPtr = false) ∧
          ∃ c, h.at? pre d2 = some c ∧ c.isPtr = false := by
        rcases hf.1 with ⟨ha, hb⟩ | ⟨ha, hb⟩
        · exact ⟨.inl ⟨(gS.deref hd1 ha).1, (gT.deref hd2 hb).1⟩, (gS.deref hd1 ha).2, (gT.deref hd2 hb).2⟩
        · exact ⟨.inr ⟨(gT.deref hd1 ha).1, (gS.deref hd2 hb).1⟩, (gT.deref hd1 ha).2, (gS.deref hd2 hb).2⟩
      have hdd : d1 ≠ d2 := by
        rintro rfl
        rcases hd with ⟨x, y⟩ | ⟨x, y⟩
        · exact dis _ x y
        · exact dis _ y x
      have args : ∀ k, (∀ i, i < k → d1 + 1 + i < h.size ∧ d2 + 1 + i < h.size) →
          (∀ i, i < k → (S (d1 + 1 + i) ∧ T (d2 + 1 + i)) ∨ (T (d1 + 1 + i) ∧ S (d2 + 1 + i))) →
          (argVals σ (d1 + 1) k = argVals σ (d2 + 1) k) →
          (σ d2).size = 1 + Tree.sizes (argVals σ (d2 + 1) k) →
          unifyLoop pre n h (pushArgs d1 d2 k pdl) = if pdlWeight σ (a :: b :: pdl) ≤ n + 1 then .ok ⟨h, true⟩ else .error .hang := by
        intro k hk hr hargs hsz
        rw [ih _ ?_ (pushArgs_even hev') ?_ (facing_pushArgs hr hf.2)]
        · rw [pdlWeight_pushArgs, pdlWeight, had, hab, hsz]
          congr 1
          exact propext ⟨fun _ => by omega, fun _ => by omega⟩
        · intro x hx
          rcases mem_pushArgs hx with hx | ⟨i, hi, rfl | rfl⟩
          · exact hlt' x hx
          · exact (hk i hi).1
          · exact (hk i hi).2
        · rw [pairsEq_pushArgs]
          exact ⟨argVals_inj hargs, pe.2⟩
      have atom : (σ d2).size = 1 →
          unifyLoop pre n h pdl = if pdlWeight σ (a :: b :: pdl) ≤ n + 1 then .ok ⟨h, true⟩ else .error .hang := by
        intro hs
        rw [ih _ hlt' hev' pe.2 hf.2, pdlWeight, had, hab, hs]
        congr 1
        exact propext ⟨fun _ => by omega, fun _ => by omega⟩
      -- there is a solution, so the comparison cannot fail
      have nofail : unifyLoop pre (n + 1) h (a :: b :: pdl) ≠ .ok ⟨h, false⟩ := by
        intro he
        rcases unifyLoop_spec VL (n + 1) h (a :: b :: pdl) g hlt hev with ⟨r, hr, p⟩ | hr
        · rw [he] at hr; cases hr
          have := (p.complete _ σ fr m pe).1
          cases this
        · rw [he] at hr; cases hr
      have q1 := m _ _ hc1
      have q2 := m _ _ hc2
      rw [unifyLoop] at nofail ⊢
      simp only [e1, e2, ok_bind, hdd, if_false, hc1, hc2, orFault_some] at nofail ⊢
      cases c1 <;> simp only [Cell.isPtr, Bool.true_eq_false] at hp1 <;>
        cases c2 <;> simp only [Cell.isPtr, Bool.true_eq_false] at hp2 <;>
        simp only [Cell.isRef, Bool.false_eq_true, if_false, ne_eq, not_true_eq_false] at nofail ⊢
      all_goals
        split at nofail
        · rename_i hff
          rw [if_pos hff]
          subst hff
          first
          | exact atom (by rw [q2]; rfl)
          | (rename_i k k'
             have hkk : k = k' := VL.fn _ _ _ (g.valid _ _ hc1) (g.valid _ _ hc2)
             subst hkk
             have b1 := g.fnArgs _ _ _ hc1
             have b2 := g.fnArgs _ _ _ hc2
             refine args k (fun i hi => by omega) (fun i hi => ?_) ?_ (by rw [q2]; rfl)
             · rcases hd with ⟨x, y⟩ | ⟨x, y⟩
               · exact .inl ⟨gS.fn x hc1 i hi, gT.fn y hc2 i hi⟩
               · exact .inr ⟨gT.fn x hc1 i hi, gS.fn y hc2 i hi⟩
             · exact (fr.fn_inj (g.valid _ _ hc1) (g.valid _ _ hc2) (argVals_length ..)
                    (argVals_length ..) (q1.symm.trans (hab.trans q2))).2)
          | (rename_i k k'
             have hkk : k = k' := VL.efn _ _ _ (g.valid _ _ hc1) (g.valid _ _ hc2)
             subst hkk
             have b1 := g.efnArgs _ _ _ hc1
             have b2 := g.efnArgs _ _ _ hc2
             refine args k (fun i hi => by omega) (fun i hi => ?_) ?_ (by rw [q2]; rfl)
             · rcases hd with ⟨x, y⟩ | ⟨x, y⟩
               · exact .inl ⟨gS.efn x hc1 i hi, gT.efn y hc2 i hi⟩
               · exact .inr ⟨gT.efn x hc1 i hi, gS.efn y hc2 i hi⟩
             · exact (fr.efn_inj (g.valid _ _ hc1) (g.valid _ _ hc2) (argVals_length ..)
                    (argVals_length ..) (q1.symm.trans (hab.trans q2))).2)
        · exact absurd rfl nofail

/-- **C88.** Two equal ground terms that share no cell are unified in exactly as many iterations as the term
has nodes, and the heap stays as it is. -/
theorem C88_exact {st : Storage} {I} (s : StOK st) (hI : Interp I st) {h a b σ} {S T : Nat → Prop}
    (wf : WF st pre h) (ha : a < h.size) (hb : b < h.size) (m : TreeSol I (h.at? pre) σ) (e : σ a = σ b)
    (gS : Region (h.at? pre) S) (gT : Region (h.at? pre) T) (dis : ∀ x, S x → T x → False) (hS : S a) (hT : T b) (fuel : Nat) :
    unify pre fuel h a b = if (σ a).size ≤ fuel then .ok ⟨h, true⟩ else .error .hang := by
  have := unifyLoop_exact s hI wf m gS gT dis fuel [a, b] (by simp [ha, hb]) (by simp) ⟨e, trivial⟩ ⟨.inl ⟨hS, hT⟩, trivial⟩
  rw [unify, this]
  rfl

/-! ## Towers -/

theorem bushy_size : ∀ n, (bushy n).size + 1 = 2 ^ (n + 1)
  | 0 => rfl
  | n + 1 => by
    have := bushy_size n
    simp only [bushy, Tree.size, Tree.sizes]
    rw [Nat.pow_succ]
    omega

/-- The symbols `a` and `g/2`. -/
def towerSt : Storage := ⟨[⟨n!"a", 0⟩, ⟨n!"g", 2⟩], []⟩

/-- What the indices stand for. -/
def towerSym (i : Int) : FV := if i = 0 then ⟨n!"a", 0⟩ else ⟨n!"g", 2⟩

theorem towerSt_ok : StOK towerSt := ⟨by decide, by decide⟩

theorem towerSym_ok : Interp towerSym towerSt := by
  intro k fv h
  rcases k with _ | _ | k
  · cases h; rfl
  · cases h; rfl
  · simp [towerSt] at h

theorem towers_size (n : Nat) : (towers n).size = 6 * n + 2 := by
  simp [towers, Hp.size]

theorem towers_at (n : Nat) : Towers ((towers n).at? fun _ => none) n 0 1 := by
  intro x
  simp only [Hp.at?, towers, Nat.zero_le, if_true, Nat.sub_zero]
  by_cases h : x < 6 * n + 2
  · rw [if_pos h, List.getElem?_map, List.getElem?_range h]; rfl
  · rw [if_neg h]; simp; omega

section
variable {H : HV} {n : Nat} {c f : Int}

/-- The cells of the towers, by their kind. -/
theorem Towers.cell (h : Towers H n c f) {x r} (hx : H x = some r) :
    ∃ t, t < 2 ∧ ((x = t ∧ r = .cons c) ∨ ∃ k, k < n ∧ ((x = 6 * k + 3 * t + 2 ∧ r = .fn f 2) ∨
      ((x = 6 * k + 3 * t + 3 ∨ x = 6 * k + 3 * t + 4) ∧ r = .str (towerAt t k)))) := by
  rw [h] at hx
  split at hx
  · cases hx
    unfold towerCell
    split
    · exact ⟨x, by omega, .inl ⟨rfl, rfl⟩⟩
    · refine ⟨(x - 2) / 3 % 2, by omega, .inr ⟨(x - 2) / 6, by omega, ?_⟩⟩
      split
      · exact .inl ⟨by omega, rfl⟩
      · exact .inr ⟨by omega, rfl⟩
  · cases hx

/-- At the address of a level there is the constant or a structure. -/
theorem Towers.level (h : Towers H n c f) {t k} (ht : t < 2) (hk : k ≤ n) :
    H (towerAt t k) = some (if k = 0 then .cons c else .fn f 2) := by
  rw [h]
  unfold towerAt towerCell
  by_cases h0 : k = 0
  · subst h0
    simp only [if_true]
    rw [if_pos (by omega), if_pos ht]
  · simp only [h0, if_false]
    rw [if_pos (by omega), if_neg (by omega), if_pos (by omega)]

/-- The level of a cell. -/
def towerLevel (x : Nat) : Nat := if x < 2 then 0 else if (x - 2) % 3 = 0 then (x - 2) / 6 + 1 else (x - 2) / 6

theorem towerLevel_at {t k} (ht : t < 2) : towerLevel (towerAt t k) = k := by
  unfold towerLevel towerAt
  by_cases h0 : k = 0
  · simp only [h0, if_true]; rw [if_pos ht]
  · simp only [h0, if_false]
    rw [if_neg (by omega), if_pos (by omega)]; omega

/-- What the addresses stand for. -/
def towerSol (x : Nat) : Tree := bushy (towerLevel x)

theorem Towers.good (h : Towers H n c f) {V : Cell → Prop} (vc : V (.cons c)) (vf : V (.fn f 2)) (vs : ∀ b, V (.str b)) :
    Good V H (6 * n + 2) (6 * n + 2) := by
  have dom : ∀ x, (H x).isSome ↔ x < 6 * n + 2 := by
    intro x
    rw [h]
    split <;> simp <;> omega
  refine ⟨dom, ?_, ?_, ?_, ?_, Nat.le_refl _⟩
  · intro x hx
    obtain ⟨r, hr⟩ := Option.isSome_iff_exists.1 ((dom x).2 hx)
    obtain ⟨t, ht, ⟨rfl, rfl⟩ | ⟨k, hk, ⟨rfl, rfl⟩ | ⟨hx, rfl⟩⟩⟩ := h.cell hr
    · exact ⟨_, 0, .val hr rfl⟩
    · exact ⟨_, 0, .val hr rfl⟩
    · exact ⟨_, 1, .str hr (by unfold towerAt; split <;> omega) (.val (h.level ht (by omega)) (by split <;> rfl))⟩
  · intro x f k hr
    obtain ⟨b, hb, ⟨_, h⟩ | ⟨k, hk, ⟨rfl, h⟩ | ⟨_, h⟩⟩⟩ := h.cell hr <;> cases h
    omega
  · intro x f k hr
    obtain ⟨b, hb, ⟨_, h⟩ | ⟨k, hk, ⟨rfl, h⟩ | ⟨_, h⟩⟩⟩ := h.cell hr <;> cases h
  · intro x r hr
    obtain ⟨b, hb, ⟨_, rfl⟩ | ⟨k, hk, ⟨_, rfl⟩ | ⟨_, rfl⟩⟩⟩ := h.cell hr
    · exact vc
    · exact vf
    · exact vs _

theorem Towers.sol (h : Towers H n c f) {I : Int → FV} (ic : (I c).name = n!"a") (jf : (I f).name = n!"g") : TreeSol I H towerSol := by
  intro x r hr
  obtain ⟨t, ht, ⟨rfl, rfl⟩ | ⟨k, hk, ⟨rfl, rfl⟩ | ⟨hx, rfl⟩⟩⟩ := h.cell hr
  · simp only [CellEq, towerSol, towerLevel, if_pos ht, bushy, toIAlg, treeAlg, ic]
  · simp only [CellEq, argVals, towerSol, toIAlg, treeAlg, jf]
    rw [show towerLevel (6 * k + 3 * t + 2) = k + 1 by unfold towerLevel; rw [if_neg (by omega), if_pos (by omega)]; omega]
    rw [show towerLevel (6 * k + 3 * t + 2 + 1) = k by unfold towerLevel; rw [if_neg (by omega), if_neg (by omega)]; omega]
    rw [show towerLevel (6 * k + 3 * t + 2 + 1 + 1) = k by unfold towerLevel; rw [if_neg (by omega), if_neg (by omega)]; omega]
    rfl
  · simp only [CellEq, towerSol]
    rw [towerLevel_at ht, show towerLevel x = k by unfold towerLevel; rw [if_neg (by omega), if_neg (by omega)]; omega]

/-- The cells of the tower `t`. -/
def towerPart (t x : Nat) : Prop := if x < 2 then x = t else (x - 2) / 3 % 2 = t

theorem towerPart_at {t k} (ht : t < 2) : towerPart t (towerAt t k) := by
  unfold towerPart towerAt
  by_cases h0 : k = 0
  · simp [h0, ht]
  · simp only [h0, if_false]
    rw [if_neg (by omega)]; omega

theorem Towers.region (h : Towers H n c f) (t : Nat) : Region H (towerPart t) := by
  refine ⟨fun hx hr => ?_, fun hx hr => ?_, fun hx hr => ?_, fun hx hr => ?_⟩ <;>
    obtain ⟨t', ht', ⟨h, h'⟩ | ⟨k, hk, ⟨h, h'⟩ | ⟨h, h'⟩⟩⟩ := h.cell hr <;> cases h'
  · have : t' = t := by
      unfold towerPart at hx; rw [if_neg (by omega)] at hx; omega
    subst this
    exact towerPart_at ht'
  · intro i hi
    unfold towerPart at hx ⊢
    rw [if_neg (by omega)] at hx ⊢
    omega

end

/-- **C88.** In a heap with two towers of `n` structures the tops stand for the same term.  To unify them takes
`2^(n+1) - 1` iterations, although the heap has no more than `6n + 2` cells. -/
theorem C88_tops {st : Storage} {I} (s : StOK st) (hI : Interp I st) {h : Hp} {n : Nat} {c f : Int} (hs : h.size = 6 * n + 2)
    (ht : Towers (h.at? pre) n c f) (vc : ValidCell st (.cons c)) (vf : ValidCell st (.fn f 2)) (ic : (I c).name = n!"a") (jf : (I f).name = n!"g")
    (fuel : Nat) : unify pre fuel h (towerAt 0 n) (towerAt 1 n) = if 2 ^ (n + 1) - 1 ≤ fuel then .ok ⟨h, true⟩ else .error .hang := by
  have hl : ∀ t, t < 2 → towerAt t n < h.size := by intro t ht; rw [hs]; unfold towerAt; split <;> omega
  have hz := bushy_size n
  have := C88_exact s hI (by rw [WF, hs]; exact ht.good vc vf fun _ => trivial) (hl 0 (by omega)) (hl 1 (by omega)) (ht.sol ic jf)
    (by rw [towerSol, towerSol, towerLevel_at (by omega), towerLevel_at (by omega)]) (ht.region 0) (ht.region 1)
    (fun x hx hy => by unfold towerPart at hx hy; by_cases h : x < 2 <;> simp only [h, if_true, if_false] at hx hy <;> omega)
    (towerPart_at (by omega)) (towerPart_at (by omega)) fuel
  rw [this, towerSol, towerLevel_at (by omega), show (bushy n).size = 2 ^ (n + 1) - 1 by omega]

/-- **C88.** For every `n` there is such a heap. -/
theorem C88_towers (n : Nat) : (towers n).size = 6 * n + 2 ∧ WF towerSt (fun _ => none) (towers n) ∧ ∀ fuel,
    unify (fun _ => none) fuel (towers n) (towerAt 0 n) (towerAt 1 n) =
      if 2 ^ (n + 1) - 1 ≤ fuel then .ok ⟨towers n, true⟩ else .error .hang := by
  have vc : ValidCell towerSt (.cons 0) := ⟨0, _, rfl, rfl, rfl⟩
  have vf : ValidCell towerSt (.fn 1 2) := ⟨1, _, rfl, rfl, rfl, by simp⟩
  refine ⟨towers_size n, ?_, C88_tops towerSt_ok towerSym_ok (towers_size n) (towers_at n) vc vf rfl rfl⟩
  rw [WF, towers_size]
  exact (towers_at n).good vc vf fun _ => trivial

/-- **C88.** No polynomial in the size of the heap bounds the iterations of `unify`, not even for terms that
are equal. -/
theorem C88_no_polynomial : ¬ ∃ c d : Nat, ∀ st pre h a b, StOK st → WF st pre h → a < h.size → b < h.size →
    (∃ fuel r, unify pre fuel h a b = .ok r) → ∃ r, unify pre (c * h.size ^ d) h a b = .ok r := by
  intro ⟨c, d, hp⟩
  obtain ⟨n, hn⟩ := beats (c * 2 ^ d) d
  obtain ⟨hs, hw, hu⟩ := C88_towers n
  obtain ⟨r, hr⟩ := hp towerSt (fun _ => none) (towers n) (towerAt 0 n) (towerAt 1 n) towerSt_ok hw
    (by rw [hs, towerAt]; split <;> omega) (by rw [hs, towerAt]; split <;> omega) ⟨2 ^ (n + 1) - 1, _, by rw [hu, if_pos (Nat.le_refl _)]⟩
  have h1 : c * (6 * n + 2) ^ d ≤ c * (2 ^ d * (4 * n + 6) ^ d) := by
    rw [← Nat.mul_pow]
    exact Nat.mul_le_mul_left _ (Nat.pow_le_pow_left (by omega) d)
  rw [← Nat.mul_assoc] at h1
  have h2 : 2 ^ (n + 1) = 2 ^ n * 2 := Nat.pow_succ ..
  rw [hu, hs, if_neg (by omega)] at hr
  cases hr

/-! ## A program that does this -/

/-- `u(N)`: two terms are doubled `N` times and then unified. -/
def compareText : List Char :=
  doublingText ++ n!" e(A, A). u(N) :- t(N, a, X), t(N, a, Y), e(X, Y)."

/-- `u(s(s(…o…)))` -/
def compareAsk (n : Nat) : List Char := n!"u(" ++ numeralText n ++ n!")"

/-- All answers, when `unify` may take so many iterations. -/
def compareRun (n fuel : Nat) : R (List Org.Res) :=
  ((((Org.init0.loadProgramText id compareText).1.loadQueryText id (compareAsk n)).1).session fuel
    [List.replicate 60 false, List.replicate 60 false]).map (·.2)

/-- The first queries, run: the answer is just `true`, but it is there only if `unify` may take `2^(n+1) - 1`
iterations. -/
theorem C88_sample : [0, 1, 2, 3, 4].all (fun n =>
    (match compareRun n (2 ^ (n + 1) - 2) with | .error .hang => true | _ => false) &&
    (match compareRun n (2 ^ (n + 1) - 1) with | .ok rs => rs == [.answer [], .noAnswer] | _ => false)) = true := by
  decide +kernel

end PBfs
