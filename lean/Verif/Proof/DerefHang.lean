import Verif.Proof.Heap
/-! # The bound in `deref` only cuts off endless loops -/
namespace PBfs
variable {pre : Nat → Option Cell} {h : Hp}

/-- The next address of the loop in `deref`, when it goes on. -/
def derefNext (pre : Nat → Option Cell) (h : Hp) (a : Nat) : Option Nat :=
  match h.at? pre a with
  | some (.ref b _) => if b = a then none else some b
  | some (.str b) => if b = a then none else some b
  | _ => none

theorem derefN_hang_iff {n a} : derefN pre h (n + 1) a = .error .hang ↔
    ∃ b, derefNext pre h a = some b ∧ derefN pre h n b = .error .hang := by
  rw [derefN, derefNext]
  cases h.at? pre a with
  | none => simp
  | some c =>
    cases c <;> simp
    all_goals
      split <;> simp_all

theorem derefNext_lt {a b} (hb : derefNext pre h a = some b) (ha : h.start ≤ a) : a < h.size := by
  unfold derefNext at hb
  cases hc : h.at? pre a with
  | none => simp [hc] at hb
  | some c => exact Hp.at_lt_size pre ha hc

/-- The addresses visited by the first `n` steps. -/
def visited (pre : Nat → Option Cell) (h : Hp) : Nat → Nat → List Nat
  | 0, _ => []
  | n + 1, a => a :: match derefNext pre h a with
    | some b => visited pre h n b
    | none => []

theorem visited_hang {n a} (hh : derefN pre h n a = .error .hang) :
    (visited pre h n a).length = n ∧ (∀ x ∈ visited pre h n a, x < h.size) ∧
      ∀ i x, (visited pre h n a)[i]? = some x → derefN pre h (n - i) x = .error .hang ∧
        (∀ k, derefN pre h k x = .error .hang → derefN pre h (k + i) a = .error .hang) ∧
        ∀ y, (visited pre h n a)[i + 1]? = some y → derefNext pre h x = some y := by
  induction n generalizing a with
  | zero => simp [visited]
  | succ n ih =>
    obtain ⟨b, hb, hh'⟩ := derefN_hang_iff.1 hh
    obtain ⟨h1, h2, h3⟩ := ih hh'
    rw [visited, hb]
    refine ⟨by simp [h1], ?_, ?_⟩
    · intro x hx
      simp only [List.mem_cons] at hx
      rcases hx with rfl | hx
      · by_cases hs : h.start ≤ x
        · exact derefNext_lt hb hs
        · unfold Hp.size; omega
      · exact h2 x hx
    · intro i x hx
      cases i with
      | zero =>
        simp only [List.getElem?_cons_zero, Option.some.injEq] at hx
        subst hx
        refine ⟨by simpa using hh, fun k hk => by simpa using hk, fun y hy => ?_⟩
        simp only [Nat.zero_add, List.getElem?_cons_succ] at hy
        rw [hb]
        cases n with
        | zero => simp [visited] at hy
        | succ n => simp [visited] at hy; simp [hy]
      | succ i =>
        simp only [List.getElem?_cons_succ] at hx
        obtain ⟨g1, g2, g3⟩ := h3 i x hx
        refine ⟨by rw [show n + 1 - (i + 1) = n - i by omega]; exact g1, fun k hk => ?_, fun y hy => ?_⟩
        · rw [show k + (i + 1) = (k + i) + 1 by omega, derefN_hang_iff]
          exact ⟨b, hb, g2 k hk⟩
        · simp only [List.getElem?_cons_succ] at hy
          exact g3 y hy

theorem derefN_hang_mono {n m a} (hm : m ≤ n) (hh : derefN pre h n a = .error .hang) :
    derefN pre h m a = .error .hang := by
  induction m generalizing n a with
  | zero => rw [derefN]
  | succ m ih =>
    obtain ⟨n, rfl⟩ : ∃ k, n = k + 1 := ⟨n - 1, by omega⟩
    obtain ⟨b, hb, hh'⟩ := derefN_hang_iff.1 hh
    exact derefN_hang_iff.2 ⟨b, hb, ih (by omega) hh'⟩

/-- If `deref` runs out of its bound, it runs forever. -/
theorem deref_hang_forever {a} (hh : deref pre h a = .error .hang) :
    ∀ n, derefN pre h n a = .error .hang := by
  obtain ⟨h1, h2, h3⟩ := visited_hang hh
  have hnd : ¬ (visited pre h (h.size + 1) a).Nodup := by
    intro hnd
    have := nodup_length_le hnd h2
    omega
  rw [List.nodup_iff_getElem?_ne_getElem?] at hnd
  push Not at hnd
  obtain ⟨i, j, hij, hj, he⟩ := hnd
  obtain ⟨x, hx⟩ : ∃ x, (visited pre h (h.size + 1) a)[i]? = some x :=
    ⟨_, List.getElem?_eq_getElem (by omega)⟩
  have hxj := he ▸ hx
  -- everything from position `i` on hangs for any number of steps
  have key : ∀ n, ∀ k, i ≤ k → k ≤ j → ∀ y, (visited pre h (h.size + 1) a)[k]? = some y →
      derefN pre h n y = .error .hang := by
    intro n
    induction n with
    | zero => intros; rw [derefN]
    | succ n ih =>
      have step : ∀ k, i ≤ k → k < j → ∀ y, (visited pre h (h.size + 1) a)[k]? = some y →
          derefN pre h (n + 1) y = .error .hang := by
        intro k hk1 hk2 y hy
        obtain ⟨z, hz⟩ : ∃ z, (visited pre h (h.size + 1) a)[k + 1]? = some z :=
          ⟨_, List.getElem?_eq_getElem (by omega)⟩
        exact derefN_hang_iff.2 ⟨z, (h3 k y hy).2.2 z hz, ih (k + 1) (by omega) (by omega) z hz⟩
      intro k hk1 hk2 y hy
      by_cases hkj : k = j
      · subst hkj
        have : y = x := by rw [hxj] at hy; exact (Option.some.inj hy).symm
        subst this
        exact step i (Nat.le_refl _) hij _ hx
      · exact step k hk1 (by omega) y hy
  intro n
  exact derefN_hang_mono (show n ≤ n + i by omega)
    ((h3 i x hx).2.1 n (key n i (Nat.le_refl _) (by omega) x hx))

end PBfs
