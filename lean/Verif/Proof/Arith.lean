import Verif.Spec.Logic
import Verif.Proof.Util
/-! # The arithmetic functions compute exactly what they should (except `^`) -/
namespace PBfs

theorem roundDiv_ge (a b : Nat) : a / b ≤ roundDiv a b := by
  simp only [roundDiv]
  split
  · exact Nat.le_refl _
  · split
    · omega
    · split <;> omega

theorem roundDiv_le (a b : Nat) (hb : 0 < b) : 2 * (b * roundDiv a b) ≤ 2 * a + b := by
  have h := Nat.div_add_mod a b
  have hm : b * (a / b + 1) = b * (a / b) + b := Nat.mul_succ _ _
  simp only [roundDiv]
  split
  · omega
  · split
    · omega
    · split <;> omega

theorem roundNat_small {p a : Nat} (h : a < 2 ^ p) : roundNat p a = a := by simp [roundNat, h]

theorem roundNat_big {p a : Nat} (hp : 0 < p) (h : 2 ^ p ≤ a) : 2 ^ (p - 1) ≤ roundNat p a := by
  rw [roundNat, if_neg (by omega)]
  have ha : a ≠ 0 := by have := Nat.two_pow_pos p; omega
  have hlog : 2 ^ a.log2 ≤ a := Nat.log2_self_le ha
  have hlp : p ≤ a.log2 := (Nat.le_log2 ha).2 h
  have hsplit : 2 ^ (p - 1) * 2 ^ (a.log2 + 1 - p) = 2 ^ a.log2 := by
    rw [← Nat.pow_add]; congr 1; omega
  have h1 : 2 ^ (p - 1) ≤ a / 2 ^ (a.log2 + 1 - p) := by
    rw [Nat.le_div_iff_mul_le (Nat.two_pow_pos _), hsplit]; exact hlog
  have h2 := roundDiv_ge a (2 ^ (a.log2 + 1 - p))
  calc 2 ^ (p - 1) ≤ roundDiv a (2 ^ (a.log2 + 1 - p)) := Nat.le_trans h1 h2
    _ ≤ _ := Nat.le_mul_of_pos_right _ (Nat.two_pow_pos _)

/-- A result within 32 bits has not been rounded. -/
theorem toInt32_round {z v : Int} (h : toInt32 (roundInt 53 z) = .ok v) :
    v = z ∧ -2147483648 ≤ v ∧ v ≤ 2147483647 := by
  unfold toInt32 at h
  split at h
  · rename_i hr
    cases h
    refine ⟨?_, hr⟩
    by_cases hs : z.natAbs < 2 ^ 53
    · unfold roundInt; rw [roundNat_small hs]; split <;> omega
    · have := roundNat_big (p := 53) (by decide) (Nat.le_of_not_lt hs)
      have h2 : (2:Nat) ^ (53 - 1) = 4503599627370496 := by decide
      rw [h2] at this
      unfold roundInt at hr
      split at hr <;> omega
  · cases h

theorem quotTrunc_eq {a b : Nat} (hb : 0 < b) (ha : a < 2 ^ 52) : quotTrunc a b = a / b := by
  unfold quotTrunc
  split
  · rename_i h; subst h; simp
  · rename_i h0
    simp only
    generalize he : (if a * 2 ^ quotScale a b < 2 ^ 53 * b then quotScale a b else quotScale a b - 1) = e
    have hlog : a.log2 < 52 := (Nat.log2_lt h0).2 ha
    have hbe : b < 2 * 2 ^ e := by
      have h1 : b < 2 ^ (b.log2 + 1) := (Nat.log2_lt (by omega)).1 (by omega)
      have h2 : b.log2 ≤ e := by
        unfold quotScale at he
        split at he <;> omega
      have h3 : 2 ^ (b.log2 + 1) ≤ 2 ^ (e + 1) := Nat.pow_le_pow_right (by decide) (by omega)
      rw [Nat.pow_succ 2 e] at h3; omega
    have hE := Nat.two_pow_pos e
    generalize 2 ^ e = E at *
    have hq := Nat.div_add_mod a b
    have hr := Nat.mod_lt a hb
    generalize a / b = q at *
    generalize a % b = r at *
    subst hq
    -- lower bound
    have l1 : q * E ≤ roundDiv ((b * q + r) * E) b := by
      refine Nat.le_trans ?_ (roundDiv_ge _ _)
      rw [Nat.le_div_iff_mul_le hb]
      have : q * E * b = b * q * E := by rw [Nat.mul_comm (q * E) b, Nat.mul_assoc]
      rw [this]
      exact Nat.mul_le_mul_right _ (Nat.le_add_right _ _)
    have l2 := roundDiv_le ((b * q + r) * E) b hb
    generalize roundDiv ((b * q + r) * E) b = R at *
    have l3 : R < (q + 1) * E := by
      refine Nat.lt_of_not_le fun hge => ?_
      have h1 : b * ((q + 1) * E) ≤ b * R := Nat.mul_le_mul_left _ hge
      have h2 : b * ((q + 1) * E) = b * q * E + b * E := by
        rw [Nat.add_mul, Nat.mul_add, Nat.one_mul, Nat.mul_assoc]
      have h3 : (b * q + r) * E = b * q * E + r * E := Nat.add_mul _ _ _
      have h4 : (r + 1) * E ≤ b * E := Nat.mul_le_mul_right _ hr
      rw [Nat.add_mul, Nat.one_mul] at h4
      omega
    refine Nat.div_eq_of_lt_le ?_ ?_
    · exact l1
    · exact l3

theorem divInt_eq {a b : Int} (hb : b ≠ 0) (ha : a.natAbs < 2 ^ 52) : divInt a b = a.tdiv b := by
  unfold divInt
  simp only
  rw [quotTrunc_eq (by omega) ha]
  by_cases h1 : 0 ≤ a <;> by_cases h2 : 0 ≤ b
  · rw [if_pos (by simp [h1, h2])]
    obtain ⟨m, rfl⟩ := Int.eq_ofNat_of_zero_le h1
    obtain ⟨n, rfl⟩ := Int.eq_ofNat_of_zero_le h2
    simp [Int.ofNat_tdiv]
  · rw [if_neg (by simp [h1, h2])]
    obtain ⟨m, rfl⟩ := Int.eq_ofNat_of_zero_le h1
    obtain ⟨n, rfl⟩ : ∃ n : Nat, b = -(n : Int) := ⟨b.natAbs, by omega⟩
    simp [Int.ofNat_tdiv, Int.tdiv_neg]
  · rw [if_neg (by simp [h1, h2])]
    obtain ⟨m, rfl⟩ : ∃ n : Nat, a = -(n : Int) := ⟨a.natAbs, by omega⟩
    obtain ⟨n, rfl⟩ := Int.eq_ofNat_of_zero_le h2
    simp [Int.ofNat_tdiv, Int.neg_tdiv]
  · rw [if_pos (by simp [h1, h2])]
    obtain ⟨m, rfl⟩ : ∃ n : Nat, a = -(n : Int) := ⟨a.natAbs, by omega⟩
    obtain ⟨n, rfl⟩ : ∃ n : Nat, b = -(n : Int) := ⟨b.natAbs, by omega⟩
    simp [Int.ofNat_tdiv, Int.neg_tdiv, Int.tdiv_neg]

/-- Values of the machine type `int`. -/
def Int32 (v : Int) : Prop := -2147483648 ≤ v ∧ v ≤ 2147483647

theorem toInt32_ok {z v : Int} : toInt32 z = .ok v ↔ v = z ∧ Int32 v := by
  unfold toInt32 Int32
  split
  · constructor
    · intro h; cases h; exact ⟨rfl, by assumption⟩
    · rintro ⟨rfl, _⟩; rfl
  · constructor
    · intro h; cases h
    · rintro ⟨rfl, h⟩; contradiction

theorem roundInt_small {z : Int} (h : z.natAbs < 2 ^ 53) : roundInt 53 z = z := by
  unfold roundInt; rw [roundNat_small h]; split <;> omega

/-- Whatever is computed is the exact result. -/
theorem arithOp_spec {f a b v} (h : arithOp f a b = .ok v) (ha : Int32 a) (h0 : f = 4 → b ≠ 0) :
    ArithSpec (arithNames.getD f []) a b v := by
  unfold arithOp at h
  split at h
  · exact .pow h
  · rw [(toInt32_round h).1]; exact .add
  · rw [(toInt32_round h).1]; exact .sub
  · rw [(toInt32_round h).1]; exact .mul
  · rw [divInt_eq (h0 rfl) (by unfold Int32 at ha; omega), toInt32_ok] at h
    rw [h.1]; exact .div (h0 rfl)
  · cases h

theorem powInt_range {a b v : Int} (h : powInt a b = .ok v) : Int32 v := by
  unfold powInt at h
  simp only at h
  have c1 : Int32 1 := by unfold Int32; omega
  have c2 : Int32 (-1) := by unfold Int32; omega
  have c3 : Int32 0 := by unfold Int32; omega
  repeat' split at h
  all_goals first
    | exact (toInt32_ok.1 h).2
    | cases h
  all_goals first
    | assumption
    | (split <;> assumption)

theorem arithOp_range {f a b v} (h : arithOp f a b = .ok v) : Int32 v := by
  unfold arithOp at h
  split at h
  · exact powInt_range h
  all_goals first | exact (toInt32_ok.1 h).2 | cases h

end PBfs
