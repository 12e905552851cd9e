import Verif.Spec.Lossy
import Mathlib.Tactic.Linarith
import Mathlib.Tactic.NormNum
import Mathlib.Tactic.Ring
import Mathlib.Tactic.FieldSimp
import Mathlib.Tactic.Positivity

/-! Cutting the last bits of floats. -/

namespace WB

open Spec

/-- The significand with its leading bit. -/
def sgnf (n : ℕ) : ℕ := if n / 2 ^ 23 = 0 then n else n % 2 ^ 23 + 2 ^ 23

/-- The exponent of the last place. -/
def lastPlace (n : ℕ) : ℤ := ((max 1 (n / 2 ^ 23) : ℕ) : ℤ) - 150

theorem magnitude_sgnf (n : ℕ) : magnitude n = sgnf n * 2 ^ lastPlace n := by
  unfold magnitude sgnf lastPlace
  by_cases h : n / 2 ^ 23 = 0
  · rw [if_pos h, if_pos h, h]; norm_num
  · rw [if_neg h, if_neg h, max_eq_right (by omega)]

theorem sgnf_lt (n : ℕ) : sgnf n < 2 ^ 24 := by unfold sgnf; split <;> omega

theorem magnitude_nonneg (n : ℕ) : 0 ≤ magnitude n := by rw [magnitude_sgnf]; positivity

theorem magnitude_mono {a b : ℕ} (h : a ≤ b) : magnitude a ≤ magnitude b := by
  rw [magnitude_sgnf, magnitude_sgnf]
  by_cases he : a / 2 ^ 23 = b / 2 ^ 23
  · have e : lastPlace a = lastPlace b := by unfold lastPlace; rw [he]
    rw [e]
    refine mul_le_mul_of_nonneg_right ?_ (by positivity)
    have : sgnf a ≤ sgnf b := by unfold sgnf; rw [he]; split <;> omega
    exact_mod_cast this
  · have hlt : a / 2 ^ 23 < b / 2 ^ 23 := by omega
    by_cases hb : b / 2 ^ 23 = 1
    · have e : lastPlace a = lastPlace b := by unfold lastPlace; rw [hb, show a / 2 ^ 23 = 0 by omega]; rfl
      rw [e]
      refine mul_le_mul_of_nonneg_right ?_ (by positivity)
      have : sgnf a ≤ sgnf b := by unfold sgnf; rw [if_pos (by omega), if_neg (by omega)]; omega
      exact_mod_cast this
    · have e : lastPlace a + 1 ≤ lastPlace b := by unfold lastPlace; omega
      have h1 : (sgnf a : ℚ) ≤ 2 ^ 24 := by exact_mod_cast (sgnf_lt a).le
      have h2 : (2 ^ 23 : ℚ) ≤ sgnf b := by
        have : 2 ^ 23 ≤ sgnf b := by unfold sgnf; rw [if_neg (by omega)]; omega
        exact_mod_cast this
      calc (sgnf a : ℚ) * 2 ^ lastPlace a ≤ 2 ^ 24 * 2 ^ lastPlace a := mul_le_mul_of_nonneg_right h1 (by positivity)
        _ = 2 ^ 23 * 2 ^ (lastPlace a + 1) := by rw [zpow_add₀ (by norm_num)]; ring
        _ ≤ 2 ^ 23 * 2 ^ lastPlace b := mul_le_mul_of_nonneg_left (zpow_le_zpow_right₀ (by norm_num) e) (by positivity)
        _ ≤ _ := mul_le_mul_of_nonneg_right h2 (by positivity)

theorem toNat_truncBits {prec : ℕ} (x : BitVec 32) :
    (truncBits prec x).toNat = x.toNat / 2 ^ (32 - prec) * 2 ^ (32 - prec) := by
  unfold truncBits
  rw [BitVec.toNat_ofNat, Nat.mod_eq_of_lt]
  exact lt_of_le_of_lt (Nat.div_mul_le_self _ _) x.isLt

theorem cut_div {n k m : ℕ} (h : k ≤ m) : n / 2 ^ k * 2 ^ k / 2 ^ m = n / 2 ^ m := by
  obtain ⟨d, rfl⟩ := Nat.exists_eq_add_of_le h
  rw [pow_add, ← Nat.div_div_eq_div_mul, Nat.mul_div_cancel _ (by positivity), Nat.div_div_eq_div_mul]

theorem cut_mod {n k m : ℕ} (h : k ≤ m) : n / 2 ^ k * 2 ^ k % 2 ^ m = n % 2 ^ m / 2 ^ k * 2 ^ k := by
  obtain ⟨d, rfl⟩ := Nat.exists_eq_add_of_le h
  rw [pow_add, Nat.mul_comm (n / 2 ^ k), Nat.mul_mod_mul_left, Nat.mod_mul_right_div_self, Nat.mul_comm]

/-- Sign of a pattern. -/
def signOf (x : BitVec 32) : ℚ := if x.toNat / 2 ^ 31 = 0 then 1 else -1

theorem abs_signOf (x : BitVec 32) : |signOf x| = 1 := by unfold signOf; split <;> simp

theorem number_sign (x : BitVec 32) : number x = signOf x * magnitude (x.toNat % 2 ^ 31) := rfl

theorem number_trunc {prec : ℕ} (hp : 1 ≤ prec) (x : BitVec 32) :
    number (truncBits prec x) = signOf x * magnitude (x.toNat % 2 ^ 31 / 2 ^ (32 - prec) * 2 ^ (32 - prec)) := by
  unfold number signOf
  rw [toNat_truncBits, cut_div (by omega), cut_mod (by omega)]

theorem abs_number (x : BitVec 32) : |number x| = magnitude (x.toNat % 2 ^ 31) := by
  rw [number_sign, abs_mul, abs_signOf, one_mul, abs_of_nonneg (magnitude_nonneg _)]

/-- The difference of the numbers is the difference of the magnitudes. -/
theorem trunc_diff {prec : ℕ} (hp : 1 ≤ prec) (x : BitVec 32) :
    |number x - number (truncBits prec x)| =
      magnitude (x.toNat % 2 ^ 31) - magnitude (x.toNat % 2 ^ 31 / 2 ^ (32 - prec) * 2 ^ (32 - prec)) := by
  rw [number_sign, number_trunc hp, ← mul_sub, abs_mul, abs_signOf, one_mul, abs_of_nonneg]
  exact sub_nonneg.2 (magnitude_mono (Nat.div_mul_le_self _ _))

theorem magnitude_cut {n k : ℕ} (hk : k ≤ 23) :
    magnitude n - magnitude (n / 2 ^ k * 2 ^ k) = (n % 2 ^ k : ℕ) * 2 ^ lastPlace n := by
  rw [magnitude_sgnf, magnitude_sgnf]
  have e : lastPlace (n / 2 ^ k * 2 ^ k) = lastPlace n := by unfold lastPlace; rw [cut_div hk]
  have s : sgnf (n / 2 ^ k * 2 ^ k) + n % 2 ^ k = sgnf n := by
    unfold sgnf
    rw [cut_div hk, cut_mod hk]
    have h1 := Nat.div_add_mod n (2 ^ k)
    have h2 := Nat.div_add_mod (n % 2 ^ 23) (2 ^ k)
    rw [Nat.mod_mod_of_dvd _ (pow_dvd_pow 2 hk)] at h2
    split
    · rw [Nat.mul_comm]; exact h1
    · rw [Nat.mul_comm (2 ^ k)] at h2; omega
  rw [e, ← s]
  push_cast
  ring

/-- Truncation does not make magnitudes larger or change signs, whatever the precision. -/
theorem trunc_shrinks {prec : ℕ} (hp : 1 ≤ prec) (x : BitVec 32) :
    |number (truncBits prec x)| ≤ |number x| ∧ |number x - number (truncBits prec x)| ≤ |number x| := by
  rw [trunc_diff hp, number_trunc hp, abs_number, abs_mul, abs_signOf, one_mul, abs_of_nonneg (magnitude_nonneg _)]
  exact ⟨magnitude_mono (Nat.div_mul_le_self _ _), sub_le_self _ (magnitude_nonneg _)⟩

/-- From 9 bits on, the relative error of a normal number is below `2^(9 - prec)`. -/
theorem trunc_relative {prec : ℕ} (h9 : 9 ≤ prec) (h : prec ≤ 32) (x : BitVec 32) (hn : 0 < expBits x) :
    |number x - number (truncBits prec x)| ≤ (2 : ℚ) ^ (9 - prec : ℤ) * |number x| := by
  rw [trunc_diff (by omega), abs_number, magnitude_cut (by omega), magnitude_sgnf]
  have hn' : x.toNat % 2 ^ 31 / 2 ^ 23 ≠ 0 := by unfold expBits at hn; have := x.isLt; omega
  have hs : (2 ^ 23 : ℚ) ≤ sgnf (x.toNat % 2 ^ 31) := by
    have : 2 ^ 23 ≤ sgnf (x.toNat % 2 ^ 31) := by unfold sgnf; rw [if_neg hn']; omega
    exact_mod_cast this
  have hm : ((x.toNat % 2 ^ 31 % 2 ^ (32 - prec) : ℕ) : ℚ) ≤ 2 ^ (32 - prec) := by
    exact_mod_cast (Nat.mod_lt _ (by positivity)).le
  rw [← mul_assoc]
  refine mul_le_mul_of_nonneg_right (hm.trans ?_) (by positivity)
  calc (2 : ℚ) ^ (32 - prec) = 2 ^ (9 - prec : ℤ) * 2 ^ 23 := by
        rw [← zpow_natCast, ← zpow_natCast (2 : ℚ) 23, ← zpow_add₀ (by norm_num)]
        congr 1; push_cast; omega
    _ ≤ _ := mul_le_mul_of_nonneg_left hs (by positivity)

/-- From 9 bits on, the absolute error of a number that is not normal is below `2^(32 - prec)` units of the last place. -/
theorem trunc_subnormal {prec : ℕ} (h9 : 9 ≤ prec) (x : BitVec 32) (hn : expBits x = 0) :
    |number x - number (truncBits prec x)| ≤ 2 ^ (32 - prec) * (2 : ℚ) ^ (-149 : ℤ) := by
  rw [trunc_diff (by omega), magnitude_cut (by omega)]
  have hn' : x.toNat % 2 ^ 31 / 2 ^ 23 = 0 := by unfold expBits at hn; have := x.isLt; omega
  have hm : ((x.toNat % 2 ^ 31 % 2 ^ (32 - prec) : ℕ) : ℚ) ≤ 2 ^ (32 - prec) := by
    exact_mod_cast (Nat.mod_lt _ (by positivity)).le
  rw [show lastPlace (x.toNat % 2 ^ 31) = -149 by unfold lastPlace; rw [hn']; rfl]
  exact mul_le_mul_of_nonneg_right hm (by positivity)

/-- With two bits only the sign and whether the magnitude is at least 2 are left. -/
theorem trunc_two (x : BitVec 32) : number (truncBits 2 x) = if |number x| < 2 then 0 else if 0 < number x then 2 else -2 := by
  rw [number_trunc (by omega), abs_number]
  have hlt := x.isLt
  have big : magnitude (2 ^ 30) = 2 := by norm_num [magnitude]
  by_cases h : x.toNat % 2 ^ 31 < 2 ^ 30
  · have h1 : magnitude (x.toNat % 2 ^ 31) ≤ magnitude (2 ^ 30 - 1) := magnitude_mono (by omega)
    have h2 : magnitude (2 ^ 30 - 1) < 2 := by norm_num [magnitude]
    rw [if_pos (h1.trans_lt h2), show x.toNat % 2 ^ 31 / 2 ^ (32 - 2) * 2 ^ (32 - 2) = 0 by omega]
    norm_num [magnitude]
  · have h1 : magnitude (2 ^ 30) ≤ magnitude (x.toNat % 2 ^ 31) := magnitude_mono (by omega)
    rw [big] at h1
    rw [if_neg (by linarith), show x.toNat % 2 ^ 31 / 2 ^ (32 - 2) * 2 ^ (32 - 2) = 2 ^ 30 by omega, big, number_sign]
    unfold signOf
    split
    · rw [if_pos (by linarith)]; norm_num
    · rw [if_neg (by linarith)]; norm_num

end WB
