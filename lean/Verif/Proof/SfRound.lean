import Verif.Spec.Float
import Mathlib.Tactic.Positivity
import Mathlib.Tactic.Ring
import Mathlib.Tactic.NormNum
import Mathlib.Tactic.Linarith
import Mathlib.Tactic.IntervalCases
import Mathlib.Tactic.FieldSimp
import Mathlib.Data.Nat.Cast.Order.Field

/-! The error of rounding to fewer fraction bits. -/

namespace WB.Spec

theorem magnitude_normal {n e m : ℕ} (hd : n / 2 ^ 23 = e) (he : 0 < e) (hm : n % 2 ^ 23 = m) :
    magnitude n = ((m : ℚ) + 2 ^ 23) * 2 ^ ((e : ℤ) - 150) := by
  unfold magnitude
  rw [hd, hm, if_neg (by omega)]
  push_cast
  rfl

/-- On the numbers with exponent bits `e` and up to the next power of two, the magnitude is linear in the bits. -/
theorem magnitude_linear {e n : ℕ} (he : 0 < e) (h1 : e * 8388608 ≤ n) (h2 : n ≤ (e + 1) * 8388608) :
    magnitude n = ((n : ℚ) - (e - 1) * 8388608) * 2 ^ ((e : ℤ) - 150) := by
  rcases Nat.lt_or_ge n ((e + 1) * 8388608) with h | h
  · obtain ⟨m, rfl⟩ : ∃ m, n = e * 8388608 + m := ⟨n - e * 8388608, by omega⟩
    rw [magnitude_normal (e := e) (m := m) (by norm_num; omega) he (by norm_num; omega)]
    push_cast
    ring
  · have hn : n = (e + 1) * 8388608 := by omega
    subst hn
    rw [magnitude_normal (e := e + 1) (m := 0) (by norm_num) (by omega) (by norm_num)]
    have : (2 : ℚ) ^ (((e + 1 : ℕ) : ℤ) - 150) = 2 * 2 ^ ((e : ℤ) - 150) := by
      rw [← zpow_one_add₀ (by norm_num)]
      congr 1
      push_cast
      ring
    rw [this]
    push_cast
    ring

/-- Half a unit of the last place kept. -/
theorem roundBits_near {L : ℕ} (hL : L ≤ 23) (x : BitVec 32) :
    roundBits L x ≤ x.toNat + 2 ^ (23 - L) / 2 ∧ x.toNat ≤ roundBits L x + 2 ^ (23 - L) / 2 ∧ 2 ^ (23 - L) ∣ roundBits L x := by
  have hdvd : 2 ^ (23 - L) ∣ roundBits L x := Dvd.intro_left _ rfl
  refine ⟨Nat.div_mul_le_self _ _, ?_, hdvd⟩
  have hp : 0 < 2 ^ (23 - L) := by positivity
  have h := Nat.lt_div_mul_add hp (a := x.toNat + 2 ^ (23 - L) / 2)
  have hr : roundBits L x = (x.toNat + 2 ^ (23 - L) / 2) / 2 ^ (23 - L) * 2 ^ (23 - L) := rfl
  rw [← hr] at h
  rcases Nat.eq_zero_or_pos (23 - L) with h0 | h0
  · rw [h0] at h ⊢
    omega
  · obtain ⟨k, hk⟩ : ∃ k, 2 ^ (23 - L) = 2 * k := ⟨2 ^ (23 - L - 1), by rw [← pow_succ']; congr 1; omega⟩
    omega

/-- Rounding moves the bits by at most half a unit of the last place kept and does not leave the numbers between the neighbouring powers
of two. -/
theorem roundBits_split {L : ℕ} (hL : L ≤ 23) (x : BitVec 32) (he : expBits x < 255) :
    ∃ s n n', s < 2 ∧ x.toNat = s * 2147483648 + n ∧ roundBits L x = s * 2147483648 + n' ∧ n / 8388608 = expBits x ∧
      expBits x * 8388608 ≤ n ∧ n < (expBits x + 1) * 8388608 ∧ expBits x * 8388608 ≤ n' ∧ n' ≤ (expBits x + 1) * 8388608 ∧
      n' ≤ n + 2 ^ (23 - L) / 2 ∧ n ≤ n' + 2 ^ (23 - L) / 2 := by
  have hx := x.isLt
  obtain ⟨a, b, c⟩ := roundBits_near hL x
  have hexp : expBits x = x.toNat / 8388608 % 256 := by unfold expBits; norm_num
  norm_num at hx
  obtain ⟨d, hd⟩ : ∃ d, d = 2 ^ (23 - L) := ⟨_, rfl⟩
  have hdd : d ∣ 8388608 := by
    rw [hd, show (8388608 : ℕ) = 2 ^ 23 by norm_num]
    exact Nat.pow_dvd_pow 2 (by omega)
  have hdpos : 0 < d := by rw [hd]; positivity
  rw [← hd] at a b c ⊢
  set X := x.toNat with hX
  set N := roundBits L x with hN
  set e := expBits x with hE
  clear_value X N e
  have hlow : (X / 8388608) * 8388608 ≤ N := by
    obtain ⟨q, hq⟩ := c
    obtain ⟨k, hk⟩ := hdd
    by_contra hcon
    have h1 : N + d ≤ (X / 8388608) * 8388608 := by
      have h2 : d * q < d * (k * (X / 8388608)) := by
        calc d * q = N := hq.symm
          _ < (X / 8388608) * 8388608 := by omega
          _ = d * (k * (X / 8388608)) := by rw [hk]; ring
      have h3 : q + 1 ≤ k * (X / 8388608) := Nat.lt_of_mul_lt_mul_left h2
      have h4 := Nat.mul_le_mul_left d h3
      calc N + d = d * (q + 1) := by rw [hq]; ring
        _ ≤ d * (k * (X / 8388608)) := h4
        _ = (X / 8388608) * 8388608 := by rw [hk]; ring
    omega
  have hhigh : N ≤ (X / 8388608 + 1) * 8388608 := by
    obtain ⟨q, hq⟩ := c
    obtain ⟨k, hk⟩ := hdd
    by_contra hcon
    have h1 : (X / 8388608 + 1) * 8388608 + d ≤ N := by
      have h2 : d * (k * (X / 8388608 + 1)) < d * q := by
        calc d * (k * (X / 8388608 + 1)) = (X / 8388608 + 1) * 8388608 := by rw [hk]; ring
          _ < N := by omega
          _ = d * q := hq
      have h3 : k * (X / 8388608 + 1) + 1 ≤ q := Nat.lt_of_mul_lt_mul_left h2
      have h4 := Nat.mul_le_mul_left d h3
      calc (X / 8388608 + 1) * 8388608 + d = d * (k * (X / 8388608 + 1) + 1) := by rw [hk]; ring
        _ ≤ d * q := h4
        _ = N := hq.symm
    omega
  refine ⟨X / 2147483648, X % 2147483648, N - X / 2147483648 * 2147483648, ?_⟩
  omega

theorem number_split {x : BitVec 32} {s n : ℕ} (hn : n < 2147483648) (h : x.toNat = s * 2147483648 + n) :
    number x = (if s = 0 then 1 else -1) * magnitude n := by
  unfold number
  rw [h, show (2 : ℕ) ^ 31 = 2147483648 by norm_num, show (s * 2147483648 + n) / 2147483648 = s by omega,
    show (s * 2147483648 + n) % 2147483648 = n by omega]

theorem round_error {L : ℕ} (hL : L ≤ 23) (x : BitVec 32) (hx : RoundsFinite L x) (he : 0 < expBits x) :
    |number (roundTo L x) - number x| ≤ |number x| / 2 ^ (L + 1) := by
  obtain ⟨s, n, n', h1, h2, h3, h4, h5, h6, h7, h8, h9, h10⟩ := roundBits_split hL x hx.1
  have hxe := hx.1
  set e := expBits x with hE
  clear_value e
  have hr : roundTo L x = BitVec.ofNat 32 (s * 2147483648 + n') := by
    unfold roundTo
    rw [h3, if_neg (by norm_num; omega)]
  have hr2 : (roundTo L x).toNat = s * 2147483648 + n' := by
    rw [hr, BitVec.toNat_ofNat]
    norm_num
    omega
  rw [number_split (by omega) hr2, number_split (by omega) h2, ← mul_sub, abs_mul, abs_mul,
    show |(if s = 0 then (1 : ℚ) else -1)| = 1 by split_ifs <;> norm_num, one_mul, one_mul,
    magnitude_linear he h7 h8, magnitude_linear he h5 (by omega), ← sub_mul, abs_mul, abs_mul, abs_of_pos (a := (2 : ℚ) ^ _) (by positivity),
    mul_div_right_comm]
  refine mul_le_mul_of_nonneg_right ?_ (by positivity)
  have hlow : (8388608 : ℚ) ≤ (n : ℚ) - (e - 1) * 8388608 := by
    have : (e : ℚ) * 8388608 ≤ n := by exact_mod_cast h5
    linarith
  rw [abs_of_pos (a := (n : ℚ) - _) (by linarith)]
  have hdiff : |((n' : ℚ) - (e - 1) * 8388608) - ((n : ℚ) - (e - 1) * 8388608)| ≤ ((2 ^ (23 - L) / 2 : ℕ) : ℚ) := by
    rw [sub_sub_sub_cancel_right, abs_le]
    have a : (n' : ℚ) ≤ n + (2 ^ (23 - L) / 2 : ℕ) := by exact_mod_cast h9
    have b : (n : ℚ) ≤ n' + (2 ^ (23 - L) / 2 : ℕ) := by exact_mod_cast h10
    constructor <;> linarith
  refine hdiff.trans ?_
  have hhalf : ((2 ^ (23 - L) / 2 : ℕ) : ℚ) ≤ 8388608 / 2 ^ (L + 1) := by
    have h0 : ((2 ^ (23 - L) / 2 : ℕ) : ℚ) ≤ (2 : ℚ) ^ (23 - L) / 2 := by
      have := Nat.cast_div_le (α := ℚ) (m := 2 ^ (23 - L)) (n := 2)
      simpa using this
    refine h0.trans (le_of_eq ?_)
    rw [div_eq_div_iff (by norm_num) (by positivity), ← pow_add, show 23 - L + (L + 1) = 24 by omega]
    norm_num
  exact hhalf.trans (div_le_div_of_nonneg_right hlow (by positivity))

theorem round_error_small {L : ℕ} (hL : L ≤ 23) (x : BitVec 32) (hx : RoundsFinite L x) (he : expBits x = 0) :
    |number (roundTo L x) - number x| ≤ 2 ^ (-126 : ℤ) := by
  obtain ⟨s, n, n', h1, h2, h3, h4, h5, h6, h7, h8, h9, h10⟩ := roundBits_split hL x hx.1
  rw [he] at h5 h6 h7 h8
  have hn : magnitude n = n * 2 ^ (-149 : ℤ) := by
    unfold magnitude
    rw [if_pos (by norm_num; omega)]
  have hn2 : magnitude n ≤ 2 ^ (-126 : ℤ) := by
    have h23 : (2 : ℚ) ^ (-126 : ℤ) = 8388608 * 2 ^ (-149 : ℤ) := by
      rw [show (8388608 : ℚ) = 2 ^ (23 : ℤ) by norm_num, ← zpow_add₀ (by norm_num)]
      congr 1
    rw [hn, h23]
    refine mul_le_mul_of_nonneg_right ?_ (by positivity)
    have : n ≤ 8388608 := by
      rw [Nat.zero_add, Nat.one_mul] at h6
      exact h6.le
    exact_mod_cast this
  have hn0 : 0 ≤ magnitude n := by rw [hn]; positivity
  rw [number_split (by omega) h2]
  rcases Nat.lt_or_ge n' 8388608 with h | h
  · have hr : roundTo L x = 0 := by
      unfold roundTo
      rw [h3, if_pos (by norm_num; omega)]
    have : number (roundTo L x) = 0 := by
      rw [hr]
      simp [number, magnitude]
    rw [this, zero_sub, abs_neg, abs_mul, show |(if s = 0 then (1 : ℚ) else -1)| = 1 by split_ifs <;> norm_num, one_mul,
      abs_of_nonneg hn0]
    exact hn2
  · have hn' : n' = 8388608 := by omega
    have hr2 : (roundTo L x).toNat = s * 2147483648 + n' := by
      unfold roundTo
      rw [h3, if_neg (by norm_num; omega), BitVec.toNat_ofNat]
      norm_num
      omega
    have hm : magnitude n' = 2 ^ (-126 : ℤ) := by
      rw [hn', magnitude_normal (e := 1) (m := 0) (by norm_num) (by norm_num) (by norm_num)]
      norm_num
    rw [number_split (by omega) hr2, ← mul_sub, abs_mul, show |(if s = 0 then (1 : ℚ) else -1)| = 1 by split_ifs <;> norm_num, one_mul,
      hm, abs_of_nonneg (by linarith)]
    linarith

end WB.Spec
