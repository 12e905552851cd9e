import Verif.Spec.Mantissa
import Verif.Proof.LevelOrder
import Verif.Proof.FloatBits

/-!
Which floats have few bits in the mantissa.
-/

namespace WB.Props

open Spec

/-- The last `k` bits of the mantissa are 0 if and only if the number belongs to the format with `23 - k` bits. -/
theorem magnitude_small {n k : ℕ} (hk : k ≤ 23) : ((magnitude n : ℚ) : ℝ) ∈ SmallFloats (23 - k) ↔ 2 ^ k ∣ n := by
  have hp : (2 : ℝ) ≠ 0 := by norm_num
  have e23 : (2 : ℕ) ^ 23 = 2 ^ k * 2 ^ (23 - k) := by rw [← pow_add]; congr 1; omega
  have hdv : (2 : ℕ) ^ k ∣ 2 ^ 23 := pow_dvd_pow 2 hk
  have hkz : ((23 - k : ℕ) : ℤ) = 23 - k := by omega
  have hsg : 2 ^ k ∣ sgnf n ↔ 2 ^ k ∣ n := by
    unfold sgnf
    split
    · exact Iff.rfl
    · rw [Nat.dvd_add_left hdv, Nat.dvd_mod_iff hdv]
  rw [← hsg, magnitude_sgnf]
  constructor
  · rintro ⟨q, e, h1, h2, h3⟩
    push_cast at h3
    rw [hkz] at h2
    obtain ⟨d, hd⟩ | hlt : (∃ d : ℕ, e = lastPlace n + d) ∨ e < lastPlace n := by
      rcases lt_or_ge e (lastPlace n) with h | h
      · exact .inr h
      · exact .inl ⟨(e - lastPlace n).toNat, by omega⟩
    · have h4 : (sgnf n : ℤ) = q * 2 ^ d := by
        rw [hd, zpow_add₀ hp, mul_comm ((2 : ℝ) ^ lastPlace n), ← mul_assoc] at h3
        have := mul_right_cancel₀ (zpow_ne_zero _ hp) h3
        rw [zpow_natCast] at this
        exact_mod_cast this
      have hkd : k ≤ d ∨ d < k := le_or_gt _ _
      rcases hkd with hkd | hkd
      · have : ((2 ^ k : ℕ) : ℤ) ∣ (sgnf n : ℤ) := by
          rw [h4]
          push_cast
          exact Dvd.dvd.mul_left (pow_dvd_pow 2 hkd) q
        exact_mod_cast this
      · -- only a subnormal number could be so small, and then `e` is too small
        exfalso
        have h5 : (sgnf n : ℤ) < 2 ^ 23 := by
          rw [h4]
          calc q * 2 ^ d ≤ |q| * 2 ^ d := mul_le_mul_of_nonneg_right (le_abs_self q) (by positivity)
            _ < 2 ^ (23 - k + 1) * 2 ^ d := mul_lt_mul_of_pos_right h1 (by positivity)
            _ = 2 ^ (23 - k + 1 + d) := (pow_add _ _ _).symm
            _ ≤ 2 ^ 23 := pow_le_pow_right₀ (by norm_num) (by omega)
        have h6 : n / 2 ^ 23 = 0 := by
          by_contra hc
          have h5 : sgnf n < 2 ^ 23 := by exact_mod_cast h5
          unfold sgnf at h5
          rw [if_neg hc] at h5
          omega
        have : lastPlace n = -149 := by unfold lastPlace; rw [h6]; rfl
        omega
    · exfalso
      obtain ⟨d, hd, hd0⟩ : ∃ d : ℕ, lastPlace n = e + d ∧ 0 < d := ⟨(lastPlace n - e).toNat, by omega, by omega⟩
      have h4 : (sgnf n : ℤ) * 2 ^ d = q := by
        rw [hd, zpow_add₀ hp, mul_comm ((2 : ℝ) ^ e), ← mul_assoc] at h3
        have := mul_right_cancel₀ (zpow_ne_zero _ hp) h3
        rw [zpow_natCast] at this
        exact_mod_cast this
      by_cases h6 : n / 2 ^ 23 = 0
      · have : lastPlace n = -149 := by unfold lastPlace; rw [h6]; rfl
        omega
      · have h5 : (2 : ℤ) ^ 23 ≤ sgnf n := by
          have : 2 ^ 23 ≤ sgnf n := by unfold sgnf; rw [if_neg h6]; omega
          exact_mod_cast this
        have h7 : (2 : ℤ) ^ (23 + d) ≤ q := by
          rw [← h4, pow_add]
          exact mul_le_mul_of_nonneg_right h5 (by positivity)
        have h8 : (2 : ℤ) ^ (23 - k + 1) ≤ 2 ^ (23 + d) := pow_le_pow_right₀ (by norm_num) (by omega)
        have := le_abs_self q
        omega
  · rintro ⟨c, hc⟩
    refine ⟨c, lastPlace n + k, ?_, ?_, ?_⟩
    · have h1 := sgnf_lt n
      rw [hc, show (2 : ℕ) ^ 24 = 2 ^ k * 2 ^ (23 - k + 1) by rw [← pow_add]; congr 1; omega] at h1
      have := Nat.lt_of_mul_lt_mul_left h1
      rw [abs_of_nonneg (by positivity)]
      exact_mod_cast this
    · unfold lastPlace
      omega
    · rw [hc]
      push_cast
      rw [zpow_add₀ hp, zpow_natCast]
      ring

theorem neg_small {m : ℕ} {v : ℝ} : -v ∈ SmallFloats m ↔ v ∈ SmallFloats m := by
  have : ∀ {v : ℝ}, v ∈ SmallFloats m → -v ∈ SmallFloats m := by
    rintro v ⟨q, e, h1, h2, rfl⟩
    exact ⟨-q, e, by rwa [abs_neg], h2, by push_cast; ring⟩
  exact ⟨fun h => by simpa using this h, this⟩

theorem abs_small {m : ℕ} {v : ℝ} : |v| ∈ SmallFloats m ↔ v ∈ SmallFloats m := by
  rcases abs_choice v with h | h <;> rw [h]
  exact neg_small

theorem number_small {x : F32} {k : ℕ} (hk : k ≤ 23) : ((number x : ℚ) : ℝ) ∈ SmallFloats (23 - k) ↔ 2 ^ k ∣ x.toNat % 2 ^ 31 := by
  rw [← magnitude_small hk, ← abs_number, ← abs_small]
  push_cast
  exact Iff.rfl

theorem small_mono {m m' : ℕ} (h : m ≤ m') {v : ℝ} (hv : v ∈ SmallFloats m) : v ∈ SmallFloats m' := by
  obtain ⟨q, e, h1, h2, h3⟩ := hv
  exact ⟨q, e, lt_of_lt_of_le h1 (pow_le_pow_right₀ (by norm_num) (by omega)), by omega, h3⟩

theorem trunc_of_dvd {x : F32} {p : ℕ} (hp : 1 ≤ p) (h : 2 ^ (32 - p) ∣ x.toNat % 2 ^ 31) : truncBits p x = x := by
  apply BitVec.eq_of_toNat_eq
  rw [truncBits_toNat]
  refine Nat.div_mul_cancel ?_
  rwa [Nat.dvd_mod_iff (pow_dvd_pow 2 (by omega))] at h

theorem trunc_is_small {x : F32} {p : ℕ} (hp : 9 ≤ p) : ((number (truncBits p x) : ℚ) : ℝ) ∈ SmallFloats (23 - (32 - p)) := by
  rw [number_small (by omega), truncBits_toNat, Nat.dvd_mod_iff (pow_dvd_pow 2 (by omega))]
  exact Nat.dvd_mul_left _ _

theorem trunc_cut {x : F32} {p : ℕ} (hp : 9 ≤ p) (h32 : p ≤ 32) (hx : finiteBits x) :
    CutInto (SmallFloats (23 - (32 - p))) ((number x : ℚ) : ℝ) ((number (truncBits p x) : ℚ) : ℝ) := by
  refine ⟨trunc_is_small hp, trunc_toward (by omega) x, fun v hv ht => ?_⟩
  have hle : |v| ≤ |((number x : ℚ) : ℝ)| := by
    rcases ht with ⟨a, b⟩ | ⟨a, b⟩
    · rw [abs_of_nonneg a]; exact b.trans (le_abs_self _)
    · rw [abs_of_nonpos b, abs_of_nonpos (a.trans b)]; exact neg_le_neg a
  have h24 : v ∈ FloatNumbers 24 (-149) := small_mono (show 23 - (32 - p) ≤ 23 by omega) hv
  obtain ⟨y, hy, rfl⟩ := number_surj h24 (hle.trans (by have := number_le_max hx; exact this))
  rw [number_small (by omega)] at hv
  have hm : magnitude (y.toNat % 2 ^ 31) ≤ magnitude (x.toNat % 2 ^ 31) := by
    rw [← abs_number, ← abs_number]
    exact_mod_cast hle
  suffices magnitude (y.toNat % 2 ^ 31) ≤ magnitude (x.toNat % 2 ^ 31 / 2 ^ (32 - p) * 2 ^ (32 - p)) by
    have e : |number (truncBits p x)| = magnitude (x.toNat % 2 ^ 31 / 2 ^ (32 - p) * 2 ^ (32 - p)) := by
      rw [number_trunc (by omega), abs_mul, abs_signOf, one_mul, abs_of_nonneg (magnitude_nonneg _)]
    rw [← abs_number, ← e] at this
    exact_mod_cast this
  rcases le_or_gt (y.toNat % 2 ^ 31) (x.toNat % 2 ^ 31 / 2 ^ (32 - p) * 2 ^ (32 - p)) with h | h
  · exact magnitude_mono h
  · obtain ⟨c, hc⟩ := hv
    have h1 : x.toNat % 2 ^ 31 < y.toNat % 2 ^ 31 := by
      rw [hc, Nat.mul_comm] at h ⊢
      have := Nat.lt_of_mul_lt_mul_left h
      exact (Nat.div_lt_iff_lt_mul (by positivity)).1 this
    have h2 := le_antisymm hm (magnitude_mono h1.le)
    have h3 : ((magnitude (x.toNat % 2 ^ 31) : ℚ) : ℝ) ∈ SmallFloats (23 - (32 - p)) := by
      rw [← h2, magnitude_small (by omega)]
      exact ⟨c, hc⟩
    rw [magnitude_small (by omega)] at h3
    rw [Nat.div_mul_cancel h3]
    exact hm

theorem cellwise_of_cut {p : ℕ} {b b' : Buffer F32} {P : F32 → F32 → Prop} (h : CutTo p b b') (hf : AllFinite b)
    (hP : ∀ x y : F32, finiteBits x → SameExceptZeroSign y (truncBits p x) → P x y) : Cellwise P b b' := by
  refine ⟨h.1, ?_⟩
  rw [List.forall₂_iff_get]
  refine ⟨h.2.length_eq, fun n h1 h2 => ?_⟩
  have g := h.2.get h1 h2
  rw [List.forall₂_iff_get]
  refine ⟨g.length_eq, fun l h3 h4 => ?_⟩
  have g2 := g.get h3 h4
  exact ⟨g2.1, g2.2.1, fun i hi j hj => hP _ _ (hf _ (List.get_mem _ _) _ (List.get_mem _ _) i hi j hj) (g2.2.2 i hi j hj)⟩

end WB.Props
