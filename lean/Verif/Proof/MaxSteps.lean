import Verif.Model.MaxSteps
import Verif.Spec.MaxSteps
import Verif.Proof.Pixel
import Verif.Proof.Params

/-!
The number of steps as it is computed, in `double`.
-/

set_option linter.unusedSectionVars false

namespace WB

open Spec

theorem dbl_scaled {m : ℕ} (hm : m < 2 ^ 53) {e : ℤ} (he : -1074 ≤ e) : (m : ℝ) * 2 ^ e ∈ FloatNumbers 53 (-1074) := by
  refine ⟨m, e, ?_, he, by push_cast; rfl⟩
  rw [abs_of_nonneg (by positivity)]
  exact_mod_cast hm

theorem dbl_pow {m : ℕ} (hm : m < 2 ^ 53) (k : ℕ) : (m : ℝ) * 2 ^ k ∈ FloatNumbers 53 (-1074) := by
  have := dbl_scaled hm (e := k) (by omega)
  rwa [zpow_natCast] at this

section
variable {rnd log2 : ℝ → ℝ} (hr : RoundsToNearest (FloatNumbers 53 (-1074)) rnd) (hl : Log2Accurate log2)
include hr

theorem nearest_ge {x c : ℝ} (hc : c ∈ FloatNumbers 53 (-1074)) (h : c ≤ x) : c ≤ rnd x := by
  have := rounds_mono hr h
  rwa [rounds_self hr hc] at this

theorem nearest_le {x c : ℝ} (hc : c ∈ FloatNumbers 53 (-1074)) (h : x ≤ c) : rnd x ≤ c := by
  have := rounds_mono hr h
  rwa [rounds_self hr hc] at this

/-- The rounded quotient reaches a power of two that the exact one reaches. -/
theorem quotient_ge {n d s : ℕ} (hd : 0 < d) (hd53 : d < 2 ^ 53) (h : 2 ^ s * d ≤ n) : (2 : ℝ) ^ s ≤ rnd (rnd n / d) := by
  have h1 : ((d : ℝ) * 2 ^ s) ≤ rnd n := nearest_ge hr (dbl_pow hd53 s) (by exact_mod_cast (by linarith : d * 2 ^ s ≤ n))
  have hd' : (0 : ℝ) < d := by exact_mod_cast hd
  have h2 : (2 : ℝ) ^ s ≤ rnd n / d := by rw [le_div_iff₀ hd']; linarith
  have := nearest_ge hr (c := ((1 : ℕ) : ℝ) * 2 ^ s) (dbl_pow (by norm_num) s) (x := rnd n / d) (by push_cast; linarith)
  push_cast at this
  linarith

theorem quotient_le {n d s : ℕ} (hd : 0 < d) (hd53 : d < 2 ^ 53) (h : n ≤ 2 ^ s * d) : rnd (rnd n / d) ≤ (2 : ℝ) ^ s := by
  have h1 : rnd n ≤ ((d : ℝ) * 2 ^ s) := nearest_le hr (dbl_pow hd53 s) (by exact_mod_cast (by linarith : n ≤ d * 2 ^ s))
  have hd' : (0 : ℝ) < d := by exact_mod_cast hd
  have h2 : rnd n / d ≤ (2 : ℝ) ^ s := by rw [div_le_iff₀ hd']; linarith
  have := nearest_le hr (c := ((1 : ℕ) : ℝ) * 2 ^ s) (dbl_pow (by norm_num) s) (x := rnd n / d) (by push_cast; linarith)
  push_cast at this
  linarith

/-- A quotient of numbers below 2^46 stays away from the powers of two above it. -/
theorem quotient_lt {n d k : ℕ} (hd : 0 < d) (hn : n < 2 ^ 46) (h : n < 2 ^ k * d) (hk : 2 ^ k * d ≤ 2 * n) :
    rnd (rnd n / d) ≤ (2 : ℝ) ^ k * (1 - 2 ^ (-47 : ℤ)) := by
  have hd' : (0 : ℝ) < d := by exact_mod_cast hd
  have e : rnd n = n := by
    have := dbl_pow (m := n) (by omega) 0
    simp only [pow_zero, mul_one] at this
    exact rounds_self hr this
  rw [e]
  have hc : (2 : ℝ) ^ k * (1 - 2 ^ (-47 : ℤ)) = ((2 ^ 47 - 1 : ℕ) : ℝ) * 2 ^ ((k : ℤ) - 47) := by
    rw [zpow_sub₀ (by norm_num), zpow_natCast]
    norm_num
    ring
  rw [hc]
  refine nearest_le hr (dbl_scaled (by norm_num) (by omega)) ?_
  rw [← hc, div_le_iff₀ hd']
  have h1 : (n : ℝ) + 1 ≤ 2 ^ k * d := by exact_mod_cast h
  have h2 : (2 : ℝ) ^ k * d ≤ 2 ^ 47 := by
    have : 2 ^ k * d ≤ 2 ^ 47 := by omega
    exact_mod_cast this
  have h3 : (2 : ℝ) ^ k * d * 2 ^ (-47 : ℤ) ≤ 1 := by
    have : (2 : ℝ) ^ (-47 : ℤ) = 1 / 2 ^ 47 := by norm_num
    rw [this, mul_one_div, div_le_one (by positivity)]
    exact h2
  nlinarith

include hl

theorem log_lt {x : ℝ} {k : ℕ} (h1 : 1 ≤ x) (hk : k ≤ 64) (h : x ≤ 2 ^ k * (1 - 2 ^ (-47 : ℤ))) : log2 x < k := by
  have hle : x ≤ 2 ^ 64 := by
    have : (2 : ℝ) ^ k ≤ 2 ^ 64 := pow_le_pow_right₀ (by norm_num) hk
    have h0 : (0 : ℝ) < 2 ^ k := by positivity
    have h3 : (1 : ℝ) - 2 ^ (-47 : ℤ) ≤ 1 := by norm_num
    nlinarith
  refine lt_of_le_of_lt (hl.near x h1 hle) ?_
  have hx0 : 0 < x := by linarith
  have hb : Real.logb 2 x ≤ Real.logb 2 (2 ^ k * (1 - 2 ^ (-47 : ℤ))) := Real.logb_le_logb_of_le (by norm_num) hx0 h
  rw [Real.logb_mul (by positivity) (by norm_num)] at hb
  have hp : Real.logb 2 ((2 : ℝ) ^ k) = k := by
    rw [Real.logb_pow, Real.logb_self_eq_one (by norm_num), mul_one]
  rw [hp] at hb
  have hlog : Real.logb 2 (1 - 2 ^ (-47 : ℤ)) < -2 ^ (-47 : ℤ) := by
    unfold Real.logb
    have hl2 : 0 < Real.log 2 := Real.log_pos (by norm_num)
    have hl1 : Real.log 2 < 1 := by
      have := Real.log_lt_sub_one_of_pos (x := 2) (by norm_num) (by norm_num)
      linarith
    have h4 : Real.log (1 - 2 ^ (-47 : ℤ)) ≤ -2 ^ (-47 : ℤ) := by
      have := Real.log_le_sub_one_of_pos (x := 1 - (2 : ℝ) ^ (-47 : ℤ)) (by norm_num)
      linarith
    rw [div_lt_iff₀ hl2]
    have h5 : (0 : ℝ) < 2 ^ (-47 : ℤ) := by positivity
    nlinarith
  linarith

theorem stepsDouble_ge {t : ℕ} (ht : t ≠ 0) (ht30 : t < 2 ^ 30) {shape : List ℕ} {s : ℕ} (h : 2 ^ s * (2 * t - 1) ≤ Params.shortest shape) :
    (s : ℤ) ≤ maxStepsDouble rnd log2 t shape := by
  unfold maxStepsDouble
  rw [if_neg ht, Int.le_floor]
  have hcast : (2 * (t : ℝ) - 1) = ((2 * t - 1 : ℕ) : ℝ) := by
    rw [Nat.cast_sub (by omega)]; push_cast; ring
  rw [hcast]
  exact_mod_cast hl.reaches s _ (quotient_ge hr (by omega) (by omega) h)

theorem stepsDouble_lt {t : ℕ} (ht : t ≠ 0) (ht30 : t < 2 ^ 30) {shape : List ℕ} (hn : Params.shortest shape < 2 ^ 46)
    (hmin : 2 * t - 1 ≤ Params.shortest shape) {s : ℕ} (h : Params.shortest shape < 2 ^ s * (2 * t - 1)) :
    maxStepsDouble rnd log2 t shape < s := by
  unfold maxStepsDouble
  rw [if_neg ht, Int.floor_lt]
  have hcast : (2 * (t : ℝ) - 1) = ((2 * t - 1 : ℕ) : ℝ) := by
    rw [Nat.cast_sub (by omega)]; push_cast; ring
  rw [hcast]
  set n := Params.shortest shape
  set d := 2 * t - 1 with hd
  have hd0 : 0 < d := by omega
  obtain ⟨k, hk1, hk2, hk3⟩ : ∃ k, n < 2 ^ k * d ∧ 2 ^ k * d ≤ 2 * n ∧ k ≤ s := by
    have hq : n / d ≠ 0 := by
      have := Nat.div_pos hmin hd0
      omega
    refine ⟨Nat.log2 (n / d) + 1, ?_, ?_, ?_⟩
    · have := Nat.lt_log2_self (n := n / d)
      rwa [Nat.div_lt_iff_lt_mul hd0] at this
    · have := (Nat.le_div_iff_mul_le hd0).1 (Nat.log2_self_le hq)
      rw [pow_succ]
      linarith
    · by_contra hc
      have h1 : 2 ^ s ≤ 2 ^ Nat.log2 (n / d) := Nat.pow_le_pow_right (by norm_num) (by omega)
      have h2 := (Nat.le_div_iff_mul_le hd0).1 (Nat.log2_self_le hq)
      have h3 : 2 ^ s * d ≤ 2 ^ Nat.log2 (n / d) * d := Nat.mul_le_mul_right _ h1
      omega
  have hk64 : k ≤ 64 := by
    by_contra hc
    have h1 : 2 ^ 64 ≤ 2 ^ k := Nat.pow_le_pow_right (by norm_num) (by omega)
    have h2 : 2 ^ k ≤ 2 ^ k * d := Nat.le_mul_of_pos_right _ hd0
    omega
  have hge := quotient_ge hr (n := n) (d := d) (s := 0) hd0 (by omega) (by omega)
  simp only [pow_zero] at hge
  have := log_lt hr hl hge hk64 (quotient_lt hr hd0 hn hk1 hk2)
  have hks : (k : ℝ) ≤ s := by exact_mod_cast hk3
  push_cast
  linarith

theorem stepsDouble_near {t : ℕ} (ht : t ≠ 0) (ht30 : t < 2 ^ 30) {shape : List ℕ} (hn : Params.shortest shape < 2 ^ 64)
    (hmin : 2 * t - 1 ≤ Params.shortest shape) {s : ℕ} (h : Params.shortest shape < 2 ^ s * (2 * t - 1)) :
    maxStepsDouble rnd log2 t shape ≤ s := by
  have hlt : maxStepsDouble rnd log2 t shape < s + 1 := by
    unfold maxStepsDouble
    rw [if_neg ht, Int.floor_lt]
    have hcast : (2 * (t : ℝ) - 1) = ((2 * t - 1 : ℕ) : ℝ) := by
      rw [Nat.cast_sub (by omega)]; push_cast; ring
    rw [hcast]
    set n := Params.shortest shape
    set d := 2 * t - 1 with hd
    have hd0 : 0 < d := by omega
    have hge := quotient_ge hr (n := n) (d := d) (s := 0) hd0 (by omega) (by omega)
    simp only [pow_zero] at hge
    have h64 := quotient_le hr (n := n) (d := d) (s := 64) hd0 (by omega) (by
      have : 2 ^ 64 ≤ 2 ^ 64 * d := Nat.le_mul_of_pos_right _ hd0
      omega)
    have hs := quotient_le hr (n := n) (d := d) (s := s) hd0 (by omega) h.le
    have h1 := hl.near _ hge h64
    have h2 : Real.logb 2 (rnd (rnd n / d)) ≤ s := by
      have hb := Real.logb_le_logb_of_le (b := 2) (by norm_num) (by linarith) hs
      rwa [Real.logb_pow, Real.logb_self_eq_one (by norm_num), mul_one] at hb
    have h3 : (2 : ℝ) ^ (-47 : ℤ) < 1 := by norm_num
    push_cast
    linarith
  omega

end

section
variable {α : Type} {rnd log2 : ℝ → ℝ}

/-- The two constructors differ in the bound only. -/
theorem ctorDouble_eq {p : Params} (h : p.wtype < 2 ^ 30 → 2 * p.wtype ≤ Params.shortest p.shape → (p.shape.length = 1 ∨ p.shape.length = 2) →
    ((p.steps : ℤ) ≤ maxStepsDouble rnd log2 p.wtype p.shape ↔ p.steps ≤ maxSteps p.wtype p.shape)) :
    ctorDouble (α := α) rnd log2 p = ctor p := by
  unfold ctorDouble ctor
  by_cases h1 : p.dimension ≠ 2 ∧ p.dimension ≠ 1
  · rw [if_pos h1, if_pos h1]
  rw [if_neg h1, if_neg h1]
  by_cases h2 : 2 ^ 30 ≤ p.wtype
  · rw [if_pos h2, if_pos h2]
  rw [if_neg h2, if_neg h2]
  by_cases h3 : Params.shortest p.shape < p.wtype * 2
  · rw [if_pos h3, if_pos h3]
  rw [if_neg h3, if_neg h3]
  have := h (by omega) (by omega) (by unfold Params.dimension at h1; omega)
  by_cases h4 : p.steps ≤ maxSteps p.wtype p.shape
  · rw [if_neg (not_lt.2 (this.2 h4)), if_neg (not_lt.2 h4)]
  · rw [if_pos (not_le.1 fun hc => h4 (this.1 hc)), if_pos (not_le.1 h4)]

/-- Parameters that are accepted. -/
theorem ctorDouble_ok {p : Params} {b : Buffer α} (h : ctorDouble rnd log2 p = .ok b) :
    (p.shape.length = 1 ∨ p.shape.length = 2) ∧ p.wtype < 2 ^ 30 ∧ 2 * p.wtype ≤ Params.shortest p.shape ∧
      (p.steps : ℤ) ≤ maxStepsDouble rnd log2 p.wtype p.shape := by
  unfold ctorDouble at h
  by_cases h1 : p.dimension ≠ 2 ∧ p.dimension ≠ 1
  · rw [if_pos h1] at h; cases h
  rw [if_neg h1] at h
  by_cases h2 : 2 ^ 30 ≤ p.wtype
  · rw [if_pos h2] at h; cases h
  rw [if_neg h2] at h
  by_cases h3 : Params.shortest p.shape < p.wtype * 2
  · rw [if_pos h3] at h; cases h
  rw [if_neg h3] at h
  by_cases h4 : (p.steps : ℤ) > maxStepsDouble rnd log2 p.wtype p.shape
  · rw [if_pos h4] at h; cases h
  exact ⟨by unfold Params.dimension at h1; omega, by omega, by omega, not_lt.1 h4⟩

end

end WB
