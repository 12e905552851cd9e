import Verif.Spec.Pixel
import Mathlib.Tactic.Linarith
import Mathlib.Tactic.NormNum
import Mathlib.Tactic.Ring
import Mathlib.Tactic.FieldSimp
import Mathlib.Data.Set.Finite.Lattice
import Mathlib.Data.Set.Finite.Lemmas
import Mathlib.Data.Int.Interval
import Mathlib.Order.Interval.Finset.Basic

/-! Helper lemmas about rounding pixels. -/

namespace WB

variable {p : ℕ} {emin : ℤ}

theorem two_zpow_pos (e : ℤ) : (0 : ℝ) < 2 ^ e := zpow_pos (by norm_num) e

theorem float_mem (n : ℤ) (e : ℤ) (h : |n| < 2 ^ p) (he : emin ≤ e) : (n : ℝ) * 2 ^ e ∈ FloatNumbers p emin :=
  ⟨n, e, h, he, rfl⟩

/-- A number of the format with a larger exponent is a multiple of the smaller power. -/
theorem multiple {m : ℤ} {e e' : ℤ} (h : e ≤ e') : ∃ q : ℤ, (m : ℝ) * 2 ^ e' = q * 2 ^ e := by
  obtain ⟨d, rfl⟩ := Int.le.dest h
  refine ⟨m * 2 ^ d, ?_⟩
  rw [zpow_add₀ (by norm_num), zpow_natCast]
  push_cast
  ring

theorem small_exponent (hp : 1 ≤ p) {m : ℤ} {e e' : ℤ} (hm : |m| < 2 ^ p) (h : e' < e) : (m : ℝ) * 2 ^ e' < 2 ^ (p - 1) * 2 ^ e := by
  have h1 : (m : ℝ) < 2 ^ p := by
    have := lt_of_le_of_lt (le_abs_self m) hm
    exact_mod_cast this
  have h2 : (2 : ℝ) ^ (e' + 1) ≤ 2 ^ e := zpow_le_zpow_right₀ (by norm_num) (by omega)
  have h3 : (2 : ℝ) ^ p = 2 ^ (p - 1) * 2 := by
    rw [← pow_succ]; congr 1; omega
  have h4 : (2 : ℝ) ^ (e' + 1) = 2 ^ e' * 2 := by rw [zpow_add₀ (by norm_num), zpow_one]
  calc (m : ℝ) * 2 ^ e' < 2 ^ p * 2 ^ e' := by
        exact mul_lt_mul_of_pos_right h1 (two_zpow_pos e')
    _ = 2 ^ (p - 1) * 2 ^ (e' + 1) := by rw [h3, h4]; ring
    _ ≤ 2 ^ (p - 1) * 2 ^ e := by
        apply mul_le_mul_of_nonneg_left h2; positivity

/-- The next larger number is at least one unit away. -/
theorem gap_above (hp : 1 ≤ p) {n : ℤ} {e : ℤ} (hn : 2 ^ (p - 1) ≤ n) {w : ℝ} (hw : w ∈ FloatNumbers p emin)
    (h : (n : ℝ) * 2 ^ e < w) : (n : ℝ) * 2 ^ e + 2 ^ e ≤ w := by
  obtain ⟨m, e', hm, -, rfl⟩ := hw
  rcases lt_or_ge e' e with he | he
  · exfalso
    have := small_exponent hp hm he
    have h2 : ((2 ^ (p - 1) : ℤ) : ℝ) ≤ n := by exact_mod_cast hn
    push_cast at h2
    have := mul_le_mul_of_nonneg_right h2 (two_zpow_pos e).le
    linarith
  · obtain ⟨q, hq⟩ := multiple (m := m) he
    rw [hq] at h ⊢
    have h1 : (n : ℝ) < q := lt_of_mul_lt_mul_right h (two_zpow_pos e).le
    have h2 : n + 1 ≤ q := by
      have : n < q := by exact_mod_cast h1
      omega
    have h3 : ((n + 1 : ℤ) : ℝ) ≤ q := by exact_mod_cast h2
    push_cast at h3
    have := mul_le_mul_of_nonneg_right h3 (two_zpow_pos e).le
    linarith

/-- The next smaller number is at least one unit away, unless the number is a power of two. -/
theorem gap_below (hp : 1 ≤ p) {n : ℤ} {e : ℤ} (hn : 2 ^ (p - 1) < n) {w : ℝ} (hw : w ∈ FloatNumbers p emin)
    (h : w < (n : ℝ) * 2 ^ e) : w ≤ (n : ℝ) * 2 ^ e - 2 ^ e := by
  obtain ⟨m, e', hm, -, rfl⟩ := hw
  rcases lt_or_ge e' e with he | he
  · have := small_exponent hp hm he
    have h2 : ((2 ^ (p - 1) + 1 : ℤ) : ℝ) ≤ n := by exact_mod_cast hn
    push_cast at h2
    have := mul_le_mul_of_nonneg_right h2 (two_zpow_pos e).le
    linarith
  · obtain ⟨q, hq⟩ := multiple (m := m) he
    rw [hq] at h ⊢
    have h1 : (q : ℝ) < n := lt_of_mul_lt_mul_right h (two_zpow_pos e).le
    have h2 : q + 1 ≤ n := by
      have : q < n := by exact_mod_cast h1
      omega
    have h3 : ((q + 1 : ℤ) : ℝ) ≤ n := by exact_mod_cast h2
    push_cast at h3
    have := mul_le_mul_of_nonneg_right h3 (two_zpow_pos e).le
    linarith

/-- Rounding finds a number of the format that is close enough. -/
theorem rounds_to (hp : 1 ≤ p) {f : ℝ → ℝ} (hf : RoundsToNearest (FloatNumbers p emin) f) {n e : ℤ} (h1 : 2 ^ (p - 1) ≤ n)
    (h2 : n < 2 ^ p) (he : emin ≤ e) {y : ℝ} (hy : y < (n : ℝ) * 2 ^ e + 2 ^ e / 2)
    (hy' : (n : ℝ) * 2 ^ e ≤ y ∨ (2 ^ (p - 1) < n ∧ (n : ℝ) * 2 ^ e - 2 ^ e / 2 < y)) : f y = (n : ℝ) * 2 ^ e := by
  obtain ⟨hm, hn⟩ := hf y
  have hz := hn _ (float_mem (emin := emin) n e (by rw [abs_of_nonneg (le_trans (by positivity) h1)]; exact h2) he)
  have he0 := two_zpow_pos e
  rcases lt_trichotomy (f y) ((n : ℝ) * 2 ^ e) with h | h | h
  · exfalso
    rcases hy' with h3 | ⟨h3, h4⟩
    · rw [abs_of_nonpos (by linarith), abs_of_nonpos (by linarith)] at hz
      linarith
    · have := gap_below hp h3 hm h
      rw [abs_of_nonpos (by linarith)] at hz
      have := neg_abs_le ((n : ℝ) * 2 ^ e - y)
      rcases abs_cases ((n : ℝ) * 2 ^ e - y) with ⟨h5, _⟩ | ⟨h5, _⟩ <;> rw [h5] at hz <;> linarith
  · exact h
  · exfalso
    have h3 := gap_above hp h1 hm h
    rw [abs_of_nonneg (by linarith)] at hz
    rcases hy' with h3 | ⟨h3, h4⟩
    · rw [abs_of_nonpos (by linarith)] at hz
      linarith
    · rcases abs_cases ((n : ℝ) * 2 ^ e - y) with ⟨h5, _⟩ | ⟨h5, _⟩ <;> rw [h5] at hz <;> linarith

/-- A number of the format is left alone. -/
theorem rounds_self {S : Set ℝ} {f : ℝ → ℝ} (hf : RoundsToNearest S f) {x : ℝ} (hx : x ∈ S) : f x = x := by
  have := (hf x).2 x hx
  rw [sub_self, abs_zero] at this
  have := abs_nonpos_iff.1 this
  linarith

/-- Rounding to nearest is monotone. -/
theorem rounds_mono {S : Set ℝ} {f : ℝ → ℝ} (hf : RoundsToNearest S f) {x y : ℝ} (h : x ≤ y) : f x ≤ f y := by
  rcases h.eq_or_lt with rfl | h
  · exact le_refl _
  by_contra hc
  push Not at hc
  have h1 := (hf x).2 _ (hf y).1
  have h2 := (hf y).2 _ (hf x).1
  rcases abs_cases (f x - x) with ⟨a, _⟩ | ⟨a, _⟩ <;> rcases abs_cases (f y - x) with ⟨b, _⟩ | ⟨b, _⟩ <;>
    rcases abs_cases (f y - y) with ⟨c, _⟩ | ⟨c, _⟩ <;> rcases abs_cases (f x - y) with ⟨d, _⟩ | ⟨d, _⟩ <;>
    rw [a, b] at h1 <;> rw [c, d] at h2 <;> linarith

theorem nat_mem {p : ℕ} {emin : ℤ} (n : ℕ) (h : n < 2 ^ p) (he : emin ≤ 0) : (n : ℝ) ∈ FloatNumbers p emin := by
  refine ⟨n, 0, ?_, he, by simp⟩
  rw [abs_of_nonneg (by omega)]; exact_mod_cast h

/-- The rounded quotients, for every pixel value except 0 and 255. -/
theorem quotient_table : ∀ k : Fin 255, 0 < k.val →
    2 ^ 23 < (2 * (k.val * 2 ^ (31 - k.val.log2)) + 255) / 510 ∧ (2 * (k.val * 2 ^ (31 - k.val.log2)) + 255) / 510 < 2 ^ 24 ∧
    k.val.log2 ≤ 7 ∧ 2 ^ 23 ≤ k.val * 2 ^ (23 - k.val.log2) ∧ k.val * 2 ^ (23 - k.val.log2) < 2 ^ 24 ∧
    255 * ((2 * (k.val * 2 ^ (31 - k.val.log2)) + 255) / 510) ≤ k.val * 2 ^ (31 - k.val.log2) + 127 ∧
    k.val * 2 ^ (31 - k.val.log2) ≤ 255 * ((2 * (k.val * 2 ^ (31 - k.val.log2)) + 255) / 510) + 127 ∧
    (k.val * 2 ^ (23 - k.val.log2) = 2 ^ 23 → k.val * 2 ^ (31 - k.val.log2) ≤ 255 * ((2 * (k.val * 2 ^ (31 - k.val.log2)) + 255) / 510)) := by
  decide +kernel

/-- The quotient of a pixel, rounded twice, times 255, rounded again, is the pixel. -/
theorem pixel_back {r : Rounding} (hr : r.IEEE) (k : ℕ) (hk : k < 256) :
    0 ≤ r.toFloat (r.toDouble (k / 255)) ∧ r.toFloat (r.toDouble (k / 255)) ≤ 1 ∧
      r.toFloat (r.toFloat (r.toDouble (k / 255)) * 255) = k := by
  obtain ⟨hf, hd⟩ := hr
  have fn : ∀ n : ℕ, n < 2 ^ 24 → r.toFloat n = n := fun n h => rounds_self hf (nat_mem n h (by norm_num))
  have dn : ∀ n : ℕ, n < 2 ^ 53 → r.toDouble n = n := fun n h => rounds_self hd (nat_mem n h (by norm_num))
  have f0 := fn 0 (by norm_num); have f1 := fn 1 (by norm_num); have f255 := fn 255 (by norm_num)
  have d0 := dn 0 (by norm_num); have d1 := dn 1 (by norm_num)
  push_cast at f0 f1 f255 d0 d1
  rcases Nat.eq_zero_or_pos k with rfl | hpos
  · simp [f0, d0]
  rcases (by omega : k = 255 ∨ k < 255) with rfl | hk'
  · have e : ((255 : ℕ) : ℝ) / 255 = 1 := by norm_num
    rw [e, d1, f1]; norm_num [f255]
  obtain ⟨t1, t2, t3, t4, t5, t6, t7, t8⟩ := quotient_table ⟨k, hk'⟩ hpos
  simp only at t1 t2 t3 t4 t5 t6 t7 t8
  set m := k.log2 with hm
  set N := k * 2 ^ (31 - m) with hN
  set n := (2 * N + 255) / 510 with hn
  have hNn : N = k * 2 ^ (23 - m) * 256 := by
    rw [hN, show 31 - m = (23 - m) + 8 by omega, pow_add]; ring
  set n' := k * 2 ^ (23 - m) with hn'
  clear_value n n'
  -- one unit of the quotient
  set u : ℝ := 2 ^ ((m : ℤ) - 31) with hu
  have hu0 : 0 < u := two_zpow_pos _
  have hu1 : (2 : ℝ) ^ (-31 : ℤ) ≤ u := zpow_le_zpow_right₀ (by norm_num) (by omega)
  have hk1 : (k : ℝ) = N * u := by
    rw [hN, hu, Nat.cast_mul, Nat.cast_pow, mul_assoc, Nat.cast_ofNat, ← zpow_natCast, ← zpow_add₀ (by norm_num)]
    have : (((31 - m : ℕ) : ℤ) + ((m : ℤ) - 31)) = 0 := by omega
    rw [this]; simp
  have hu256 : (2 : ℝ) ^ ((m : ℤ) - 23) = 256 * u := by
    rw [hu, show (m : ℤ) - 23 = 8 + ((m : ℤ) - 31) by ring, zpow_add₀ (by norm_num)]; norm_num
  -- the double
  have hq0 : (0 : ℝ) ≤ k / 255 := by positivity
  have hq1 : (k : ℝ) / 255 ≤ 1 := by
    rw [div_le_one (by norm_num)]; exact_mod_cast hk'.le
  have hdq : |r.toDouble (k / 255) - k / 255| ≤ 2 ^ (-52 : ℤ) := by
    set j := ⌊(k : ℝ) / 255 * 2 ^ 52⌋₊ with hj
    have j1 : (j : ℝ) ≤ k / 255 * 2 ^ 52 := Nat.floor_le (by positivity)
    have j2 : (k : ℝ) / 255 * 2 ^ 52 < j + 1 := Nat.lt_floor_add_one _
    have j3 : (j : ℝ) < 2 ^ 53 := by
      calc (j : ℝ) ≤ k / 255 * 2 ^ 52 := j1
        _ ≤ 1 * 2 ^ 52 := by apply mul_le_mul_of_nonneg_right hq1; positivity
        _ < 2 ^ 53 := by norm_num
    have j4 : j < 2 ^ 53 := by exact_mod_cast j3
    have := (hd (k / 255)).2 _ (float_mem (p := 53) (emin := -1074) (j : ℤ) (-52) (by
      rw [abs_of_nonneg (by omega)]; exact_mod_cast j4) (by norm_num))
    refine this.trans ?_
    have e52 : (2 : ℝ) ^ (-52 : ℤ) = 1 / 2 ^ 52 := by norm_num
    rw [e52, abs_le]
    push_cast
    constructor
    · have : (k : ℝ) / 255 < (j + 1) / 2 ^ 52 := by rw [lt_div_iff₀ (by positivity)]; exact j2
      have e : ((j : ℝ) + 1) / 2 ^ 52 = j * (1 / 2 ^ 52) + 1 / 2 ^ 52 := by ring
      rw [e] at this
      linarith
    · have : (j : ℝ) / 2 ^ 52 ≤ k / 255 := by rw [div_le_iff₀ (by positivity)]; exact j1
      have e : (j : ℝ) / 2 ^ 52 = j * (1 / 2 ^ 52) := by ring
      rw [e] at this
      have : (0 : ℝ) < 1 / 2 ^ 52 := by positivity
      linarith
  -- the float
  have r6 : (255 : ℝ) * n ≤ N + 127 := by exact_mod_cast t6
  have r7 : (N : ℝ) ≤ 255 * n + 127 := by exact_mod_cast t7
  have hsmall : (2 : ℝ) ^ (-52 : ℤ) ≤ u / 1000 := by
    calc (2 : ℝ) ^ (-52 : ℤ) ≤ 2 ^ (-31 : ℤ) / 1000 := by norm_num
      _ ≤ u / 1000 := by gcongr
  obtain ⟨a1, a2⟩ := abs_le.1 hdq
  have hfl : r.toFloat (r.toDouble (k / 255)) = n * u := by
    have hkq : (k : ℝ) / 255 = N * u / 255 := by rw [hk1]
    have := rounds_to (p := 24) (by norm_num) hf (n := (n : ℤ)) (e := (m : ℤ) - 31) (by norm_num; omega) (by norm_num; omega)
      (by omega) (y := r.toDouble (k / 255)) (by
        rw [← hu]; push_cast
        have : N * u / 255 ≤ (n + 127 / 255) * u := by nlinarith
        nlinarith) (Or.inr ⟨by norm_num; omega, by
        rw [← hu]; push_cast
        have : (n - 127 / 255) * u ≤ N * u / 255 := by nlinarith
        nlinarith⟩)
    rw [this]; push_cast; rfl
  rw [hfl]
  have hn24 : (n : ℝ) ≤ 2 ^ 24 := by exact_mod_cast t2.le
  have hu24 : u ≤ 2 ^ (-24 : ℤ) := zpow_le_zpow_right₀ (by norm_num) (by omega)
  have hle1 : (n : ℝ) * u ≤ 1 := by
    calc (n : ℝ) * u ≤ 2 ^ 24 * 2 ^ (-24 : ℤ) := mul_le_mul hn24 hu24 hu0.le (by positivity)
      _ = 1 := by norm_num
  refine ⟨by positivity, hle1, ?_⟩
  have hkn : (k : ℝ) = n' * (256 * u) := by
    rw [hk1, hNn]; push_cast; ring
  have := rounds_to (p := 24) (by norm_num) hf (n := (n' : ℤ)) (e := (m : ℤ) - 23) (by norm_num; omega) (by norm_num; omega)
    (by omega) (y := n * u * 255) (by
      rw [hu256]; push_cast; rw [← hkn, hk1]; nlinarith) (by
      rw [hu256]; push_cast; rw [← hkn, hk1]
      by_cases h : n' = 2 ^ 23
      · left
        have : (N : ℝ) ≤ 255 * n := by exact_mod_cast t8 h
        nlinarith
      · right
        refine ⟨by norm_num; omega, by nlinarith⟩)
  rw [this, hu256]; push_cast; exact hkn.symm

/-- Every number has a nearest one in a format. -/
theorem nearest_exists (p : ℕ) (emin : ℤ) (x : ℝ) :
    ∃ z ∈ FloatNumbers p emin, ∀ y ∈ FloatNumbers p emin, |z - x| ≤ |y - x| := by
  have h0 : (0 : ℝ) ∈ FloatNumbers p emin := ⟨0, emin, by simp, le_refl _, by simp⟩
  set S : Set ℝ := {y ∈ FloatNumbers p emin | |y - x| ≤ |0 - x|} with hS
  have hfin : S.Finite := by
    obtain ⟨B, hB⟩ := exists_nat_gt (2 * |x| / (2 : ℝ) ^ emin)
    have hpos := two_zpow_pos emin
    rw [div_lt_iff₀ hpos] at hB
    refine ((Set.finite_Icc (-(B : ℤ)) B).image (fun j : ℤ => (j : ℝ) * 2 ^ emin)).subset ?_
    rintro y ⟨⟨m, e, hm, he, rfl⟩, hy⟩
    obtain ⟨q, hq⟩ := multiple (m := m) he
    refine ⟨q, ?_, hq.symm⟩
    rw [hq] at hy
    have hb : |(q : ℝ) * 2 ^ emin| ≤ 2 * |x| := by
      calc |(q : ℝ) * 2 ^ emin| = |(q * 2 ^ emin - x) + x| := by ring_nf
        _ ≤ |(q : ℝ) * 2 ^ emin - x| + |x| := abs_add_le _ _
        _ ≤ |0 - x| + |x| := by linarith
        _ = 2 * |x| := by rw [zero_sub, abs_neg]; ring
    rw [abs_mul, abs_of_pos hpos] at hb
    have h1 : |(q : ℝ)| < B := lt_of_mul_lt_mul_right (lt_of_le_of_lt hb hB) hpos.le
    have h2 : |q| < B := by exact_mod_cast h1
    rw [abs_lt] at h2
    exact ⟨by omega, by omega⟩
  obtain ⟨z, hz, hmin⟩ := Set.exists_min_image S (fun y => |y - x|) hfin ⟨0, h0, le_refl _⟩
  refine ⟨z, hz.1, fun y hy => ?_⟩
  by_cases h : |y - x| ≤ |0 - x|
  · exact hmin y ⟨hy, h⟩
  · exact hz.2.trans (not_le.1 h).le

end WB
