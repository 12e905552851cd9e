import Verif.Proof.Pixel
import Verif.Model.Quality
import Verif.Spec.Quality

/-! Helper lemmas about the quality of the JPEG codecs. -/

namespace WB

/-- The `float` next to k/100 is `qn k / 2 ^ (23 + qL k)`. -/
def qL (k : ℕ) : ℕ := Nat.log2 (99 / k) + 1

/-- See `qL`. -/
def qn (k : ℕ) : ℕ := (2 * k * 2 ^ (23 + qL k) + 100) / 200

/-- Facts about the percentages that are not binary fractions. -/
theorem quality_table : ∀ k : Fin 100, 0 < k.val → k.val ≠ 25 → k.val ≠ 50 → k.val ≠ 75 →
    2 ^ 23 < qn k ∧ qn k < 2 ^ 24 ∧ qL k ≤ 7 ∧ 100 * qn k ≤ k.val * 2 ^ (23 + qL k) + 49 ∧ k.val * 2 ^ (23 + qL k) ≤ 100 * qn k + 49 ∧
    200 * qn k ≤ (2 * k.val + 1) * 2 ^ (23 + qL k) := by
  decide +kernel

/-- The exponent of the numbers just below k. -/
def qE (k : ℕ) : ℕ := Nat.log2 (k - 1)

/-- The product with 100 lies above the middle between k and the number before it. -/
theorem quality_product : ∀ k : Fin 100, 1 < k.val → k.val ≠ 13 → k.val ≠ 25 → k.val ≠ 26 → k.val ≠ 50 → k.val ≠ 52 → k.val ≠ 53 →
    k.val ≠ 59 → k.val ≠ 75 →
    qE k ≤ 6 ∧ 2 ^ 23 < k.val * 2 ^ (23 - qE k) ∧ k.val * 2 ^ (23 - qE k) ≤ 2 ^ 24 ∧
      2 * (k.val * 2 ^ (23 + qL k)) < 2 * (100 * qn k) + 2 ^ (qE k + qL k) := by
  decide +kernel

/-- The product with 100 is the middle between k and the number before it. -/
theorem quality_tie : ∀ k : Fin 100, k.val = 13 ∨ k.val = 26 ∨ k.val = 52 →
    qE k ≤ 6 ∧ 2 ^ 23 < k.val * 2 ^ (23 - qE k) ∧ k.val * 2 ^ (23 - qE k) < 2 ^ 24 ∧ 1 ≤ 23 - qE k ∧
      2 * (k.val * 2 ^ (23 + qL k)) = 2 * (100 * qn k) + 2 ^ (qE k + qL k) := by
  decide +kernel

theorem double_near {r : Rounding} (hr : r.IEEE) {x : ℝ} (h0 : 0 ≤ x) (h1 : x ≤ 1) : |r.toDouble x - x| ≤ 2 ^ (-52 : ℤ) := by
  set j := ⌊x * 2 ^ 52⌋₊ with hj
  have j1 : (j : ℝ) ≤ x * 2 ^ 52 := Nat.floor_le (by positivity)
  have j2 : x * 2 ^ 52 < j + 1 := Nat.lt_floor_add_one _
  have j3 : (j : ℝ) < 2 ^ 53 := by
    calc (j : ℝ) ≤ x * 2 ^ 52 := j1
      _ ≤ 1 * 2 ^ 52 := by apply mul_le_mul_of_nonneg_right h1; positivity
      _ < 2 ^ 53 := by norm_num
  have j4 : j < 2 ^ 53 := by exact_mod_cast j3
  have := (hr.2 x).2 _ (float_mem (p := 53) (emin := -1074) (j : ℤ) (-52) (by
    rw [abs_of_nonneg (by omega)]; exact_mod_cast j4) (by norm_num))
  refine this.trans ?_
  have e52 : (2 : ℝ) ^ (-52 : ℤ) = 1 / 2 ^ 52 := by norm_num
  rw [e52, abs_le]
  push_cast
  constructor
  · have : x < (j + 1) / 2 ^ 52 := by rw [lt_div_iff₀ (by positivity)]; exact j2
    have e : ((j : ℝ) + 1) / 2 ^ 52 = j * (1 / 2 ^ 52) + 1 / 2 ^ 52 := by ring
    rw [e] at this
    linarith
  · have : (j : ℝ) / 2 ^ 52 ≤ x := by rw [div_le_iff₀ (by positivity)]; exact j1
    have e : (j : ℝ) / 2 ^ 52 = j * (1 / 2 ^ 52) := by ring
    rw [e] at this
    have : (0 : ℝ) < 1 / 2 ^ 52 := by positivity
    linarith

/-- The `float` made of a percentage that is not a binary fraction. -/
theorem quality_float {r : Rounding} (hr : r.IEEE) {k : ℕ} (h0 : 0 < k) (h1 : k < 100) (h2 : k ≠ 25) (h3 : k ≠ 50) (h4 : k ≠ 75) {q : ℝ}
    (hq : IsPercent r k q) : r.toFloat q = qn k * 2 ^ (-(23 + qL k : ℤ)) := by
  obtain ⟨t1, t2, t3, t4, t5, -⟩ := quality_table ⟨k, h1⟩ h0 h2 h3 h4
  simp only at t1 t2 t3 t4 t5
  have k1 : (k : ℝ) < 100 := by exact_mod_cast h1
  have k0 : (0 : ℝ) < k := by exact_mod_cast h0
  have hnear : |q - k / 100| ≤ 2 ^ (-52 : ℤ) := by
    rcases hq with rfl | rfl
    · rw [sub_self, abs_zero]; positivity
    · exact double_near hr (by positivity) (by rw [div_le_one (by norm_num)]; linarith)
  set n := qn k
  set L := qL k
  set N := k * 2 ^ (23 + L) with hN
  set u : ℝ := 2 ^ (-(23 + L : ℤ)) with hu
  have hu0 : 0 < u := two_zpow_pos _
  have hu1 : (2 : ℝ) ^ (-30 : ℤ) ≤ u := zpow_le_zpow_right₀ (by norm_num) (by omega)
  have hk : (k : ℝ) = N * u := by
    rw [hN, hu, Nat.cast_mul, Nat.cast_pow, mul_assoc, Nat.cast_ofNat, ← zpow_natCast, ← zpow_add₀ (by norm_num)]
    have : (((23 + L : ℕ) : ℤ) + -(23 + L : ℤ)) = 0 := by push_cast; ring
    rw [this]; simp
  clear_value n N
  have r4 : (100 : ℝ) * n ≤ N + 49 := by exact_mod_cast t4
  have r5 : (N : ℝ) ≤ 100 * n + 49 := by exact_mod_cast t5
  have hs : (2 : ℝ) ^ (-52 : ℤ) ≤ u / 1000 := by
    calc (2 : ℝ) ^ (-52 : ℤ) ≤ 2 ^ (-30 : ℤ) / 1000 := by norm_num
      _ ≤ u / 1000 := by gcongr
  obtain ⟨a1, a2⟩ := abs_le.1 hnear
  rw [hk] at a1 a2
  have m4 := mul_le_mul_of_nonneg_right r4 hu0.le
  have m5 := mul_le_mul_of_nonneg_right r5 hu0.le
  have := rounds_to (p := 24) (by norm_num) hr.1 (n := n) (e := -(23 + L : ℤ)) (by omega) (by omega) (by omega) (y := q)
    (by push_cast; rw [← hu]; linarith) (Or.inr ⟨by omega, by push_cast; rw [← hu]; linarith⟩)
  rw [← hu, Int.cast_natCast] at this
  exact this

/-- A percentage that is a binary fraction. -/
theorem quality_exact {r : Rounding} (hr : r.IEEE) {k : ℕ} (hk : k = 0 ∨ k = 25 ∨ k = 50 ∨ k = 75 ∨ k = 100) {q : ℝ}
    (hq : IsPercent r k q) : r.toFloat q = k / 100 := by
  obtain ⟨j, hj, e⟩ : ∃ j : ℕ, j ≤ 4 ∧ (k : ℝ) / 100 = ((j : ℤ) : ℝ) * 2 ^ (-2 : ℤ) := by
    rcases hk with rfl | rfl | rfl | rfl | rfl
    · exact ⟨0, by omega, by norm_num⟩
    · exact ⟨1, by omega, by norm_num⟩
    · exact ⟨2, by omega, by norm_num⟩
    · exact ⟨3, by omega, by norm_num⟩
    · exact ⟨4, by omega, by norm_num⟩
  have hj' : ∀ p : ℕ, 3 ≤ p → |(j : ℤ)| < 2 ^ p := by
    intro p hp
    rw [abs_of_nonneg (by omega)]
    calc (j : ℤ) < 2 ^ 3 := by norm_num; omega
      _ ≤ 2 ^ p := pow_le_pow_right₀ (by norm_num) hp
  have f : r.toFloat (k / 100) = k / 100 := by
    rw [e]; exact rounds_self hr.1 (float_mem _ _ (hj' _ (by norm_num)) (by norm_num))
  have d : r.toDouble (k / 100) = k / 100 := by
    rw [e]; exact rounds_self hr.2 (float_mem _ _ (hj' _ (by norm_num)) (by norm_num))
  rcases hq with rfl | rfl
  · exact f
  · rw [d, f]

theorem percent_of {r : Rounding} {x y : ℝ} {k : ℕ} (hk : k ≤ 100) (h : r.toFloat (x * 100) = y) (h0 : (k : ℝ) ≤ y) (h1 : y < k + 1) :
    percent r (.num x) = .ok k := by
  unfold percent
  simp only
  have k0 : (0 : ℝ) ≤ k := by positivity
  have k1 : (k : ℝ) ≤ 100 := by exact_mod_cast hk
  rw [h, if_pos ⟨by norm_num; linarith, by norm_num; linarith⟩, if_pos (by linarith), Int.floor_eq_iff.2 ⟨by rw [Int.cast_natCast]; exact h0, by rw [Int.cast_natCast]; exact h1⟩]

/-- A number above the middle is not rounded down. -/
theorem rounds_up {p : ℕ} {emin : ℤ} (hp : 1 ≤ p) {f : ℝ → ℝ} (hf : RoundsToNearest (FloatNumbers p emin) f) {n e : ℤ} (h1 : 2 ^ (p - 1) < n)
    (h2 : n ≤ 2 ^ p) (he : emin ≤ e) {y : ℝ} (hy : (n : ℝ) * 2 ^ e - 2 ^ e / 2 < y) : (n : ℝ) * 2 ^ e ≤ f y := by
  have he0 := two_zpow_pos e
  have hpe : (2 : ℤ) ^ p = 2 ^ (p - 1) * 2 := by rw [← pow_succ]; congr 1; omega
  have hmem : (n : ℝ) * 2 ^ e ∈ FloatNumbers p emin := by
    rcases h2.lt_or_eq with h | h
    · exact float_mem n e (by rw [abs_of_nonneg (le_trans (by positivity) h1.le)]; exact h) he
    · refine ⟨2 ^ (p - 1), e + 1, ?_, by omega, ?_⟩
      · rw [abs_of_nonneg (by positivity)]; omega
      · rw [h, hpe, zpow_add₀ (by norm_num)]; push_cast; ring
  obtain ⟨hm, hn⟩ := hf y
  by_contra hc
  push Not at hc
  have hlow : f y ≤ (n : ℝ) * 2 ^ e - 2 ^ e := by
    by_contra h
    push Not at h
    have := gap_above hp (n := n - 1) (e := e) (by omega) hm (by push_cast; linarith)
    push_cast at this
    linarith
  have hz := hn _ hmem
  rw [abs_of_nonpos (by linarith)] at hz
  rcases abs_cases ((n : ℝ) * 2 ^ e - y) with ⟨h5, _⟩ | ⟨h5, _⟩ <;> rw [h5] at hz <;> linarith

theorem quality_scale {k : ℕ} (E L : ℕ) : (k : ℝ) = (k * 2 ^ (23 + L) : ℕ) * (2 : ℝ) ^ (-(23 + L : ℤ)) ∧
    (2 : ℝ) ^ ((E : ℤ) - 23) = (2 ^ (E + L) : ℕ) * (2 : ℝ) ^ (-(23 + L : ℤ)) := by
  constructor
  · rw [Nat.cast_mul, Nat.cast_pow, mul_assoc, Nat.cast_ofNat, ← zpow_natCast, ← zpow_add₀ (by norm_num)]
    have : (((23 + L : ℕ) : ℤ) + -(23 + L : ℤ)) = 0 := by push_cast; ring
    rw [this]; simp
  · rw [Nat.cast_pow, Nat.cast_ofNat, ← zpow_natCast, ← zpow_add₀ (by norm_num)]
    congr 1
    push_cast; ring

theorem quality_unit {k E : ℕ} (h : E ≤ 23) : (((k * 2 ^ (23 - E) : ℕ) : ℤ) : ℝ) * 2 ^ ((E : ℤ) - 23) = k := by
  rw [Int.cast_natCast, Nat.cast_mul, Nat.cast_pow, mul_assoc, Nat.cast_ofNat, ← zpow_natCast, ← zpow_add₀ (by norm_num)]
  have : (((23 - E : ℕ) : ℤ) + ((E : ℤ) - 23)) = 0 := by omega
  rw [this]; simp

/-- The product of the `float` with 100, rounded, is at least k. -/
theorem quality_lower {r : Rounding} (hr : r.IEEE) (ht : TiesToEven r.toFloat) {k : ℕ} (h0 : 0 < k) (h1 : k < 100) (h2 : k ≠ 25)
    (h3 : k ≠ 50) (h4 : k ≠ 75) (h5 : k ≠ 53) (h6 : k ≠ 59) : (k : ℝ) ≤ r.toFloat (qn k * 2 ^ (-(23 + qL k : ℤ)) * 100) := by
  by_cases hk : k = 1
  · subst hk
    have e : ((1 : ℕ) : ℝ) = ((2 ^ 24 : ℤ) : ℝ) * 2 ^ (-24 : ℤ) := by norm_num
    rw [e]
    refine rounds_up (p := 24) (by norm_num) hr.1 (by norm_num) (by norm_num) (by norm_num) ?_
    rw [show qn 1 = 10737418 by decide +kernel, show qL 1 = 7 by decide +kernel]
    norm_num
  by_cases hk' : k = 13 ∨ k = 26 ∨ k = 52
  · obtain ⟨t1, t2, t3, t4, t5⟩ := quality_tie ⟨k, h1⟩ hk'
    simp only at t1 t2 t3 t4 t5
    obtain ⟨s1, s2⟩ := quality_scale (k := k) (qE k) (qL k)
    have hu := quality_unit (k := k) (E := qE k) (by omega)
    have := (ht (k * 2 ^ (23 - qE k) : ℕ) ((qE k : ℤ) - 23) (by exact_mod_cast t2) (by exact_mod_cast t3) (by
      obtain ⟨m, hm⟩ := Nat.exists_eq_add_of_le t4
      rw [hm, pow_add]
      exact ⟨(k * 2 ^ m : ℕ), by push_cast; ring⟩) (by omega)).1
    rw [hu] at this
    refine le_of_eq ?_
    rw [← this]
    congr 1
    have r5 : (2 : ℝ) * (k * 2 ^ (23 + qL k) : ℕ) = 2 * (100 * qn k) + (2 ^ (qE k + qL k) : ℕ) := by exact_mod_cast t5
    rw [s2]
    conv_lhs => rw [s1]
    generalize (2 : ℝ) ^ (-(23 + qL k : ℤ)) = u at *
    have := congrArg (fun z : ℝ => z * u) r5
    linarith
  · obtain ⟨t1, t2, t3, t4⟩ := quality_product ⟨k, h1⟩ (by simp only; omega) (by simp only; omega) h2 (by simp only; omega) h3
      (by simp only; omega) h5 h6 h4
    simp only at t1 t2 t3 t4
    obtain ⟨s1, s2⟩ := quality_scale (k := k) (qE k) (qL k)
    have hu := quality_unit (k := k) (E := qE k) (by omega)
    have r4 : (2 : ℝ) * (k * 2 ^ (23 + qL k) : ℕ) < 2 * (100 * qn k) + (2 ^ (qE k + qL k) : ℕ) := by exact_mod_cast t4
    have := rounds_up (p := 24) (by norm_num) hr.1 (n := (k * 2 ^ (23 - qE k) : ℕ)) (e := (qE k : ℤ) - 23) (by exact_mod_cast t2)
      (by exact_mod_cast t3) (by omega) (y := qn k * 2 ^ (-(23 + qL k : ℤ)) * 100) (by
        rw [hu, s2]
        conv_lhs => rw [s1]
        have := mul_lt_mul_of_pos_right r4 (two_zpow_pos (-(23 + qL k : ℤ)))
        linarith)
    rwa [hu] at this

/-- It is less than k + 1. -/
theorem quality_upper {r : Rounding} (hr : r.IEEE) {k : ℕ} (h0 : 0 < k) (h1 : k < 100) (h2 : k ≠ 25) (h3 : k ≠ 50) (h4 : k ≠ 75) :
    r.toFloat (qn k * 2 ^ (-(23 + qL k : ℤ)) * 100) < k + 1 := by
  obtain ⟨-, -, -, -, -, t6⟩ := quality_table ⟨k, h1⟩ h0 h2 h3 h4
  simp only at t6
  have hfix : r.toFloat (((2 * k + 1 : ℕ) : ℤ) * (2 : ℝ) ^ (-1 : ℤ)) = ((2 * k + 1 : ℕ) : ℤ) * (2 : ℝ) ^ (-1 : ℤ) :=
    rounds_self hr.1 (float_mem _ _ (by rw [abs_of_nonneg (by omega)]; norm_num; omega) (by norm_num))
  have hle : r.toFloat (qn k * 2 ^ (-(23 + qL k : ℤ)) * 100) ≤ r.toFloat (((2 * k + 1 : ℕ) : ℤ) * (2 : ℝ) ^ (-1 : ℤ)) := by
    apply rounds_mono hr.1
    have r6 : (200 : ℝ) * qn k ≤ ((2 * k + 1) * 2 ^ (23 + qL k) : ℕ) := by exact_mod_cast t6
    have s1 := (quality_scale (k := 2 * k + 1) 0 (qL k)).1
    have := mul_le_mul_of_nonneg_right r6 (two_zpow_pos (-(23 + qL k : ℤ))).le
    rw [← s1] at this
    rw [Int.cast_natCast]
    norm_num at this ⊢
    linarith
  rw [hfix] at hle
  have : (((2 * k + 1 : ℕ) : ℤ) : ℝ) * (2 : ℝ) ^ (-1 : ℤ) = k + 1 / 2 := by push_cast; norm_num; ring
  rw [this] at hle
  have : (k : ℝ) + 1 / 2 < k + 1 := by linarith
  exact lt_of_le_of_lt hle this

/-- The middle beside a number with an even significand. -/
def IsTie (x : ℝ) (n e : ℤ) : Prop :=
  2 ^ 23 < n ∧ n < 2 ^ 24 ∧ Even n ∧ -149 ≤ e ∧ (x = (n : ℝ) * 2 ^ e - 2 ^ e / 2 ∨ x = (n : ℝ) * 2 ^ e + 2 ^ e / 2)

theorem tie_bounds {x : ℝ} {n e : ℤ} (h : IsTie x n e) : (2 : ℝ) ^ (23 + e) < x ∧ x < 2 ^ (24 + e) := by
  obtain ⟨h1, h2, h3, -, h5⟩ := h
  have he := two_zpow_pos e
  have n1 : ((2 ^ 23 + 1 : ℤ) : ℝ) ≤ n := by exact_mod_cast h1
  have n2 : (n : ℝ) ≤ ((2 ^ 24 - 1 : ℤ) : ℝ) := by
    have : n ≤ 2 ^ 24 - 1 := by omega
    exact_mod_cast this
  push_cast at n1 n2
  rw [zpow_add₀ (by norm_num), zpow_add₀ (by norm_num)]
  have m1 := mul_le_mul_of_nonneg_right n1 he.le
  have m2 := mul_le_mul_of_nonneg_right n2 he.le
  norm_num at m1 m2 ⊢
  rcases h5 with h | h <;> constructor <;> linarith

theorem tie_unique {x : ℝ} {n e n' e' : ℤ} (h : IsTie x n e) (h' : IsTie x n' e') : (n : ℝ) * 2 ^ e = n' * 2 ^ e' := by
  obtain ⟨b1, b2⟩ := tie_bounds h
  obtain ⟨b3, b4⟩ := tie_bounds h'
  have e1 : 23 + e < 24 + e' := (zpow_lt_zpow_iff_right₀ (by norm_num : (1 : ℝ) < 2)).1 (b1.trans b4)
  have e2 : 23 + e' < 24 + e := (zpow_lt_zpow_iff_right₀ (by norm_num : (1 : ℝ) < 2)).1 (b3.trans b2)
  have : e' = e := by omega
  subst this
  have he := two_zpow_pos e'
  obtain ⟨-, -, ⟨a, ha⟩, -, h5⟩ := h
  obtain ⟨-, -, ⟨b, hb⟩, -, h5'⟩ := h'
  have key : (n : ℝ) = n' ∨ (n : ℝ) = n' + 1 ∨ (n' : ℝ) = n + 1 := by
    rcases h5 with h5 | h5 <;> rcases h5' with h5' | h5' <;> rw [h5] at h5'
    · exact Or.inl (mul_right_cancel₀ he.ne' (by linarith))
    · exact Or.inr (Or.inl (mul_right_cancel₀ he.ne' (by linarith)))
    · exact Or.inr (Or.inr (mul_right_cancel₀ he.ne' (by linarith)))
    · exact Or.inl (mul_right_cancel₀ he.ne' (by linarith))
  rcases key with k | k | k
  · rw [k]
  · have : n = n' + 1 := by exact_mod_cast k
    omega
  · have : n' = n + 1 := by exact_mod_cast k
    omega

theorem tie_nearest {x : ℝ} {n e : ℤ} (h : IsTie x n e) :
    (n : ℝ) * 2 ^ e ∈ FloatNumbers 24 (-149) ∧ ∀ y ∈ FloatNumbers 24 (-149), |(n : ℝ) * 2 ^ e - x| ≤ |y - x| := by
  obtain ⟨h1, h2, -, h4, h5⟩ := h
  have he := two_zpow_pos e
  have hm : (n : ℝ) * 2 ^ e ∈ FloatNumbers 24 (-149) := float_mem n e (by rw [abs_of_nonneg (by omega)]; exact h2) h4
  refine ⟨hm, fun y hy => ?_⟩
  have hd : |(n : ℝ) * 2 ^ e - x| = 2 ^ e / 2 := by
    rcases h5 with rfl | rfl
    · rw [abs_of_nonneg (by linarith)]; ring
    · rw [abs_of_nonpos (by linarith)]; ring
  rw [hd]
  rcases lt_trichotomy y ((n : ℝ) * 2 ^ e) with h | h | h
  · have := gap_below (by norm_num) (by simpa using h1) hy h
    rw [abs_of_nonpos (by rcases h5 with rfl | rfl <;> linarith)]
    rcases h5 with rfl | rfl <;> linarith
  · rw [h, hd]
  · have := gap_above (by norm_num) (by simpa using h1.le) hy h
    rw [abs_of_nonneg (by rcases h5 with rfl | rfl <;> linarith)]
    rcases h5 with rfl | rfl <;> linarith

/-- Roundings to nearest that send ties to even exist. -/
theorem ties_exist : ∃ r : Rounding, r.IEEE ∧ TiesToEven r.toFloat := by
  classical
  choose f hf hf' using nearest_exists 24 (-149)
  choose g hg hg' using nearest_exists 53 (-1074)
  let f' : ℝ → ℝ := fun x => if h : ∃ n e, IsTie x n e then (h.choose : ℝ) * 2 ^ h.choose_spec.choose else f x
  have key : ∀ x n e, IsTie x n e → f' x = (n : ℝ) * 2 ^ e := by
    intro x n e h
    have hex : ∃ n e, IsTie x n e := ⟨n, e, h⟩
    show (if h : ∃ n e, IsTie x n e then (h.choose : ℝ) * 2 ^ h.choose_spec.choose else f x) = _
    rw [dif_pos hex]
    exact tie_unique hex.choose_spec.choose_spec h
  refine ⟨⟨f', g⟩, ⟨fun x => ?_, fun x => ⟨hg x, hg' x⟩⟩, fun n e h1 h2 h3 h4 => ⟨?_, ?_⟩⟩
  · by_cases hex : ∃ n e, IsTie x n e
    · obtain ⟨n, e, h⟩ := hex
      show f' x ∈ _ ∧ _
      simp only [key x n e h]
      exact tie_nearest h
    · have : f' x = f x := dif_neg hex
      show f' x ∈ _ ∧ ∀ y ∈ _, |f' x - x| ≤ |y - x|
      rw [this]
      exact ⟨hf x, hf' x⟩
  · exact key _ n e ⟨h1, h2, h3, h4, Or.inl rfl⟩
  · exact key _ n e ⟨h1, h2, h3, h4, Or.inr rfl⟩

end WB
