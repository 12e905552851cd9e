import Verif.Proof.Pixel

/-! Properties C43 and C61: 8-bit pixels and samples. -/

namespace WB.Props

open WB

theorem toPixel_of {r : Rounding} {x y : ℝ} {k : ℕ} (hk : k < 256) (h : r.toFloat (max 0 (min 1 x) * 255) = y) (h0 : (k : ℝ) ≤ y)
    (h1 : y < k + 1) : toPixel r x = .ok (UInt8.ofNat k) := by
  unfold toPixel
  simp only
  have k0 : (0 : ℝ) ≤ k := by positivity
  have k1 : (k : ℝ) + 1 ≤ 256 := by exact_mod_cast hk
  rw [h, if_pos ⟨by linarith, by linarith⟩, (Nat.floor_eq_iff (by linarith)).2 ⟨h0, h1⟩]

/-- C43: with IEEE arithmetic every pixel that is decoded to a sample and encoded again is the same pixel, for every way of
breaking ties. -/
theorem C43_pixels_survive (r : Rounding) (hr : r.IEEE) (k : UInt8) : toPixel r (ofPixel r k) = .ok k := by
  obtain ⟨h0, h1, h2⟩ := pixel_back hr k.toNat k.toNat_lt
  have := toPixel_of (r := r) (x := ofPixel r k) (k := k.toNat) (y := k.toNat) k.toNat_lt (by
    unfold ofPixel; rw [min_eq_right h1, max_eq_right h0]; exact h2) (le_refl _) (by linarith)
  rw [this, UInt8.ofNat_toNat]

/-- C43: encoding is defined for every number, never decreases when the sample increases, sends everything up to 0 to 0 and
everything from 1 on to 255. -/
theorem C43_clamped_and_monotone (r : Rounding) (hr : r.IEEE) :
    (∀ x, ∃ a, toPixel r x = .ok a) ∧
    (∀ x y a b, x ≤ y → toPixel r x = .ok a → toPixel r y = .ok b → a.toNat ≤ b.toNat) ∧
    (∀ x ≤ 0, toPixel r x = .ok 0) ∧ (∀ x, 1 ≤ x → toPixel r x = .ok 255) := by
  have f0 : r.toFloat 0 = 0 := by
    have := rounds_self hr.1 (nat_mem 0 (p := 24) (by norm_num) (by norm_num)); simpa using this
  have f255 : r.toFloat 255 = 255 := by
    have := rounds_self hr.1 (nat_mem 255 (p := 24) (by norm_num) (by norm_num)); simpa using this
  have lo : ∀ x, 0 ≤ r.toFloat (max 0 (min 1 x) * 255) := by
    intro x
    calc (0 : ℝ) = r.toFloat 0 := f0.symm
      _ ≤ _ := by
        apply rounds_mono hr.1
        have : (0 : ℝ) ≤ max 0 (min 1 x) := le_max_left _ _
        linarith
  have hi : ∀ x, r.toFloat (max 0 (min 1 x) * 255) ≤ 255 := by
    intro x
    calc r.toFloat (max 0 (min 1 x) * 255) ≤ r.toFloat 255 := by
          apply rounds_mono hr.1
          have : max 0 (min 1 x) ≤ (1 : ℝ) := max_le (by norm_num) (min_le_left _ _)
          linarith
      _ = 255 := f255
  have tp : ∀ x, toPixel r x = .ok (UInt8.ofNat ⌊r.toFloat (max 0 (min 1 x) * 255)⌋₊) := by
    intro x
    unfold toPixel
    simp only
    rw [if_pos ⟨by linarith [lo x], by linarith [hi x]⟩]
  refine ⟨fun x => ⟨_, tp x⟩, ?_, ?_, ?_⟩
  · intro x y a b hxy ha hb
    rw [tp] at ha hb
    cases ha; cases hb
    have l : ∀ x, ⌊r.toFloat (max 0 (min 1 x) * 255)⌋₊ < 256 := by
      intro x
      rw [Nat.floor_lt (lo x)]
      have := hi x
      push_cast; linarith
    rw [UInt8.toNat_ofNat_of_lt' (l x), UInt8.toNat_ofNat_of_lt' (l y)]
    apply Nat.floor_le_floor
    apply rounds_mono hr.1
    have : max 0 (min 1 x) ≤ max 0 (min 1 y) := max_le_max (le_refl _) (min_le_min (le_refl _) hxy)
    linarith
  · intro x hx
    rw [tp, min_eq_right (by linarith), max_eq_left hx, zero_mul, f0]; simp
  · intro x hx
    rw [tp, min_eq_left hx, max_eq_right (by norm_num), one_mul, f255]
    norm_num
    rfl

/-- C61 is false of the code: because encoding drops the fractional part, a sample that lies below `k / 255`, no matter how
little beyond float resolution (2^-17), is encoded as `k - 1`. -/
theorem C61_noise_below_changes_pixel (r : Rounding) (hr : r.IEEE) (k : ℕ) (h1 : 1 ≤ k) (h2 : k ≤ 255) (x : ℝ)
    (hx : ((k : ℝ) - 1) / 255 ≤ x) (hx' : x ≤ k / 255 - 1 / 2 ^ 17) : toPixel r x = .ok (UInt8.ofNat (k - 1)) := by
  have k1 : (1 : ℝ) ≤ k := by exact_mod_cast h1
  have k2 : (k : ℝ) ≤ 255 := by exact_mod_cast h2
  have x0 : 0 ≤ x := le_trans (div_nonneg (by linarith) (by norm_num)) hx
  have x1 : x ≤ 1 := by
    have : (k : ℝ) / 255 ≤ 1 := by rw [div_le_one (by norm_num)]; exact k2
    have : (0 : ℝ) < 1 / 2 ^ 17 := by positivity
    linarith
  have e : ((k - 1 : ℕ) : ℝ) = k - 1 := by push_cast [h1]; ring
  have hfix : r.toFloat (((k * 1024 - 1 : ℕ) : ℤ) * (2 : ℝ) ^ (-10 : ℤ)) = ((k * 1024 - 1 : ℕ) : ℤ) * (2 : ℝ) ^ (-10 : ℤ) :=
    rounds_self hr.1 (float_mem _ _ (by rw [abs_of_nonneg (by omega)]; norm_num; omega) (by norm_num))
  have hval : (((k * 1024 - 1 : ℕ) : ℤ) : ℝ) * (2 : ℝ) ^ (-10 : ℤ) = k - 1 / 1024 := by
    have : (((k * 1024 - 1 : ℕ) : ℤ) : ℝ) = k * 1024 - 1 := by
      rw [Int.cast_natCast, Nat.cast_sub (by omega)]; push_cast; ring
    rw [this]; norm_num; ring
  rw [hval] at hfix
  refine toPixel_of (by omega) (y := r.toFloat (x * 255)) (by rw [min_eq_right x1, max_eq_right x0]) ?_ ?_
  · have : r.toFloat ((k - 1 : ℕ) : ℝ) = ((k - 1 : ℕ) : ℝ) :=
      rounds_self hr.1 (nat_mem (k - 1) (p := 24) (by norm_num; omega) (by norm_num))
    rw [← this]
    apply rounds_mono hr.1
    rw [e]
    have := (div_le_iff₀ (by norm_num : (0 : ℝ) < 255)).1 hx
    linarith
  · rw [e]
    have : r.toFloat (x * 255) ≤ r.toFloat (k - 1 / 1024) := by
      apply rounds_mono hr.1
      have := mul_le_mul_of_nonneg_right hx' (by norm_num : (0 : ℝ) ≤ 255)
      have e2 : ((k : ℝ) / 255 - 1 / 2 ^ 17) * 255 = k - 255 / 2 ^ 17 := by ring
      rw [e2] at this
      have : (1 : ℝ) / 1024 ≤ 255 / 2 ^ 17 := by norm_num
      linarith
    rw [hfix] at this
    linarith

/-- C61, part that holds: a sample between `k / 255` and `(k + 1) / 255 - 2^-17` is encoded as `k`. Missing: samples less than
half a step below `k / 255` (`C61_noise_below_changes_pixel`). -/
theorem C61_noise_above_partial (r : Rounding) (hr : r.IEEE) (k : ℕ) (h2 : k ≤ 254) (x : ℝ)
    (hx : (k : ℝ) / 255 ≤ x) (hx' : x ≤ (k + 1) / 255 - 1 / 2 ^ 17) : toPixel r x = .ok (UInt8.ofNat k) := by
  have := C61_noise_below_changes_pixel r hr (k + 1) (by omega) (by omega) x (by push_cast; simpa using hx) (by push_cast; exact hx')
  simpa using this

/-- Roundings as required exist. -/
example : ∃ r : Rounding, r.IEEE := by
  choose f hf hf' using nearest_exists 24 (-149)
  choose g hg hg' using nearest_exists 53 (-1074)
  exact ⟨⟨f, g⟩, fun x => ⟨hf x, hf' x⟩, fun x => ⟨hg x, hg' x⟩⟩

/-- A sample that is off by 10^-5, far less than half a pixel step, is encoded as a different pixel. -/
example (r : Rounding) (hr : r.IEEE) : toPixel r (128 / 255 - 1 / 100000) = .ok 127 := by
  have := C61_noise_below_changes_pixel r hr 128 (by norm_num) (by norm_num) (128 / 255 - 1 / 100000) (by norm_num) (by norm_num)
  simpa using this

end WB.Props
