import Verif.Proof.MaxSteps

/-!
C131: the constructor with the number of steps as it is computed, in `double`.
-/

namespace WB.Props

open WB WB.Spec

variable {α : Type} {rnd log2 : ℝ → ℝ}

/-- The constructor decides about the parameters as C01 says (the same outcome as computed exactly) if some side is shorter than 2^46. -/
theorem C131_constructor_partial (hr : RoundsToNearest (FloatNumbers 53 (-1074)) rnd) (hl : Log2Accurate log2) {p : Params}
    (hn : ∃ n ∈ p.shape, n < 2 ^ 46) :
    ctorDouble (α := α) rnd log2 p = ctor p ∧
      (RepresentableType p → ((∃ b : Buffer α, ctorDouble rnd log2 p = .ok b) ↔ ValidParams p)) := by
  have he : ctorDouble (α := α) rnd log2 p = ctor p := by
    refine ctorDouble_eq fun ht hm hd => ?_
    obtain ⟨n, hn1, hn2⟩ := hn
    have hs := lt_of_le_of_lt (shortest_le n hn1) hn2
    by_cases h0 : p.wtype = 0
    · simp [maxStepsDouble, maxSteps, h0]
    · rw [steps_le_maxSteps_iff (List.ne_nil_of_mem hn1) h0 hm, ← le_shortest_iff (List.ne_nil_of_mem hn1)]
      constructor
      · intro h
        by_contra hc
        have := stepsDouble_lt hr hl h0 ht hs (by omega) (not_le.1 hc)
        omega
      · exact stepsDouble_ge hr hl h0 ht
  refine ⟨he, fun hrep => ?_⟩
  rw [he]
  constructor
  · rintro ⟨b, hb⟩; exact (ctor_valid_of_ok hb).1
  · intro hv; exact ⟨_, ctor_ok_of_valid hv hrep⟩

/-- Valid parameters are accepted whatever the size. -/
theorem C131_accepts_valid (hr : RoundsToNearest (FloatNumbers 53 (-1074)) rnd) (hl : Log2Accurate log2) {p : Params} (hv : ValidParams p)
    (hrep : RepresentableType p) : ctorDouble (α := α) rnd log2 p = ctor p ∧ ∃ b : Buffer α, ctorDouble rnd log2 p = .ok b := by
  have hne : p.shape ≠ [] := by
    intro h
    have := hv.1
    simp [h] at this
  have he : ctorDouble (α := α) rnd log2 p = ctor p := by
    refine ctorDouble_eq fun ht hm _ => ?_
    by_cases h0 : p.wtype = 0
    · simp [maxStepsDouble, maxSteps, h0]
    · have h3 := hv.2.2
      rw [if_neg h0] at h3
      exact ⟨fun _ => (steps_le_maxSteps_iff hne h0 hm).2 h3, fun _ => stepsDouble_ge hr hl h0 ht ((le_shortest_iff hne _).2 h3)⟩
  exact ⟨he, _, by rw [he]; exact ctor_ok_of_valid hv hrep⟩

/-- For all sizes, at most one step too many is accepted. -/
theorem C131_at_most_one_more (hr : RoundsToNearest (FloatNumbers 53 (-1074)) rnd) (hl : Log2Accurate log2) {p : Params} {b : Buffer α}
    (hn : ∃ n ∈ p.shape, n < 2 ^ 64) (h : ctorDouble rnd log2 p = .ok b) :
    ValidParams p ∨ (0 < p.steps ∧ ValidParams { p with steps := p.steps - 1 }) := by
  obtain ⟨hd, ht, hm, hs⟩ := ctorDouble_ok h
  obtain ⟨n, hn1, hn2⟩ := hn
  have hne := List.ne_nil_of_mem hn1
  have h64 := lt_of_le_of_lt (shortest_le n hn1) hn2
  have hm' := (le_shortest_iff hne _).1 hm
  by_cases h0 : p.wtype = 0
  · left
    refine ⟨hd, hm', ?_⟩
    simp only [maxStepsDouble, h0, if_true] at hs ⊢
    omega
  · by_cases hc : ∀ n ∈ p.shape, 2 ^ p.steps * (2 * p.wtype - 1) ≤ n
    · left
      exact ⟨hd, hm', by rw [if_neg h0]; exact hc⟩
    · right
      have h1 : 0 < p.steps := by
        rcases Nat.eq_zero_or_pos p.steps with h | h
        · exfalso
          apply hc
          intro n hn
          have := hm' n hn
          rw [h]; omega
        · exact h
      refine ⟨h1, hd, hm', ?_⟩
      rw [if_neg h0]
      by_contra hc'
      simp only at hc'
      rw [← le_shortest_iff hne] at hc'
      have := stepsDouble_near hr hl h0 ht h64 (by omega) (not_le.1 hc')
      omega

/-- The claim for all sizes, negated: a side of 2^55 - 1 samples with 55 steps of the shortest wavelet is accepted, although 2^55 is more. -/
theorem C131_huge_counterexample (hr : RoundsToNearest (FloatNumbers 53 (-1074)) rnd) (hl : Log2Accurate log2) :
    ¬ ValidParams ⟨[2 ^ 55 - 1], 1, 55, 1⟩ ∧ ctor (α := α) ⟨[2 ^ 55 - 1], 1, 55, 1⟩ = .throw ∧
      ∃ b : Buffer α, ctorDouble rnd log2 ⟨[2 ^ 55 - 1], 1, 55, 1⟩ = .ok b := by
  have hv : ¬ ValidParams ⟨[2 ^ 55 - 1], 1, 55, 1⟩ := by
    intro h
    have := h.2.2
    simp at this
  refine ⟨hv, ctor_throw_of_not_valid hv (by unfold RepresentableType; norm_num), ?_⟩
  have h1 : rnd ((2 ^ 55 - 1 : ℕ) : ℝ) = 2 ^ 55 := by
    have hmem : (2 : ℝ) ^ 55 ∈ FloatNumbers 53 (-1074) := by
      have := dbl_pow (m := 1) (by norm_num) 55
      simpa using this
    have hle : rnd ((2 ^ 55 - 1 : ℕ) : ℝ) ≤ 2 ^ 55 := nearest_le hr hmem (by norm_num)
    obtain ⟨⟨m, e, hm, he, hx⟩, hmin⟩ := hr ((2 ^ 55 - 1 : ℕ) : ℝ)
    have hd := hmin _ hmem
    have habs : |(2 : ℝ) ^ 55 - ((2 ^ 55 - 1 : ℕ) : ℝ)| = 1 := by norm_num
    rw [habs, abs_le] at hd
    have hlow : (2 : ℝ) ^ 55 - 2 ≤ rnd ((2 ^ 55 - 1 : ℕ) : ℝ) := by
      have := hd.1
      have h3 : ((2 ^ 55 - 1 : ℕ) : ℝ) = 2 ^ 55 - 1 := by norm_num
      rw [h3] at this ⊢
      linarith
    rw [hx] at hle hlow ⊢
    have he3 : 3 ≤ e := by
      by_contra hc
      have h4 : (2 : ℝ) ^ e ≤ 2 ^ (2 : ℤ) := zpow_le_zpow_right₀ (by norm_num) (by omega)
      have h5 : (0 : ℝ) < 2 ^ e := zpow_pos (by norm_num) _
      have h6 : (m : ℝ) ≤ 2 ^ 53 - 1 := by
        have : m ≤ 2 ^ 53 - 1 := by
          have := (abs_lt.1 hm).2
          omega
        exact_mod_cast this
      have h7 : (m : ℝ) * 2 ^ e ≤ (2 ^ 53 - 1) * 2 ^ (2 : ℤ) := by
        calc (m : ℝ) * 2 ^ e ≤ (2 ^ 53 - 1) * 2 ^ e := mul_le_mul_of_nonneg_right h6 h5.le
          _ ≤ _ := mul_le_mul_of_nonneg_left h4 (by norm_num)
      norm_num at h7 hlow
      linarith
    obtain ⟨j, hj⟩ : ∃ j : ℕ, e = 3 + j := ⟨(e - 3).toNat, by omega⟩
    rw [hj, zpow_add₀ (by norm_num), zpow_natCast] at hle hlow ⊢
    have hz : ((m * 2 ^ j : ℤ) : ℝ) * 8 = (m : ℝ) * (2 ^ (3 : ℤ) * 2 ^ j) := by push_cast; norm_num; ring
    rw [← hz] at hle hlow ⊢
    have g1 : m * 2 ^ j * 8 ≤ 2 ^ 55 := by exact_mod_cast hle
    have g2 : (2 : ℤ) ^ 55 - 2 ≤ m * 2 ^ j * 8 := by exact_mod_cast hlow
    have g3 : m * 2 ^ j * 8 = 2 ^ 55 := by omega
    exact_mod_cast g3
  have hq : rnd (2 ^ 55 / (2 * ((1 : ℕ) : ℝ) - 1)) = 2 ^ 55 := by
    have hmem : (2 : ℝ) ^ 55 ∈ FloatNumbers 53 (-1074) := by
      have := dbl_pow (m := 1) (by norm_num) 55
      simpa using this
    rw [show (2 : ℝ) ^ 55 / (2 * ((1 : ℕ) : ℝ) - 1) = 2 ^ 55 by norm_num]
    exact rounds_self hr hmem
  have hs : ((55 : ℕ) : ℤ) ≤ maxStepsDouble rnd log2 1 [2 ^ 55 - 1] := by
    unfold maxStepsDouble
    rw [if_neg (by norm_num), Int.le_floor]
    simp only [Params.shortest]
    rw [h1, hq]
    exact_mod_cast hl.reaches 55 _ le_rfl
  unfold ctorDouble
  simp only [Params.dimension, List.length_singleton]
  rw [if_neg (by norm_num), if_neg (by norm_num), if_neg (by simp [Params.shortest]), if_neg (not_lt.2 hs)]
  exact ⟨_, rfl⟩

/-- There are such roundings and logarithms; a short signal. -/
example : ∃ rnd log2 : ℝ → ℝ, RoundsToNearest (FloatNumbers 53 (-1074)) rnd ∧ Log2Accurate log2 ∧
    ∃ b : Buffer ℚ, ctorDouble rnd log2 ⟨[640, 480], 3, 5, 3⟩ = .ok b := by
  choose f hf using nearest_exists 53 (-1074)
  have hl : Log2Accurate (Real.logb 2) := by
    refine ⟨fun k x h => ?_, fun x _ _ => ?_⟩
    · have := Real.logb_le_logb_of_le (b := 2) (by norm_num) (by positivity) h
      rwa [Real.logb_pow, Real.logb_self_eq_one (by norm_num), mul_one] at this
    · have : (0 : ℝ) < 2 ^ (-47 : ℤ) := by positivity
      linarith
  exact ⟨f, Real.logb 2, hf, hl, (C131_accepts_valid hf hl ⟨by simp, by simp, by simp⟩ (by unfold RepresentableType; norm_num)).2⟩

end WB.Props
