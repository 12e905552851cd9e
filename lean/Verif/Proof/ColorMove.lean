import Verif.Proof.ColorFloat

/-! What a change of the HSL values does to the colour, in `float` arithmetic. -/

set_option linter.unusedVariables false
set_option linter.unusedSectionVars false

namespace WB

theorem phi_high {t : ℝ} (h : 2 / 3 ≤ t) : phi t = 0 := by
  unfold phi
  rw [max_eq_right (by linarith), min_eq_right]
  exact le_min (by linarith) (by norm_num)

theorem phi_low {t : ℝ} (h : 0 ≤ t) : 0 ≤ phi t := le_min (le_min (by linarith) (by norm_num)) (le_max_right _ _)

theorem phi_slope (t : ℝ) : phi t ≤ 6 * t := (min_le_left _ _).trans (min_le_left _ _)

/-- Positions on the circle that are close. -/
theorem phi_close {a b e δ : ℝ} {n : ℤ} (h : |a - b - n| ≤ e) (he : e ≤ 1 / 10) (hδ0 : 0 ≤ δ) (hδ : δ ≤ 1 / 10) (a0 : 0 ≤ a) (a1 : a ≤ 1 + δ)
    (b0 : 0 ≤ b) (b1 : b ≤ 1 + δ) : |phi a - phi b| ≤ 6 * e + 6 * δ := by
  have he0 : 0 ≤ e := (abs_nonneg _).trans h
  obtain ⟨h1, h2⟩ := abs_le.1 h
  have hn : n = 0 ∨ n = 1 ∨ n = -1 := by
    have l1 : (-2 : ℝ) < n := by linarith
    have l2 : (n : ℝ) < 2 := by linarith
    have l1' : (-2 : ℤ) < n := by exact_mod_cast l1
    have l2' : n < (2 : ℤ) := by exact_mod_cast l2
    omega
  rcases hn with rfl | rfl | rfl
  · have := phi_lip a b
    have h3 : |a - b| ≤ e := by simpa using h
    linarith
  · push_cast at h1 h2
    rw [phi_high (t := a) (by linarith), zero_sub, abs_neg, abs_of_nonneg (phi_low b0)]
    have := phi_slope b
    linarith
  · push_cast at h1 h2
    rw [phi_high (t := b) (by linarith), sub_zero, abs_of_nonneg (phi_low a0)]
    have := phi_slope a
    linarith

/-- How far the largest and smallest component are from the luminance, for saturation 1. -/
noncomputable def spread (l : ℝ) : ℝ := min l (1 - l)

theorem spread_lip (a b : ℝ) : |spread a - spread b| ≤ |a - b| := by
  unfold spread
  refine (abs_min_sub_min_le_max _ _ _ _).trans (max_le le_rfl ?_)
  rw [show 1 - a - (1 - b) = -(a - b) by ring, abs_neg]

theorem spread_le (l : ℝ) : spread l ≤ 1 / 2 := by
  unfold spread
  rcases le_total l (1 / 2) with h | h
  · exact (min_le_left _ _).trans h
  · exact (min_le_right _ _).trans (by linarith)

theorem spread_ge {l e : ℝ} (h1 : -e ≤ l) (h2 : l ≤ 1 + e) : -e ≤ spread l := le_min h1 (by linarith)

section
variable {fl : ℝ → ℝ} {u : ℝ} (E : SmallErr fl u)
include E

/-- The largest and the smallest component from luminance and saturation. -/
theorem top_near {L S T1 : ℝ} (hL : |L| ≤ 11 / 10) (hS : |S| ≤ 11 / 10)
    (hT1 : T1 = (if L < 1 / 2 then fl (L * fl (1 + S)) else fl (fl (L + S) - fl (L * S)))) :
    |T1 - (L + S * spread L)| ≤ 10 * u ∧ |fl (fl (2 * L) - T1) - (L - S * spread L)| ≤ 20 * u := by
  have hu := E.pos
  have hs := E.small
  obtain ⟨l1, l2⟩ := abs_le.1 hL
  obtain ⟨s1, s2⟩ := abs_le.1 hS
  have hLS : |L * S| ≤ 11 / 10 * (11 / 10) := by
    rw [abs_mul]; exact mul_le_mul hL hS (abs_nonneg _) (by norm_num)
  obtain ⟨m1, m2⟩ := abs_le.1 hLS
  have second : ∀ X, |T1 - X| ≤ 10 * u → |X| ≤ 7 / 2 → |fl (fl (2 * L) - T1) - (2 * L - X)| ≤ 20 * u := by
    intro X h hX
    obtain ⟨t1, t2⟩ := abs_le.1 h
    obtain ⟨x1, x2⟩ := abs_le.1 hX
    obtain ⟨a1, a2⟩ := E.near (x := 2 * L) (B := 11 / 5) (by linarith) (by linarith) (by norm_num)
    obtain ⟨b1, b2⟩ := E.near (x := fl (2 * L) - T1) (B := 6) (by linarith) (by linarith) (by norm_num)
    rw [abs_le]
    constructor <;> linarith
  have e2 : L - S * spread L = 2 * L - (L + S * spread L) := by ring
  rw [e2]
  by_cases hc : L < 1 / 2
  · rw [if_pos hc] at hT1
    have e : L + S * spread L = L * (1 + S) := by
      unfold spread; rw [min_eq_left (by linarith)]; ring
    rw [e]
    obtain ⟨p1, p2⟩ := E.near (x := 1 + S) (B := 11 / 5) (by linarith) (by linarith) (by norm_num)
    have hp : |L * fl (1 + S) - L * (1 + S)| ≤ 11 / 10 * (11 / 5 * u) := by
      rw [← mul_sub, abs_mul]
      exact mul_le_mul hL (abs_le.2 ⟨by linarith, by linarith⟩) (abs_nonneg _) (by norm_num)
    obtain ⟨q1, q2⟩ := abs_le.1 hp
    obtain ⟨w1, w2⟩ := E.near (x := L * fl (1 + S)) (B := 3) (by linarith) (by linarith) (by norm_num)
    rw [← hT1] at w1 w2
    have first : |T1 - L * (1 + S)| ≤ 10 * u := by rw [abs_le]; constructor <;> linarith
    exact ⟨first, second _ first (abs_le.2 ⟨by linarith, by linarith⟩)⟩
  · rw [if_neg hc] at hT1
    have e : L + S * spread L = L + S - L * S := by
      unfold spread; rw [min_eq_right (by linarith)]; ring
    rw [e]
    obtain ⟨p1, p2⟩ := E.near (x := L + S) (B := 11 / 5) (by linarith) (by linarith) (by norm_num)
    obtain ⟨q1, q2⟩ := E.near (x := L * S) (B := 2) (by linarith) (by linarith) (by norm_num)
    obtain ⟨w1, w2⟩ := E.near (x := fl (L + S) - fl (L * S)) (B := 4) (by linarith) (by linarith) (by norm_num)
    rw [← hT1] at w1 w2
    have first : |T1 - (L + S - L * S)| ≤ 10 * u := by rw [abs_le]; constructor <;> linarith
    exact ⟨first, second _ first (abs_le.2 ⟨by linarith, by linarith⟩)⟩

/-- The position for red. -/
theorem up_move {H H' ε : ℝ} (h : |H' - H| ≤ ε) (hε : ε ≤ 1 / 100) (H0 : 0 ≤ H) (H1 : H ≤ 1 + 3 * u) :
    ∃ n : ℤ, |(if fl (H' + fl (1 / 3)) > 1 then fl (fl (H' + fl (1 / 3)) - 1) else fl (H' + fl (1 / 3))) -
        (if fl (H + fl (1 / 3)) > 1 then fl (fl (H + fl (1 / 3)) - 1) else fl (H + fl (1 / 3))) - n| ≤ ε + 8 * u ∧
      0 ≤ (if fl (H' + fl (1 / 3)) > 1 then fl (fl (H' + fl (1 / 3)) - 1) else fl (H' + fl (1 / 3))) ∧
      (if fl (H' + fl (1 / 3)) > 1 then fl (fl (H' + fl (1 / 3)) - 1) else fl (H' + fl (1 / 3))) ≤ 1 + 2 * u ∧
      0 ≤ (if fl (H + fl (1 / 3)) > 1 then fl (fl (H + fl (1 / 3)) - 1) else fl (H + fl (1 / 3))) ∧
      (if fl (H + fl (1 / 3)) > 1 then fl (fl (H + fl (1 / 3)) - 1) else fl (H + fl (1 / 3))) ≤ 1 + 2 * u := by
  have hu := E.pos
  have hs := E.small
  obtain ⟨m1, m2⟩ := abs_le.1 h
  obtain ⟨a1, a2⟩ := E.near (x := 1 / 3) (B := 1) (by norm_num) (by norm_num) (by norm_num)
  set w := fl (1 / 3)
  obtain ⟨b1, b2⟩ := E.near (x := H' + w) (B := 3 / 2) (by linarith) (by linarith) (by norm_num)
  obtain ⟨c1, c2⟩ := E.near (x := H + w) (B := 3 / 2) (by linarith) (by linarith) (by norm_num)
  set p := fl (H' + w)
  set q := fl (H + w)
  obtain ⟨d1, d2⟩ := E.near (x := p - 1) (B := 1) (by linarith) (by linarith) (by norm_num)
  obtain ⟨e1, e2⟩ := E.near (x := q - 1) (B := 1) (by linarith) (by linarith) (by norm_num)
  have z1 : p > 1 → 0 ≤ fl (p - 1) := fun h => by have := E.mono 0 (p - 1) (by linarith); rwa [E.zero] at this
  have z2 : q > 1 → 0 ≤ fl (q - 1) := fun h => by have := E.mono 0 (q - 1) (by linarith); rwa [E.zero] at this
  by_cases hp : p > 1 <;> by_cases hq : q > 1
  · rw [if_pos hp, if_pos hq]
    refine ⟨0, abs_le.2 ⟨?_, ?_⟩, z1 hp, ?_, z2 hq, ?_⟩ <;> push_cast <;> linarith
  · rw [if_pos hp, if_neg hq]
    refine ⟨-1, abs_le.2 ⟨?_, ?_⟩, z1 hp, ?_, ?_, ?_⟩ <;> push_cast <;> linarith
  · rw [if_neg hp, if_pos hq]
    refine ⟨1, abs_le.2 ⟨?_, ?_⟩, ?_, ?_, z2 hq, ?_⟩ <;> push_cast <;> linarith
  · rw [if_neg hp, if_neg hq]
    refine ⟨0, abs_le.2 ⟨?_, ?_⟩, ?_, ?_, ?_, ?_⟩ <;> push_cast <;> linarith

/-- The position for blue. -/
theorem down_move {H H' ε : ℝ} (h : |H' - H| ≤ ε) (hε : ε ≤ 1 / 100) (H0 : 0 ≤ H) (H1 : H ≤ 1 + 3 * u) :
    ∃ n : ℤ, |(if fl (H' - fl (1 / 3)) < 0 then fl (fl (H' - fl (1 / 3)) + 1) else fl (H' - fl (1 / 3))) -
        (if fl (H - fl (1 / 3)) < 0 then fl (fl (H - fl (1 / 3)) + 1) else fl (H - fl (1 / 3))) - n| ≤ ε + 8 * u ∧
      0 ≤ (if fl (H' - fl (1 / 3)) < 0 then fl (fl (H' - fl (1 / 3)) + 1) else fl (H' - fl (1 / 3))) ∧
      (if fl (H' - fl (1 / 3)) < 0 then fl (fl (H' - fl (1 / 3)) + 1) else fl (H' - fl (1 / 3))) ≤ 1 + 2 * u ∧
      0 ≤ (if fl (H - fl (1 / 3)) < 0 then fl (fl (H - fl (1 / 3)) + 1) else fl (H - fl (1 / 3))) ∧
      (if fl (H - fl (1 / 3)) < 0 then fl (fl (H - fl (1 / 3)) + 1) else fl (H - fl (1 / 3))) ≤ 1 + 2 * u := by
  have hu := E.pos
  have hs := E.small
  obtain ⟨m1, m2⟩ := abs_le.1 h
  obtain ⟨a1, a2⟩ := E.near (x := 1 / 3) (B := 1) (by norm_num) (by norm_num) (by norm_num)
  set w := fl (1 / 3)
  obtain ⟨b1, b2⟩ := E.near (x := H' - w) (B := 3 / 2) (by linarith) (by linarith) (by norm_num)
  obtain ⟨c1, c2⟩ := E.near (x := H - w) (B := 3 / 2) (by linarith) (by linarith) (by norm_num)
  set p := fl (H' - w)
  set q := fl (H - w)
  obtain ⟨d1, d2⟩ := E.near (x := p + 1) (B := 2) (by linarith) (by linarith) (by norm_num)
  obtain ⟨e1, e2⟩ := E.near (x := q + 1) (B := 2) (by linarith) (by linarith) (by norm_num)
  by_cases hp : p < 0 <;> by_cases hq : q < 0
  · rw [if_pos hp, if_pos hq]
    refine ⟨0, abs_le.2 ⟨?_, ?_⟩, ?_, ?_, ?_, ?_⟩ <;> push_cast <;> linarith
  · rw [if_pos hp, if_neg hq]
    refine ⟨1, abs_le.2 ⟨?_, ?_⟩, ?_, ?_, ?_, ?_⟩ <;> push_cast <;> linarith
  · rw [if_neg hp, if_pos hq]
    refine ⟨-1, abs_le.2 ⟨?_, ?_⟩, ?_, ?_, ?_, ?_⟩ <;> push_cast <;> linarith
  · rw [if_neg hp, if_neg hq]
    refine ⟨0, abs_le.2 ⟨?_, ?_⟩, ?_, ?_, ?_, ?_⟩ <;> push_cast <;> linarith

/-- One component. -/
theorem comp_move {T1 T2 M m t τ α γ : ℝ} (h0 : 0 ≤ m) (hm : m ≤ M) (h1 : M ≤ 1) (hT1 : |T1 - M| ≤ α) (hT2 : |T2 - m| ≤ α) (hα : α ≤ 1 / 30)
    (hφ : |phi t - phi τ| ≤ γ) (t0 : -1 / 100 ≤ t) (t1 : t ≤ 102 / 100) :
    |hueRampF fl T1 T2 t - hueRamp M m τ| ≤ 65 * u + 112 / 100 * α + γ := by
  have hα0 : 0 ≤ α := (abs_nonneg _).trans hT1
  obtain ⟨a1, a2⟩ := abs_le.1 hT1
  obtain ⟨b1, b2⟩ := abs_le.1 hT2
  have r := ramp_near E (T1 := T1) (T2 := T2) (t := t) (abs_le.2 ⟨by linarith, by linarith⟩) (abs_le.2 ⟨by linarith, by linarith⟩)
    (abs_le.2 ⟨by linarith, by linarith⟩) (by linarith) (by linarith)
  rw [hueRamp_phi]
  set f := phi t
  set g := phi τ
  have f1 : f ≤ 1 := phi_le_one t
  have f0 : -(6 / 100) ≤ f := by
    show -(6 / 100) ≤ phi t
    unfold phi
    exact le_min (le_min (by linarith) (by norm_num)) (le_trans (by norm_num) (le_max_right _ _))
  have e : T2 + (T1 - T2) * f - (m + (M - m) * g) = ((1 - f) * (T2 - m) + f * (T1 - M)) + (M - m) * (f - g) := by ring
  have k1 : |(1 - f) * (T2 - m) + f * (T1 - M)| ≤ 112 / 100 * α := by
    refine (abs_add_le _ _).trans ?_
    rw [abs_mul, abs_mul, abs_of_nonneg (by linarith : 0 ≤ 1 - f)]
    have x1 : (1 - f) * |T2 - m| ≤ (1 - f) * α := mul_le_mul_of_nonneg_left hT2 (by linarith)
    have x2 : |f| * |T1 - M| ≤ |f| * α := mul_le_mul_of_nonneg_left hT1 (abs_nonneg _)
    have x3 : (1 - f + |f|) * α ≤ 112 / 100 * α := by
      refine mul_le_mul_of_nonneg_right ?_ hα0
      rcases abs_cases f with ⟨h, _⟩ | ⟨h, _⟩ <;> rw [h] <;> linarith
    linarith
  have k2 : |(M - m) * (f - g)| ≤ γ := by
    rw [abs_mul, abs_of_nonneg (by linarith : 0 ≤ M - m)]
    exact (mul_le_of_le_one_left (abs_nonneg _) (by linarith)).trans hφ
  have k3 : |T2 + (T1 - T2) * f - (m + (M - m) * g)| ≤ 112 / 100 * α + γ := by
    rw [e]; exact (abs_add_le _ _).trans (add_le_add k1 k2)
  have := abs_sub_le (hueRampF fl T1 T2 t) (T2 + (T1 - T2) * f) (m + (M - m) * g)
  linarith

end

/-- The HSL values `H`, `S`, `L` stand for the colour `c`, up to rounding errors of size `u`. -/
def StandsFor (u H S L : ℝ) (c : ℝ × ℝ × ℝ) : Prop :=
  ∃ M m h : ℝ, ∃ n : ℤ, 0 ≤ m ∧ m ≤ M ∧ M ≤ 1 ∧ |L + S * spread L - M| ≤ 50 * u ∧ |L - S * spread L - m| ≤ 80 * u ∧
    0 ≤ S ∧ S ≤ 1 + 1 / 1000 ∧ |H - h - n| ≤ 6 * u ∧ 0 ≤ H ∧ H ≤ 1 + 3 * u ∧ 0 ≤ h ∧ h ≤ 1 ∧ ramps M m h = c

theorem StandsFor.bound {u H S L : ℝ} {c} (h : StandsFor u H S L c) (hu0 : 0 < u) (hu : u ≤ 1 / 8000000) :
    |H| ≤ 1 + 1 / 1000 ∧ |S| ≤ 1 + 1 / 1000 ∧ |L| ≤ 1 + 1 / 1000 ∧ -(65 * u) ≤ L ∧ L ≤ 1 + 65 * u := by
  obtain ⟨M, m, h, n, h0, hm, h1, a, b, s0, s1, -, H0, H1, -⟩ := h
  obtain ⟨a1, a2⟩ := abs_le.1 a
  obtain ⟨b1, b2⟩ := abs_le.1 b
  refine ⟨abs_le.2 ⟨?_, ?_⟩, abs_le.2 ⟨?_, ?_⟩, abs_le.2 ⟨?_, ?_⟩, ?_, ?_⟩ <;> linarith

/-- The threshold of `HSLToRGB` below which a colour is gray. -/
theorem gray_threshold {r : Rounding} (hr : r.IEEE) : |r.toDouble (1 / 10000) - 1 / 10000| ≤ 1 / 2 ^ 30 := by
  have h := rounds_std (by norm_num) hr.2 (1 / 10000)
  have e1 : (2 : ℝ) ^ (-((53 : ℕ) : ℤ)) ≤ 1 / 2 ^ 20 := by norm_num [zpow_neg]
  have e2 : (2 : ℝ) ^ ((-1074 : ℤ) - 1) ≤ 1 / 2 ^ 64 := by
    rw [show (-1074 : ℤ) - 1 = -(1075 : ℕ) by norm_num, zpow_neg, zpow_natCast, ← one_div]
    exact one_div_le_one_div_of_le (by positivity) (pow_le_pow_right₀ (by norm_num) (by norm_num))
  rw [abs_of_nonneg (by norm_num : (0 : ℝ) ≤ 1 / 10000)] at h
  have h2 : |r.toDouble (1 / 10000) - 1 / 10000| ≤ 1 / 2 ^ 20 * (1 / 10000) + 1 / 2 ^ 64 :=
    h.trans (add_le_add (mul_le_mul_of_nonneg_right e1 (by norm_num)) e2)
  exact h2.trans (by norm_num)

set_option maxHeartbeats 1000000 in
/-- A change of the HSL values changes the colour at most nine times as much. -/
theorem hsl_move {r : Rounding} (hr : r.IEEE) {H S L H' S' L' ε : ℝ} {c : ℝ × ℝ × ℝ} (hc : StandsFor (1 / 2 ^ 23) H S L c)
    (hε : ε ≤ 1 / 100) (dH : |H' - H| ≤ ε) (dS : |S' - S| ≤ ε) (dL : |L' - L| ≤ ε) :
    Within (9 * ε + 1 / 10000) (hslToRgbF r H' S' L') c := by
  have E := smallErr_of hr
  have ε0 : 0 ≤ ε := (abs_nonneg _).trans dH
  obtain ⟨bH, bS, bL, L0, L1⟩ := hc.bound E.pos E.small
  obtain ⟨M, m, h, n, h0, hm, h1, hM, hmm, s0, s1, hn, H0, H1, hh0, hh1, rfl⟩ := hc
  have hu := E.pos
  have hs := E.small
  set u : ℝ := 1 / 2 ^ 23
  clear_value u
  obtain ⟨x1, x2⟩ := abs_le.1 dH
  obtain ⟨y1, y2⟩ := abs_le.1 dS
  obtain ⟨z1, z2⟩ := abs_le.1 dL
  obtain ⟨bS1, bS2⟩ := abs_le.1 bS
  -- the largest and smallest component
  have hf1 : |spread L'| ≤ 1 / 2 := abs_le.2 ⟨by have := spread_ge (l := L') (e := 1 / 2) (by linarith) (by linarith); linarith, spread_le L'⟩
  have hprod : |S' * spread L' - S * spread L| ≤ 151 / 100 * ε := by
    have e : S' * spread L' - S * spread L = (S' - S) * spread L' + S * (spread L' - spread L) := by ring
    rw [e]
    refine (abs_add_le _ _).trans ?_
    rw [abs_mul, abs_mul]
    have k1 : |S' - S| * |spread L'| ≤ ε * (1 / 2) := mul_le_mul dS hf1 (abs_nonneg _) ε0
    have k2 : |S| * |spread L' - spread L| ≤ (1 + 1 / 1000) * ε := mul_le_mul bS ((spread_lip _ _).trans dL) (abs_nonneg _) (by norm_num)
    linarith
  obtain ⟨p1, p2⟩ := abs_le.1 hprod
  obtain ⟨q1, q2⟩ := abs_le.1 hM
  obtain ⟨r1, r2⟩ := abs_le.1 hmm
  have iT1 : |L' + S' * spread L' - M| ≤ 251 / 100 * ε + 80 * u := by rw [abs_le]; constructor <;> linarith
  have iT2 : |L' - S' * spread L' - m| ≤ 251 / 100 * ε + 80 * u := by rw [abs_le]; constructor <;> linarith
  unfold hslToRgbF
  by_cases hg : |S'| < r.toDouble (1 / 10000)
  · rw [if_pos hg]
    obtain ⟨g1, g2⟩ := abs_le.1 (gray_threshold hr)
    have k : |S' * spread L'| ≤ 1 / 15000 := by
      rw [abs_mul]
      have := mul_le_mul hg.le hf1 (abs_nonneg _) ((abs_nonneg _).trans hg.le)
      norm_num at g2
      linarith
    obtain ⟨k1, k2⟩ := abs_le.1 k
    obtain ⟨i1, i2⟩ := abs_le.1 iT1
    obtain ⟨j1, j2⟩ := abs_le.1 iT2
    have comp : ∀ τ, 0 ≤ τ → |L' - hueRamp M m τ| ≤ 9 * ε + 1 / 10000 := by
      intro τ hτ
      rw [hueRamp_phi]
      have f1 := phi_le_one τ
      have f0 := phi_low hτ
      have v1 : 0 ≤ (M - m) * phi τ := mul_nonneg (by linarith) f0
      have v2 : (M - m) * phi τ ≤ M - m := mul_le_of_le_one_right (by linarith) f1
      rw [abs_le]
      constructor <;> linarith
    refine ⟨comp _ ?_, comp _ ?_, comp _ ?_⟩
    · split_ifs <;> linarith
    · exact hh0
    · split_ifs <;> linarith
  · rw [if_neg hg]
    simp only
    obtain ⟨t1, t2⟩ := top_near E (L := L') (S := S') (abs_le.2 ⟨by linarith, by linarith⟩) (abs_le.2 ⟨by linarith, by linarith⟩) rfl
    set T1 := if L' < 1 / 2 then r.toFloat (L' * r.toFloat (1 + S')) else r.toFloat (r.toFloat (L' + S') - r.toFloat (L' * S'))
    set T2 := r.toFloat (r.toFloat (2 * L') - T1)
    have cT1 : |T1 - M| ≤ 251 / 100 * ε + 100 * u := by
      have := abs_sub_le T1 (L' + S' * spread L') M
      linarith
    have cT2 : |T2 - m| ≤ 251 / 100 * ε + 100 * u := by
      have := abs_sub_le T2 (L' - S' * spread L') m
      linarith
    obtain ⟨n1, a1, a2, a3⟩ := third_up E hn H0 H1 hh0 hh1
    obtain ⟨n2, b1, b2, b3⟩ := third_down E hn H0 H1 hh0 hh1
    obtain ⟨n3, c1, c2, c3, c4, c5⟩ := up_move E dH hε H0 H1
    obtain ⟨n4, d1, d2, d3, d4, d5⟩ := down_move E dH hε H0 H1
    have fin : ∀ {t τ : ℝ}, |phi t - phi τ| ≤ 6 * ε + 300 * u → -1 / 100 ≤ t → t ≤ 102 / 100 →
        |hueRampF r.toFloat T1 T2 t - hueRamp M m τ| ≤ 9 * ε + 1 / 10000 := by
      intro t τ hφ l1 l2
      have := comp_move E h0 hm h1 cT1 cT2 (by linarith) hφ l1 l2
      linarith
    refine ⟨fin ?_ (by linarith) (by linarith), fin ?_ (by linarith) ?_, fin ?_ (by linarith) (by linarith)⟩
    · refine (abs_sub_le _ (phi (if r.toFloat (H + r.toFloat (1 / 3)) > 1 then r.toFloat (r.toFloat (H + r.toFloat (1 / 3)) - 1)
        else r.toFloat (H + r.toFloat (1 / 3)))) _).trans ?_
      have k1 := phi_close c1 (by linarith) (by linarith) (by linarith) c2 c3 c4 c5
      have k2 := phi_near a1 (by linarith) a2 a3 (by split_ifs <;> linarith) (by split_ifs <;> linarith)
      linarith
    · refine (abs_sub_le _ (phi H) _).trans ?_
      have k1 := phi_lip H' H
      have k2 := phi_near hn (by linarith) (by linarith) (by linarith) (by linarith) (by linarith)
      linarith
    · linarith
    · refine (abs_sub_le _ (phi (if r.toFloat (H - r.toFloat (1 / 3)) < 0 then r.toFloat (r.toFloat (H - r.toFloat (1 / 3)) + 1)
        else r.toFloat (H - r.toFloat (1 / 3)))) _).trans ?_
      have k1 := phi_close d1 (by linarith) (by linarith) (by linarith) d2 d3 d4 d5
      have k2 := phi_near b1 (by linarith) b2 b3 (by split_ifs <;> linarith) (by split_ifs <;> linarith)
      linarith

section
variable {fl : ℝ → ℝ} {u : ℝ} (E : SmallErr fl u)
include E

/-- The saturation exceeds 1 by rounding errors only. -/
theorem sat_upper {m M S : ℝ} (h0 : 0 ≤ m) (h1 : M ≤ 1) (hm : m ≤ M) (hd : 9 / 10000 ≤ fl (M - m))
    (hS : rawSatF fl (fl (M - m)) (fl (M + m)) = .ok S) : S ≤ 1 + 1 / 1000 := by
  have hu := E.pos
  have hs := E.small
  obtain ⟨d1, d2⟩ := E.near (x := M - m) (B := 1) (by linarith) (by linarith) (by norm_num)
  obtain ⟨s1, s2⟩ := E.near (x := M + m) (B := 2) (by linarith) (by linarith) (by norm_num)
  have hmono := E.mono (M - m) (M + m) (by linarith)
  set Δ := fl (M - m)
  set sm := fl (M + m)
  unfold rawSatF at hS
  split_ifs at hS with hc
  · rw [divF_ok E (by linarith)] at hS
    cases hS
    have a0 : 0 ≤ Δ / sm := div_nonneg (by linarith) (by linarith)
    have a1 : Δ / sm ≤ 1 := (div_le_one (by linarith)).2 hmono
    obtain ⟨S1, S2⟩ := E.near (x := Δ / sm) (B := 1) (by linarith) a1 (by norm_num)
    linarith
  · obtain ⟨v1, v2⟩ := E.near (x := 2 - sm) (B := 2) (by linarith) (by linarith) (by norm_num)
    rw [divF_ok E (by linarith)] at hS
    cases hS
    have hW : 0 < fl (2 - sm) := by linarith
    have a0 : 0 ≤ Δ / fl (2 - sm) := div_nonneg (by linarith) hW.le
    have a1 : Δ / fl (2 - sm) ≤ 1 + 9 / 10000 := by
      rw [div_le_iff₀ hW]
      linarith
    obtain ⟨S1, S2⟩ := E.near (x := Δ / fl (2 - sm)) (B := 2) (by linarith) (by linarith) (by norm_num)
    linarith

end

/-- The HSL values of a colour that is gray, or neither nearly gray nor has a component just below the largest. -/
theorem stands_for {r : Rounding} (hr : r.IEEE) {R G B : ℝ} (hc : UnitColour (R, G, B))
    (hg : max R (max G B) = min R (min G B) ∨ 2 / 1000 ≤ max R (max G B) - min R (min G B))
    (hcl : ∀ c ∈ [R, G, B], max R (max G B) - c < 2 / 10000 → c = max R (max G B)) :
    ∃ h s l, rgbToHslF r.toFloat R G B = .ok (h, s, l) ∧ StandsFor (1 / 2 ^ 23) h s l (R, G, B) := by
  have E := smallErr_of hr
  obtain ⟨⟨r0, r1⟩, ⟨g0, g1⟩, ⟨b0, b1⟩⟩ := hc
  simp only at r0 r1 g0 g1 b0 b1
  have h0 : 0 ≤ min R (min G B) := le_min r0 (le_min g0 b0)
  have h1 : max R (max G B) ≤ 1 := max_le r1 (max_le g1 b1)
  have hRx : R ≤ max R (max G B) := le_max_left _ _
  have hGx : G ≤ max R (max G B) := le_trans (le_max_left _ _) (le_max_right _ _)
  have hBx : B ≤ max R (max G B) := le_trans (le_max_right _ _) (le_max_right _ _)
  have hRn : min R (min G B) ≤ R := min_le_left _ _
  have hGn : min R (min G B) ≤ G := le_trans (min_le_right _ _) (min_le_left _ _)
  have hBn : min R (min G B) ≤ B := le_trans (min_le_right _ _) (min_le_right _ _)
  have hu := E.pos
  have hs := E.small
  obtain ⟨l1, l2⟩ := E.near (x := 1 / 1000) (B := 1 / 1000) (by norm_num) (by norm_num) (by norm_num)
  obtain ⟨d1, d2⟩ := E.near (x := max R (max G B) - min R (min G B)) (B := 1) (by linarith) (by linarith) (by norm_num)
  unfold rgbToHslF
  rcases hg with hg | hg
  · rw [if_pos (by rw [hg, sub_self, E.zero, abs_zero]; norm_num at l1 ⊢; linarith)]
    refine ⟨_, _, _, rfl, R, R, 0, 0, r0, le_rfl, r1, ?_, ?_, le_rfl, by norm_num, ?_, le_rfl, by norm_num, le_rfl, by norm_num, ?_⟩
    · simp
    · simp
    · simp
    · have eG : G = R := by linarith
      have eB : B = R := by linarith
      subst eG eB
      unfold ramps
      simp only [hueRamp_phi, sub_self, zero_mul, add_zero]
  · have hdiff : 9 / 10000 ≤ r.toFloat (max R (max G B) - min R (min G B)) := by linarith
    rw [if_neg (by rw [abs_of_nonneg (by linarith)]; norm_num at l2 ⊢; linarith)]
    obtain ⟨S, hS, hSlow, hT⟩ := sat_near E h0 h1 (by linarith) hdiff
    have hSup := sat_upper E h0 h1 (by linarith) hdiff hS
    obtain ⟨Q, h, n, hQ, n1, n2, n3, n4, n5, hw, hex⟩ := hueF_near E h0 h1 hdiff
    obtain ⟨t1, t2⟩ := hT _ rfl _ rfl
    obtain ⟨s1, s2⟩ := E.near (x := max R (max G B) + min R (min G B)) (B := 2) (by linarith) (by linarith) (by norm_num)
    obtain ⟨k1, k2⟩ := E.near (x := r.toFloat (max R (max G B) + min R (min G B)) / 2) (B := 2) (by linarith) (by linarith) (by norm_num)
    obtain ⟨i1, i2⟩ := top_near E (L := r.toFloat (r.toFloat (max R (max G B) + min R (min G B)) / 2)) (S := S)
      (abs_le.2 ⟨by linarith, by linarith⟩) (abs_le.2 ⟨by linarith, by linarith⟩) rfl
    refine ⟨_, _, _, by simp only [hS, hQ]; rfl, max R (max G B), min R (min G B), h, n, h0, by linarith, h1, ?_, ?_, by linarith, hSup, n1, n2, n3,
      n4, n5, hex hcl⟩
    · rw [abs_sub_comm] at i1
      refine (abs_sub_le _ _ _).trans ((add_le_add i1 t1).trans (by linarith))
    · rw [abs_sub_comm] at i2
      refine (abs_sub_le _ _ _).trans ((add_le_add i2 t2).trans (by linarith))

end WB
