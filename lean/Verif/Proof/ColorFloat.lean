import Verif.Model.ColorFloat
import Verif.Proof.Color
import Verif.Proof.Rounding
import Verif.Proof.Pixel
import Verif.Spec.Pixel

/-! Rounding errors of the colour conversions. -/

set_option linter.unusedVariables false
set_option linter.unusedSectionVars false

namespace WB

/-- What is used about the rounding: small errors, order, zero. -/
structure SmallErr (fl : ℝ → ℝ) (u : ℝ) : Prop where
  pos : 0 < u
  small : u ≤ 1 / 8000000
  err : ∀ x B : ℝ, |x| ≤ B → 1 / 2 ^ 40 ≤ B → |fl x - x| ≤ B * u
  mono : ∀ x y, x ≤ y → fl x ≤ fl y
  zero : fl 0 = 0

theorem smallErr_of {r : Rounding} (hr : r.IEEE) : SmallErr r.toFloat (1 / 2 ^ 23) := by
  refine ⟨by norm_num, by norm_num, ?_, fun x y => rounds_mono hr.1, rounds_self hr.1 ⟨0, 0, by norm_num, by norm_num, by norm_num⟩⟩
  intro x B hx hB
  have h := rounds_std (by norm_num) hr.1 x
  have e1 : (2 : ℝ) ^ (-((24 : ℕ) : ℤ)) = 1 / 2 ^ 24 := by norm_num [zpow_neg]
  have e2 : (2 : ℝ) ^ ((-149 : ℤ) - 1) ≤ 1 / 2 ^ 64 := by
    rw [show (-149 : ℤ) - 1 = -(150 : ℕ) by norm_num, zpow_neg, zpow_natCast, ← one_div]
    exact one_div_le_one_div_of_le (by positivity) (pow_le_pow_right₀ (by norm_num) (by norm_num))
  rw [e1] at h
  have h2 : (1 : ℝ) / 2 ^ 24 * |x| ≤ 1 / 2 ^ 24 * B := mul_le_mul_of_nonneg_left hx (by norm_num)
  have h3 : (1 : ℝ) / 2 ^ 64 = 1 / 2 ^ 24 * (1 / 2 ^ 40) := by norm_num
  have h4 : (1 : ℝ) / 2 ^ 24 * (1 / 2 ^ 40) ≤ 1 / 2 ^ 24 * B := mul_le_mul_of_nonneg_left hB (by norm_num)
  have h5 : B * (1 / 2 ^ 23) = 1 / 2 ^ 24 * B + 1 / 2 ^ 24 * B := by ring
  rw [h5]
  linarith

section
variable {fl : ℝ → ℝ} {u : ℝ} (E : SmallErr fl u)
include E

theorem SmallErr.near {x B : ℝ} (h1 : -B ≤ x) (h2 : x ≤ B) (hB : 1 / 2 ^ 40 ≤ B) : -(B * u) ≤ fl x - x ∧ fl x - x ≤ B * u :=
  abs_le.1 (E.err x B (abs_le.2 ⟨h1, h2⟩) hB)

theorem divF_ok {x y : ℝ} (h : y ≠ 0) : divF fl x y = .ok (fl (x / y)) := by simp [divF, h]

/-- Products of quantities with errors. -/
theorem mul_near {a a' b b' α β A B : ℝ} (h1 : |a - a'| ≤ α) (h2 : |b - b'| ≤ β) (hb : |b| ≤ B) (ha : |a'| ≤ A) :
    |a * b - a' * b'| ≤ α * B + A * β := by
  have e : a * b - a' * b' = (a - a') * b + a' * (b - b') := by ring
  rw [e]
  refine (abs_add_le _ _).trans ?_
  rw [abs_mul, abs_mul]
  exact add_le_add (mul_le_mul h1 hb (abs_nonneg _) ((abs_nonneg _).trans h1)) (mul_le_mul ha h2 (abs_nonneg _) ((abs_nonneg _).trans ha))

set_option maxHeartbeats 1000000 in
/-- Saturation and luminance give back the largest and smallest component. -/
theorem sat_near {m M : ℝ} (h0 : 0 ≤ m) (h1 : M ≤ 1) (hm : m ≤ M) (hd : 9 / 10000 ≤ fl (M - m)) :
    ∃ S, rawSatF fl (fl (M - m)) (fl (M + m)) = .ok S ∧ 4 / 10000 ≤ S ∧
      ∀ L, L = fl (fl (M + m) / 2) → ∀ T1, T1 = (if L < 1 / 2 then fl (L * fl (1 + S)) else fl (fl (L + S) - fl (L * S))) →
        |T1 - M| ≤ 40 * u ∧ |fl (fl (2 * L) - T1) - m| ≤ 60 * u := by
  have hu := E.pos
  have hs := E.small
  obtain ⟨d1, d2⟩ := E.near (x := M - m) (B := 1) (by linarith) (by linarith) (by norm_num)
  obtain ⟨s1, s2⟩ := E.near (x := M + m) (B := 2) (by linarith) (by linarith) (by norm_num)
  have hmono := E.mono (M - m) (M + m) (by linarith)
  set Δ := fl (M - m) with hΔ
  set sm := fl (M + m) with hsm
  have hL := E.near (x := sm / 2) (B := 2) (by linarith) (by linarith) (by norm_num)
  set L := fl (sm / 2) with hLd
  obtain ⟨hL1, hL2⟩ := hL
  have hsmpos : 7 / 10000 ≤ sm := by linarith
  -- the second component from the first
  have second : ∀ T1, |T1 - M| ≤ 40 * u → |fl (fl (2 * L) - T1) - m| ≤ 60 * u := by
    intro T1 h
    obtain ⟨t1, t2⟩ := abs_le.1 h
    obtain ⟨a1, a2⟩ := E.near (x := 2 * L) (B := 3) (by linarith) (by linarith) (by norm_num)
    obtain ⟨b1, b2⟩ := E.near (x := fl (2 * L) - T1) (B := 4) (by linarith) (by linarith) (by norm_num)
    rw [abs_le]
    constructor <;> linarith
  unfold rawSatF
  by_cases hc : L < 1 / 2
  · rw [if_pos (by rw [← hLd]; exact hc), divF_ok E (by linarith)]
    set a := Δ / sm with ha
    have a0 : 0 ≤ a := by rw [ha]; exact div_nonneg (by linarith) (by linarith)
    have a1 : a ≤ 1 := by rw [ha]; exact (div_le_one (by linarith)).2 hmono
    have alow : 42 / 100000 ≤ a := by rw [ha, le_div_iff₀ (by linarith)]; linarith
    obtain ⟨S1, S2⟩ := E.near (x := a) (B := 1) (by linarith) a1 (by norm_num)
    refine ⟨_, rfl, by linarith, ?_⟩
    rintro _ rfl T1 hT1
    rw [if_pos hc] at hT1
    set S := fl a with hS
    obtain ⟨p1, p2⟩ := E.near (x := 1 + S) (B := 3) (by linarith) (by linarith) (by norm_num)
    set p := fl (1 + S) with hp
    have hLp : |L * p - sm / 2 * (1 + a)| ≤ 2 * u * 3 + 2 * (4 * u) := by
      refine mul_near E (abs_le.2 ⟨by linarith, by linarith⟩) (abs_le.2 ⟨by linarith, by linarith⟩) (abs_le.2 ⟨by linarith, by linarith⟩)
        (abs_le.2 ⟨by linarith, by linarith⟩)
    have e : sm / 2 * (1 + a) = (sm + Δ) / 2 := by rw [ha]; field_simp
    rw [e] at hLp
    obtain ⟨q1, q2⟩ := abs_le.1 hLp
    obtain ⟨w1, w2⟩ := E.near (x := L * p) (B := 4) (by linarith) (by linarith) (by norm_num)
    rw [← hT1] at w1 w2
    have first : |T1 - M| ≤ 40 * u := by rw [abs_le]; constructor <;> linarith
    exact ⟨first, second T1 first⟩
  · have hV : 7 / 10000 ≤ 2 - sm := by linarith
    set V := 2 - sm with hVd
    obtain ⟨v1, v2⟩ := E.near (x := V) (B := V) (by linarith) le_rfl (le_trans (by norm_num) hV)
    have hVu : V * u ≤ V * (1 / 8000000) := mul_le_mul_of_nonneg_left hs (by linarith)
    set W := fl V with hW
    have hWpos : 0 < W := by linarith
    rw [if_neg (by rw [← hLd]; exact hc), divF_ok E hWpos.ne']
    set a := Δ / V with ha
    have hVpos : 0 < V := by linarith
    have hWhi : W ≤ 15 / 10 := by linarith
    have a0 : 0 ≤ a := by rw [ha]; exact div_nonneg (by linarith) (by linarith)
    have a1 : a ≤ 2 := by rw [ha, div_le_iff₀ hVpos]; linarith
    have aV : a * V = Δ := by rw [ha]; field_simp
    set c := Δ / W with hcd
    have cW : c * W = Δ := by rw [hcd]; field_simp
    have c0 : 42 / 100000 ≤ c := by rw [hcd, le_div_iff₀ hWpos]; linarith
    have ca : |c - a| ≤ 3 * u := by
      have e : (c - a) * W = a * (V - W) := by rw [sub_mul, cW, mul_sub, aV]
      have h1 : |c - a| * W ≤ 2 * (V * u) := by
        rw [← abs_of_pos hWpos, ← abs_mul, e, abs_mul]
        exact mul_le_mul (by rw [abs_of_nonneg a0]; exact a1) (abs_le.2 ⟨by linarith, by linarith⟩) (abs_nonneg _) (by norm_num)
      have h2 : 2 * (V * u) ≤ 3 * u * W := by
        have : 2 * V ≤ 3 * W := by linarith
        calc 2 * (V * u) = 2 * V * u := by ring
          _ ≤ 3 * W * u := mul_le_mul_of_nonneg_right this hu.le
          _ = _ := by ring
      exact le_of_mul_le_mul_right (h1.trans h2) hWpos
    obtain ⟨ca1, ca2⟩ := abs_le.1 ca
    obtain ⟨S1, S2⟩ := E.near (x := c) (B := 3) (by linarith) (by linarith) (by norm_num)
    refine ⟨_, rfl, by linarith, ?_⟩
    rintro _ rfl T1 hT1
    rw [if_neg hc] at hT1
    set S := fl c with hS
    have hLS : |L * S - sm / 2 * a| ≤ 2 * u * 3 + 2 * (6 * u) := by
      refine mul_near E (abs_le.2 ⟨by linarith, by linarith⟩) (abs_le.2 ⟨by linarith, by linarith⟩) (abs_le.2 ⟨by linarith, by linarith⟩)
        (abs_le.2 ⟨by linarith, by linarith⟩)
    have hprod : |(1 - L) * S - (1 - sm / 2) * a| ≤ 2 * u * 3 + 1 * (6 * u) := by
      refine mul_near E (abs_le.2 ⟨by linarith, by linarith⟩) (abs_le.2 ⟨by linarith, by linarith⟩) (abs_le.2 ⟨by linarith, by linarith⟩)
        (abs_le.2 ⟨by linarith, by linarith⟩)
    have e : (1 - sm / 2) * a = Δ / 2 := by
      have : 1 - sm / 2 = V / 2 := by rw [hVd]; ring
      rw [this, ← aV]; ring
    rw [e] at hprod
    obtain ⟨q1, q2⟩ := abs_le.1 hprod
    obtain ⟨r1, r2⟩ := abs_le.1 hLS
    have hsma : sm / 2 * a = a - Δ / 2 := by linarith [e]
    obtain ⟨x1, x2⟩ := E.near (x := L + S) (B := 4) (by linarith) (by linarith) (by norm_num)
    obtain ⟨y1, y2⟩ := E.near (x := L * S) (B := 4) (by linarith) (by linarith) (by norm_num)
    obtain ⟨z1, z2⟩ := E.near (x := fl (L + S) - fl (L * S)) (B := 5) (by linarith) (by linarith) (by norm_num)
    rw [← hT1] at z1 z2
    have hlin : L + S - L * S = L + ((1 - L) * S) := by ring
    have first : |T1 - M| ≤ 40 * u := by rw [abs_le]; constructor <;> linarith
    exact ⟨first, second T1 first⟩

/-- Quotients of differences. -/
theorem quot_near {X D : ℝ} (hX : |X| ≤ D) (hD : 8 / 10000 ≤ D) :
    fl D ≠ 0 ∧ |fl (fl X / fl D) - X / D| ≤ 5 * u := by
  have hu := E.pos
  have hs := E.small
  obtain ⟨x1, x2⟩ := abs_le.1 hX
  have hDu : D * u ≤ D * (1 / 8000000) := mul_le_mul_of_nonneg_left hs (by linarith)
  obtain ⟨d1, d2⟩ := E.near (x := D) (B := D) (by linarith) le_rfl (le_trans (by norm_num) hD)
  obtain ⟨n1, n2⟩ := E.near (x := X) (B := D) x1 x2 (le_trans (by norm_num) hD)
  set Δ := fl D
  set N := fl X
  have hΔ : 0 < Δ := by linarith
  have hDpos : 0 < D := by linarith
  refine ⟨hΔ.ne', ?_⟩
  set q := X / D with hq
  have q1 : |q| ≤ 1 := by rw [hq, abs_div, abs_of_pos hDpos]; exact (div_le_one hDpos).2 hX
  have qD : q * D = X := by rw [hq]; field_simp
  set c := N / Δ with hc
  have cΔ : c * Δ = N := by rw [hc]; field_simp
  have h : |c - q| ≤ 3 * u := by
    have e : (c - q) * Δ = (N - X) + q * (D - Δ) := by rw [sub_mul, cΔ, mul_sub, qD]; ring
    have h1 : |c - q| * Δ ≤ D * u + 1 * (D * u) := by
      rw [← abs_of_pos hΔ, ← abs_mul, e]
      refine (abs_add_le _ _).trans (add_le_add (abs_le.2 ⟨by linarith, by linarith⟩) ?_)
      rw [abs_mul]
      exact mul_le_mul q1 (abs_le.2 ⟨by linarith, by linarith⟩) (abs_nonneg _) (by norm_num)
    have h2 : D * u + 1 * (D * u) ≤ 3 * u * Δ := by
      have : 2 * D ≤ 3 * Δ := by linarith
      calc D * u + 1 * (D * u) = 2 * D * u := by ring
        _ ≤ 3 * Δ * u := mul_le_mul_of_nonneg_right this hu.le
        _ = _ := by ring
    exact le_of_mul_le_mul_right (h1.trans h2) hΔ
  obtain ⟨h1, h2⟩ := abs_le.1 h
  obtain ⟨p1, p2⟩ := abs_le.1 q1
  obtain ⟨c1, c2⟩ := E.near (x := c) (B := 2) (by linarith) (by linarith) (by norm_num)
  rw [abs_le]
  constructor <;> linarith

end

/-! ### the ramps -/

/-- The height of the ramp between 0 and 1. -/
noncomputable def phi (t : ℝ) : ℝ := min (min (6 * t) 1) (max (4 - 6 * t) 0)

theorem hueRamp_phi (t1 t2 t : ℝ) : hueRamp t1 t2 t = t2 + (t1 - t2) * phi t := by
  unfold hueRamp phi
  split_ifs with h1 h2 h3
  · rw [min_eq_left (by linarith : 6 * t ≤ 1), max_eq_left (by linarith), min_eq_left (by linarith)]; ring
  · rw [min_eq_right (by linarith : 1 ≤ 6 * t), max_eq_left (by linarith), min_eq_left (by linarith)]; ring
  · rw [min_eq_right (by linarith : 1 ≤ 6 * t), max_eq_left (by linarith), min_eq_right (by linarith)]; ring
  · rw [min_eq_right (by linarith : 1 ≤ 6 * t), max_eq_right (by linarith), min_eq_right (by linarith)]; ring

theorem phi_lip (a b : ℝ) : |phi a - phi b| ≤ 6 * |a - b| := by
  unfold phi
  have h1 := abs_min_sub_min_le_max (6 * a) 1 (6 * b) 1
  have h2 := abs_max_sub_max_le_max (4 - 6 * a) 0 (4 - 6 * b) 0
  have h3 := abs_min_sub_min_le_max (min (6 * a) 1) (max (4 - 6 * a) 0) (min (6 * b) 1) (max (4 - 6 * b) 0)
  have e1 : |6 * a - 6 * b| = 6 * |a - b| := by rw [← mul_sub, abs_mul]; norm_num
  have e2 : |4 - 6 * a - (4 - 6 * b)| = 6 * |a - b| := by
    rw [show 4 - 6 * a - (4 - 6 * b) = -(6 * a - 6 * b) by ring, abs_neg, e1]
  have e0 : max (6 * |a - b|) (|(0 : ℝ)|) = 6 * |a - b| := by rw [abs_zero, max_eq_left (by positivity)]
  rw [e1, sub_self, e0] at h1
  rw [e2, sub_self, e0] at h2
  exact h3.trans (max_le h1 h2)

theorem phi_zero : phi 0 = 0 := by unfold phi; norm_num
theorem phi_one : phi 1 = 0 := by unfold phi; norm_num

theorem phi_le_one (t : ℝ) : phi t ≤ 1 := (min_le_left _ _).trans (min_le_right _ _)

theorem phi_ge {t : ℝ} (h : -1 / 6 ≤ t) : -1 ≤ phi t := by
  unfold phi
  refine le_min (le_min (by linarith) (by norm_num)) (le_trans (by norm_num) (le_max_right _ _))

/-- Positions that agree up to a whole number. -/
theorem phi_near {a b e : ℝ} {n : ℤ} (h : |a - b - n| ≤ e) (he : e ≤ 1 / 100) (a0 : -e ≤ a) (a1 : a ≤ 1 + e) (b0 : -e ≤ b) (b1 : b ≤ 1 + e) :
    |phi a - phi b| ≤ 24 * e := by
  have he0 : 0 ≤ e := (abs_nonneg _).trans h
  obtain ⟨h1, h2⟩ := abs_le.1 h
  have hn : n = 0 ∨ n = 1 ∨ n = -1 := by
    have l1 : (-2 : ℝ) < n := by linarith
    have l2 : (n : ℝ) < 2 := by linarith
    have l1' : (-2 : ℤ) < n := by exact_mod_cast l1
    have l2' : n < (2 : ℤ) := by exact_mod_cast l2
    omega
  rcases hn with rfl | rfl | rfl
  · have := phi_lip a b
    have h3 : |a - b| ≤ e := by simpa using h
    linarith
  · push_cast at h1 h2
    have p1 := phi_lip a 1
    have p2 := phi_lip b 0
    rw [phi_one] at p1
    rw [phi_zero] at p2
    have q1 : |a - 1| ≤ 2 * e := abs_le.2 ⟨by linarith, by linarith⟩
    have q2 : |b - 0| ≤ 2 * e := abs_le.2 ⟨by linarith, by linarith⟩
    have r1 := abs_le.1 p1
    have r2 := abs_le.1 p2
    rw [abs_le]
    constructor <;> linarith
  · push_cast at h1 h2
    have p1 := phi_lip a 0
    have p2 := phi_lip b 1
    rw [phi_zero] at p1
    rw [phi_one] at p2
    have q1 : |a - 0| ≤ 2 * e := abs_le.2 ⟨by linarith, by linarith⟩
    have q2 : |b - 1| ≤ 2 * e := abs_le.2 ⟨by linarith, by linarith⟩
    have r1 := abs_le.1 p1
    have r2 := abs_le.1 p2
    rw [abs_le]
    constructor <;> linarith

section
variable {fl : ℝ → ℝ} {u : ℝ} (E : SmallErr fl u)
include E

set_option maxHeartbeats 1000000 in
theorem ramp_near {T1 T2 t : ℝ} (hT1 : |T1| ≤ 1 + 1 / 10) (hT2 : |T2| ≤ 1 + 1 / 10) (hd : |T1 - T2| ≤ 1 + 1 / 10) (t0 : -1 / 10 ≤ t)
    (t1 : t ≤ 11 / 10) : |hueRampF fl T1 T2 t - (T2 + (T1 - T2) * phi t)| ≤ 65 * u := by
  have hu := E.pos
  have hs := E.small
  obtain ⟨a1, a2⟩ := abs_le.1 hT1
  obtain ⟨b1, b2⟩ := abs_le.1 hT2
  obtain ⟨c1, c2⟩ := abs_le.1 hd
  obtain ⟨s1, s2⟩ := E.near (x := 1 / 6) (B := 1) (by norm_num) (by norm_num) (by norm_num)
  obtain ⟨w1, w2⟩ := E.near (x := 2 / 3) (B := 1) (by norm_num) (by norm_num) (by norm_num)
  obtain ⟨d1, d2⟩ := E.near (x := T1 - T2) (B := 2) (by linarith) (by linarith) (by norm_num)
  set d := T1 - T2 with hdd
  unfold hueRampF
  rw [← hdd]
  split_ifs with h1 h2 h3
  · obtain ⟨p1, p2⟩ := E.near (x := fl d * 6) (B := 8) (by linarith) (by linarith) (by norm_num)
    set p := fl (fl d * 6)
    have hpt : |p * t - (6 * d) * t| ≤ 20 * u * (1 / 5) + 7 * 0 := by
      refine mul_near E (abs_le.2 ⟨by linarith, by linarith⟩) (by simp) (abs_le.2 ⟨by linarith, by linarith⟩) (abs_le.2 ⟨by linarith, by linarith⟩)
    have h6 : |(6 * d) * t| ≤ 7 * (1 / 5) := by
      rw [abs_mul]
      exact mul_le_mul (abs_le.2 ⟨by linarith, by linarith⟩) (abs_le.2 ⟨by linarith, by linarith⟩) (abs_nonneg _) (by norm_num)
    obtain ⟨g1, g2⟩ := abs_le.1 hpt
    obtain ⟨k1, k2⟩ := abs_le.1 h6
    obtain ⟨q1, q2⟩ := E.near (x := p * t) (B := 2) (by linarith) (by linarith) (by norm_num)
    obtain ⟨r1, r2⟩ := E.near (x := T2 + fl (p * t)) (B := 4) (by linarith) (by linarith) (by norm_num)
    have hphi : |d * phi t - 6 * d * t| ≤ 2 * (6 * u) := by
      rw [show d * phi t - 6 * d * t = d * (phi t - 6 * t) by ring, abs_mul]
      refine mul_le_mul (by linarith) ?_ (abs_nonneg _) (by norm_num)
      unfold phi
      by_cases h : t ≤ 1 / 6
      · rw [min_eq_left (by linarith : 6 * t ≤ 1), max_eq_left (by linarith), min_eq_left (by linarith), sub_self, abs_zero]; linarith
      · push Not at h
        rw [min_eq_right (by linarith : 1 ≤ 6 * t), max_eq_left (by linarith), min_eq_left (by linarith), abs_le]
        constructor <;> linarith
    obtain ⟨o1, o2⟩ := abs_le.1 hphi
    rw [abs_le]
    constructor <;> linarith
  · have hphi : |d * (1 - phi t)| ≤ 2 * (6 * u) := by
      rw [abs_mul]
      refine mul_le_mul (by linarith) ?_ (abs_nonneg _) (by norm_num)
      unfold phi
      by_cases h : t ≤ 1 / 6
      · rw [min_eq_left (by linarith : 6 * t ≤ 1), max_eq_left (by linarith), min_eq_left (by linarith), abs_le]
        constructor <;> linarith
      · push Not at h
        rw [min_eq_right (by linarith : 1 ≤ 6 * t), max_eq_left (by linarith), min_eq_left (by linarith), sub_self, abs_zero]; linarith
    rw [show T1 - (T2 + d * phi t) = d * (1 - phi t) by rw [hdd]; ring]
    linarith
  · push Not at h2
    obtain ⟨k1, k2⟩ := E.near (x := fl (2 / 3) - t) (B := 1) (by linarith) (by linarith) (by norm_num)
    set k := fl (fl (2 / 3) - t)
    have hk : |k - (2 / 3 - t)| ≤ 2 * u := abs_le.2 ⟨by linarith, by linarith⟩
    have hdk : |fl d * k - d * (2 / 3 - t)| ≤ 2 * u * 1 + 2 * (2 * u) :=
      mul_near E (abs_le.2 ⟨by linarith, by linarith⟩) hk (abs_le.2 ⟨by linarith, by linarith⟩) (abs_le.2 ⟨by linarith, by linarith⟩)
    have hb : |d * (2 / 3 - t)| ≤ 2 * (1 / 2) := by
      rw [abs_mul]
      exact mul_le_mul (by linarith) (abs_le.2 ⟨by linarith, by linarith⟩) (abs_nonneg _) (by norm_num)
    obtain ⟨g1, g2⟩ := abs_le.1 hdk
    obtain ⟨b3, b4⟩ := abs_le.1 hb
    obtain ⟨x1, x2⟩ := E.near (x := fl d * k) (B := 2) (by linarith) (by linarith) (by norm_num)
    set x := fl (fl d * k)
    have hbs : |d * (2 / 3 - t)| ≤ (1 + 1 / 10) * (1 / 6 + 1 / 1000) := by
      rw [abs_mul]
      exact mul_le_mul hd (abs_le.2 ⟨by linarith, by linarith⟩) (abs_nonneg _) (by norm_num)
    obtain ⟨b5, b6⟩ := abs_le.1 hbs
    norm_num at b5 b6
    obtain ⟨x3, x4⟩ := E.near (x := fl d * k) (B := 1 / 4) (by linarith) (by linarith) (by norm_num)
    obtain ⟨y1, y2⟩ := E.near (x := x * 6) (B := 2) (by linarith) (by linarith) (by norm_num)
    set y := fl (x * 6)
    obtain ⟨z1, z2⟩ := E.near (x := T2 + y) (B := 3) (by linarith) (by linarith) (by norm_num)
    have hphi : |d * (phi t - (4 - 6 * t))| ≤ (1 + 1 / 10) * (6 * u) := by
      rw [abs_mul]
      refine mul_le_mul hd ?_ (abs_nonneg _) (by norm_num)
      unfold phi
      rw [min_eq_right (by linarith : 1 ≤ 6 * t)]
      by_cases h : t ≤ 2 / 3
      · rw [max_eq_left (by linarith), min_eq_right (by linarith), sub_self, abs_zero]; linarith
      · push Not at h
        rw [max_eq_right (by linarith), min_eq_right (by norm_num), abs_le]
        constructor <;> linarith
    obtain ⟨o1, o2⟩ := abs_le.1 hphi
    have e1 : d * (phi t - (4 - 6 * t)) = d * phi t - 6 * (d * (2 / 3 - t)) := by ring
    rw [e1] at o1 o2
    rw [abs_le]
    constructor <;> linarith
  · push Not at h3
    have hphi : |d * phi t| ≤ 2 * (6 * u) := by
      rw [abs_mul]
      refine mul_le_mul (by linarith) ?_ (abs_nonneg _) (by norm_num)
      unfold phi
      rw [min_eq_right (by linarith : 1 ≤ 6 * t)]
      by_cases h : t ≤ 2 / 3
      · rw [max_eq_left (by linarith), min_eq_right (by linarith), abs_le]
        constructor <;> linarith
      · push Not at h
        rw [max_eq_right (by linarith), min_eq_right (by norm_num), abs_zero]; linarith
    rw [show T2 - (T2 + d * phi t) = -(d * phi t) by ring, abs_neg]
    linarith

/-- The hue agrees with the exact one up to a whole number. -/
theorem wrap_near {k q H : ℝ} (hk : k = 0 ∨ k = 2 ∨ k = 4) (q1 : -1 ≤ q) (q2 : q ≤ 1) (hH : |H - (k + q)| ≤ 12 * u) :
    ∃ n : ℤ, |(if fl (H / 6) < 0 then fl (fl (H / 6) + 1) else fl (H / 6)) - wrapHue ((k + q) / 6) - n| ≤ 6 * u ∧
      0 ≤ (if fl (H / 6) < 0 then fl (fl (H / 6) + 1) else fl (H / 6)) ∧
      (if fl (H / 6) < 0 then fl (fl (H / 6) + 1) else fl (H / 6)) ≤ 1 + 3 * u := by
  have hu := E.pos
  have hs := E.small
  obtain ⟨h1, h2⟩ := abs_le.1 hH
  have k0 : 0 ≤ k ∧ k ≤ 4 := by rcases hk with rfl | rfl | rfl <;> norm_num
  obtain ⟨a1, a2⟩ := E.near (x := H / 6) (B := 1) (by linarith) (by linarith) (by norm_num)
  set G := fl (H / 6)
  have w : ∃ n : ℤ, wrapHue ((k + q) / 6) = (k + q) / 6 + n := by
    unfold wrapHue
    split
    · exact ⟨1, by push_cast; ring⟩
    · exact ⟨0, by push_cast; ring⟩
  obtain ⟨n, hn⟩ := w
  rw [hn]
  split_ifs with hG
  · obtain ⟨b1, b2⟩ := E.near (x := G + 1) (B := 1) (by linarith) (by linarith) (by norm_num)
    refine ⟨1 - n, ?_, by linarith, by linarith⟩
    push_cast
    rw [abs_le]
    constructor <;> linarith
  · push Not at hG
    refine ⟨-n, ?_, hG, by linarith⟩
    push_cast
    rw [abs_le]
    constructor <;> linarith

theorem third_up {H h : ℝ} {n : ℤ} (hn : |H - h - n| ≤ 6 * u) (H0 : 0 ≤ H) (H1 : H ≤ 1 + 3 * u) (h0 : 0 ≤ h) (h1 : h ≤ 1) :
    ∃ n : ℤ, |(if fl (H + fl (1 / 3)) > 1 then fl (fl (H + fl (1 / 3)) - 1) else fl (H + fl (1 / 3))) -
        (if h + 1 / 3 > 1 then h + 1 / 3 - 1 else h + 1 / 3) - n| ≤ 10 * u ∧
      -(10 * u) ≤ (if fl (H + fl (1 / 3)) > 1 then fl (fl (H + fl (1 / 3)) - 1) else fl (H + fl (1 / 3))) ∧
      (if fl (H + fl (1 / 3)) > 1 then fl (fl (H + fl (1 / 3)) - 1) else fl (H + fl (1 / 3))) ≤ 1 + 10 * u := by
  have hu := E.pos
  have hs := E.small
  obtain ⟨m1, m2⟩ := abs_le.1 hn
  obtain ⟨a1, a2⟩ := E.near (x := 1 / 3) (B := 1) (by norm_num) (by norm_num) (by norm_num)
  set w := fl (1 / 3)
  obtain ⟨b1, b2⟩ := E.near (x := H + w) (B := 2) (by linarith) (by linarith) (by norm_num)
  set G := fl (H + w)
  have e : ∃ n : ℤ, (if h + 1 / 3 > 1 then h + 1 / 3 - 1 else h + 1 / 3) = h + 1 / 3 + n := by
    split
    · exact ⟨-1, by push_cast; ring⟩
    · exact ⟨0, by push_cast; ring⟩
  obtain ⟨j, hj⟩ := e
  rw [hj]
  split_ifs with hG
  · obtain ⟨c1, c2⟩ := E.near (x := G - 1) (B := 1) (by linarith) (by linarith) (by norm_num)
    refine ⟨n - j - 1, ?_, by linarith, by linarith⟩
    push_cast
    rw [abs_le]
    constructor <;> linarith
  · push Not at hG
    refine ⟨n - j, ?_, by linarith, by linarith⟩
    push_cast
    rw [abs_le]
    constructor <;> linarith

theorem third_down {H h : ℝ} {n : ℤ} (hn : |H - h - n| ≤ 6 * u) (H0 : 0 ≤ H) (H1 : H ≤ 1 + 3 * u) (h0 : 0 ≤ h) (h1 : h ≤ 1) :
    ∃ n : ℤ, |(if fl (H - fl (1 / 3)) < 0 then fl (fl (H - fl (1 / 3)) + 1) else fl (H - fl (1 / 3))) -
        (if h - 1 / 3 < 0 then h - 1 / 3 + 1 else h - 1 / 3) - n| ≤ 10 * u ∧
      -(10 * u) ≤ (if fl (H - fl (1 / 3)) < 0 then fl (fl (H - fl (1 / 3)) + 1) else fl (H - fl (1 / 3))) ∧
      (if fl (H - fl (1 / 3)) < 0 then fl (fl (H - fl (1 / 3)) + 1) else fl (H - fl (1 / 3))) ≤ 1 + 10 * u := by
  have hu := E.pos
  have hs := E.small
  obtain ⟨m1, m2⟩ := abs_le.1 hn
  obtain ⟨a1, a2⟩ := E.near (x := 1 / 3) (B := 1) (by norm_num) (by norm_num) (by norm_num)
  set w := fl (1 / 3)
  obtain ⟨b1, b2⟩ := E.near (x := H - w) (B := 1) (by linarith) (by linarith) (by norm_num)
  set G := fl (H - w)
  have e : ∃ n : ℤ, (if h - 1 / 3 < 0 then h - 1 / 3 + 1 else h - 1 / 3) = h - 1 / 3 + n := by
    split
    · exact ⟨1, by push_cast; ring⟩
    · exact ⟨0, by push_cast; ring⟩
  obtain ⟨j, hj⟩ := e
  rw [hj]
  split_ifs with hG
  · obtain ⟨c1, c2⟩ := E.near (x := G + 1) (B := 1) (by linarith) (by linarith) (by norm_num)
    refine ⟨n - j + 1, ?_, by linarith, by linarith⟩
    push_cast
    rw [abs_le]
    constructor <;> linarith
  · push Not at hG
    refine ⟨n - j, ?_, by linarith, by linarith⟩
    push_cast
    rw [abs_le]
    constructor <;> linarith

/-- One component on the way back. -/
theorem comp_near {T1 T2 M m t τ : ℝ} {n : ℤ} (h0 : 0 ≤ m) (hm : m ≤ M) (h1 : M ≤ 1) (hT1 : |T1 - M| ≤ 40 * u) (hT2 : |T2 - m| ≤ 60 * u)
    (hn : |t - τ - n| ≤ 10 * u) (t0 : -(10 * u) ≤ t) (t1 : t ≤ 1 + 10 * u) (τ0 : 0 ≤ τ) (τ1 : τ ≤ 1) :
    |hueRampF fl T1 T2 t - hueRamp M m τ| ≤ 500 * u := by
  have hu := E.pos
  have hs := E.small
  obtain ⟨a1, a2⟩ := abs_le.1 hT1
  obtain ⟨b1, b2⟩ := abs_le.1 hT2
  have r := ramp_near E (T1 := T1) (T2 := T2) (t := t) (abs_le.2 ⟨by linarith, by linarith⟩) (abs_le.2 ⟨by linarith, by linarith⟩)
    (abs_le.2 ⟨by linarith, by linarith⟩) (by linarith) (by linarith)
  have p := phi_near hn (by linarith) t0 t1 (by linarith) (by linarith)
  rw [hueRamp_phi]
  have q := mul_near E (a := T1 - T2) (a' := M - m) (b := phi t) (b' := phi τ) (α := 100 * u) (β := 24 * (10 * u)) (A := 1) (B := 1)
    (abs_le.2 ⟨by linarith, by linarith⟩) p (abs_le.2 ⟨phi_ge (by linarith), phi_le_one t⟩) (abs_le.2 ⟨by linarith, by linarith⟩)
  obtain ⟨r1, r2⟩ := abs_le.1 r
  obtain ⟨q1, q2⟩ := abs_le.1 q
  rw [abs_le]
  constructor <;> linarith

/-- All three components on the way back, from a hue close to the exact one. -/
theorem back_near {T1 T2 M m H h : ℝ} {n : ℤ} (h0 : 0 ≤ m) (hm : m ≤ M) (h1 : M ≤ 1) (hT1 : |T1 - M| ≤ 40 * u) (hT2 : |T2 - m| ≤ 60 * u)
    (hn : |H - h - n| ≤ 6 * u) (H0 : 0 ≤ H) (H1 : H ≤ 1 + 3 * u) (hh0 : 0 ≤ h) (hh1 : h ≤ 1) :
    Within (500 * u) (hueRampF fl T1 T2 (if fl (H + fl (1 / 3)) > 1 then fl (fl (H + fl (1 / 3)) - 1) else fl (H + fl (1 / 3))),
      hueRampF fl T1 T2 H, hueRampF fl T1 T2 (if fl (H - fl (1 / 3)) < 0 then fl (fl (H - fl (1 / 3)) + 1) else fl (H - fl (1 / 3))))
      (ramps M m h) := by
  have hu := E.pos
  obtain ⟨n1, x1, x2, x3⟩ := third_up E hn H0 H1 hh0 hh1
  obtain ⟨n2, y1, y2, y3⟩ := third_down E hn H0 H1 hh0 hh1
  refine ⟨?_, ?_, ?_⟩
  · refine comp_near E h0 hm h1 hT1 hT2 x1 x2 x3 ?_ ?_ <;> split_ifs <;> linarith
  · exact comp_near E h0 hm h1 hT1 hT2 (hn.trans (by linarith)) (by linarith) (by linarith) hh0 hh1
  · refine comp_near E h0 hm h1 hT1 hT2 y1 y2 y3 ?_ ?_ <;> split_ifs <;> linarith

/-- The hue, and the colour that the exact ramps give back for the exact hue. -/
theorem hueF_near {r g b : ℝ} (h0 : 0 ≤ min r (min g b)) (h1 : max r (max g b) ≤ 1)
    (hd : 9 / 10000 ≤ fl (max r (max g b) - min r (min g b))) :
    ∃ G h, ∃ n : ℤ, rawHueF fl r g b = .ok G ∧ |(if G < 0 then fl (G + 1) else G) - h - n| ≤ 6 * u ∧
      0 ≤ (if G < 0 then fl (G + 1) else G) ∧ (if G < 0 then fl (G + 1) else G) ≤ 1 + 3 * u ∧ 0 ≤ h ∧ h ≤ 1 ∧
      Within (1 / 10000 + 2 * u) (ramps (max r (max g b)) (min r (min g b)) h) (r, g, b) ∧
      ((∀ c ∈ [r, g, b], max r (max g b) - c < 2 / 10000 → c = max r (max g b)) →
        ramps (max r (max g b)) (min r (min g b)) h = (r, g, b)) := by
  have hu := E.pos
  have hs := E.small
  unfold rawHueF
  set mx := max r (max g b) with hmx
  set mn := min r (min g b) with hmn
  have hr : r ≤ mx := le_max_left _ _
  have hg : g ≤ mx := le_trans (le_max_left _ _) (le_max_right _ _)
  have hb : b ≤ mx := le_trans (le_max_right _ _) (le_max_right _ _)
  have hr' : mn ≤ r := min_le_left _ _
  have hg' : mn ≤ g := le_trans (min_le_right _ _) (min_le_left _ _)
  have hb' : mn ≤ b := le_trans (min_le_right _ _) (min_le_right _ _)
  have hmxc : mx = r ∨ mx = g ∨ mx = b := by
    rcases max_choice r (max g b) with h | h
    · exact Or.inl h
    · rcases max_choice g b with h' | h'
      · exact Or.inr (Or.inl (h.trans h'))
      · exact Or.inr (Or.inr (h.trans h'))
  have hmnc : mn = r ∨ mn = g ∨ mn = b := by
    rcases min_choice r (min g b) with h | h
    · exact Or.inl h
    · rcases min_choice g b with h' | h'
      · exact Or.inr (Or.inl (h.trans h'))
      · exact Or.inr (Or.inr (h.trans h'))
  clear_value mx mn
  obtain ⟨d1, d2⟩ := E.near (x := mx - mn) (B := 1) (by linarith) (by linarith) (by norm_num)
  have hD8 : 8 / 10000 ≤ mx - mn := by linarith
  have hD : 0 < mx - mn := by linarith
  obtain ⟨l1, l2⟩ := E.near (x := 1 / 10000) (B := 1 / 1000) (by norm_num) (by norm_num) (by norm_num)
  -- which component is taken to be the largest
  have close : ∀ x, mn ≤ x → x ≤ mx → |fl (mx - x)| < fl (1 / 10000) → mx - x < 1 / 10000 + 2 * u := by
    intro x hx hx' h
    by_contra hc
    push Not at hc
    have h3 := E.mono (1 / 10000 + 2 * u) (mx - x) hc
    obtain ⟨k1, k2⟩ := E.near (x := 1 / 10000 + 2 * u) (B := 1 / 1000) (by linarith) (by linarith) (by norm_num)
    have := (abs_lt.1 h).2
    linarith
  have far : ∀ x, ¬ |fl (mx - x)| < fl (1 / 10000) → mx ≠ x := by
    intro x h he
    rw [he, sub_self, E.zero, abs_zero] at h
    exact h (by linarith)
  have qb : ∀ x y : ℝ, mn ≤ x → x ≤ mx → mn ≤ y → y ≤ mx → |x - y| ≤ mx - mn := by
    intro x y _ _ _ _
    rw [abs_le]
    constructor <;> linarith
  have qb' : ∀ x y : ℝ, |x - y| ≤ mx - mn → -1 ≤ (x - y) / (mx - mn) ∧ (x - y) / (mx - mn) ≤ 1 := by
    intro x y h
    obtain ⟨h1, h2⟩ := abs_le.1 h
    constructor
    · rw [le_div_iff₀ hD]; linarith
    · rw [div_le_iff₀ hD]; linarith
  have mul1 : ∀ x y : ℝ, (mx - mn) * max ((x - y) / (mx - mn)) 0 = max (x - y) 0 := by
    intro x y
    rw [mul_max_of_nonneg _ _ hD.le, mul_div_cancel₀ _ hD.ne', mul_zero]
  have mul2 : ∀ x y : ℝ, (mx - mn) * max (-((x - y) / (mx - mn))) 0 = max (y - x) 0 := by
    intro x y
    have : -((x - y) / (mx - mn)) = (y - x) / (mx - mn) := by ring
    rw [this, mul1]
  have range : ∀ q : ℝ, -1 ≤ q → q ≤ 1 → ∀ k : ℝ, (k = 0 ∨ k = 2 ∨ k = 4) → 0 ≤ wrapHue ((k + q) / 6) ∧
      wrapHue ((k + q) / 6) ≤ 1 := by
    intro q h1 h2 k hk
    unfold wrapHue
    split <;> rcases hk with rfl | rfl | rfl <;> constructor <;> linarith
  have shift : ∀ k q Q : ℝ, (k = 2 ∨ k = 4) → -1 ≤ q → q ≤ 1 → |Q - q| ≤ 5 * u → |fl (k + Q) - (k + q)| ≤ 12 * u := by
    intro k q Q hk h1 h2 h
    obtain ⟨a1, a2⟩ := abs_le.1 h
    have k0 : 0 ≤ k ∧ k ≤ 4 := by rcases hk with rfl | rfl <;> norm_num
    obtain ⟨b1, b2⟩ := E.near (x := k + Q) (B := 6) (by linarith) (by linarith) (by norm_num)
    rw [abs_le]
    constructor <;> linarith
  -- what the ramps give back: the component taken as largest is replaced by the largest
  by_cases c1 : |fl (mx - r)| < fl (1 / 10000)
  · have a := close r hr' hr c1
    have hX := qb g b hg' hg hb' hb
    obtain ⟨hne, hq⟩ := quot_near E hX hD8
    obtain ⟨q1, q2⟩ := qb' g b hX
    obtain ⟨n, w1, w2, w3⟩ := wrap_near E (k := 0) (q := (g - b) / (mx - mn)) (H := fl (fl (g - b) / fl (mx - mn))) (Or.inl rfl) q1 q2 (by
      rw [zero_add]; exact hq.trans (by linarith))
    obtain ⟨v1, v2⟩ := range _ q1 q2 0 (Or.inl rfl)
    refine ⟨_, _, n, by rw [if_pos c1, divF_ok E hne]; rfl, w1, w2, w3, v1, v2, ?_⟩
    rw [zero_add, ramps_red q1 q2, mul1, mul2]
    have hg2 : mn + max (g - b) 0 = g := by
      rcases hmnc with h | h | h
      · exfalso; linarith
      · rw [max_eq_right (by linarith), add_zero, h]
      · rw [max_eq_left (by linarith), h]; ring
    have hb2 : mn + max (b - g) 0 = b := by
      rcases hmnc with h | h | h
      · exfalso; linarith
      · rw [max_eq_left (by linarith), h]; ring
      · rw [max_eq_right (by linarith), add_zero, h]
    rw [hg2, hb2]
    refine ⟨⟨?_, ?_, ?_⟩, fun hc => ?_⟩
    · simp only; rw [abs_of_nonneg (by linarith)]; exact a.le
    · simp only [sub_self, abs_zero]; linarith
    · simp only [sub_self, abs_zero]; linarith
    · rw [← hc r (by simp) (by linarith)]
  · have nr := far r c1
    by_cases c2 : |fl (mx - g)| < fl (1 / 10000)
    · have a := close g hg' hg c2
      have hX := qb b r hb' hb hr' hr
      obtain ⟨hne, hq⟩ := quot_near E hX hD8
      obtain ⟨q1, q2⟩ := qb' b r hX
      obtain ⟨n, w1, w2, w3⟩ := wrap_near E (k := 2) (q := (b - r) / (mx - mn)) (H := fl (2 + fl (fl (b - r) / fl (mx - mn)))) (Or.inr (Or.inl rfl)) q1 q2
        (shift 2 _ _ (Or.inl rfl) q1 q2 hq)
      obtain ⟨v1, v2⟩ := range _ q1 q2 2 (Or.inr (Or.inl rfl))
      refine ⟨_, _, n, by rw [if_neg c1, if_pos c2, divF_ok E hne]; rfl, w1, w2, w3, v1, v2, ?_⟩
      rw [ramps_green q1 q2, mul1, mul2]
      have hr2 : mn + max (r - b) 0 = r := by
        rcases hmnc with h | h | h
        · rw [max_eq_right (by linarith), add_zero, h]
        · exfalso; linarith
        · rw [max_eq_left (by linarith), h]; ring
      have hb2 : mn + max (b - r) 0 = b := by
        rcases hmnc with h | h | h
        · rw [max_eq_left (by linarith), h]; ring
        · exfalso; linarith
        · rw [max_eq_right (by linarith), add_zero, h]
      rw [hr2, hb2]
      refine ⟨⟨?_, ?_, ?_⟩, fun hc => ?_⟩
      · simp only [sub_self, abs_zero]; linarith
      · simp only; rw [abs_of_nonneg (by linarith)]; exact a.le
      · simp only [sub_self, abs_zero]; linarith
      · rw [← hc g (by simp) (by linarith)]
    · have ng := far g c2
      have hb3 : mx = b := by tauto
      have hX := qb r g hr' hr hg' hg
      obtain ⟨hne, hq⟩ := quot_near E hX hD8
      obtain ⟨q1, q2⟩ := qb' r g hX
      obtain ⟨n, w1, w2, w3⟩ := wrap_near E (k := 4) (q := (r - g) / (mx - mn)) (H := fl (4 + fl (fl (r - g) / fl (mx - mn)))) (Or.inr (Or.inr rfl)) q1 q2
        (shift 4 _ _ (Or.inr rfl) q1 q2 hq)
      obtain ⟨v1, v2⟩ := range _ q1 q2 4 (Or.inr (Or.inr rfl))
      refine ⟨_, _, n, by rw [if_neg c1, if_neg c2, divF_ok E hne]; rfl, w1, w2, w3, v1, v2, ?_⟩
      rw [ramps_blue q1 q2, mul1, mul2]
      have hr2 : mn + max (r - g) 0 = r := by
        rcases hmnc with h | h | h
        · rw [max_eq_right (by linarith), add_zero, h]
        · rw [max_eq_left (by linarith), h]; ring
        · exfalso; linarith
      have hg2 : mn + max (g - r) 0 = g := by
        rcases hmnc with h | h | h
        · rw [max_eq_left (by linarith), h]; ring
        · rw [max_eq_right (by linarith), add_zero, h]
        · exfalso; linarith
      rw [hr2, hg2, hb3]
      refine ⟨⟨?_, ?_, ?_⟩, fun _ => rfl⟩ <;> simp only [sub_self, abs_zero] <;> linarith

end

/-- The round trip of one colour in `float`. -/
theorem rgb_float {r : Rounding} (hr : r.IEEE) {R G B : ℝ} (hc : UnitColour (R, G, B)) :
    ∃ h s l, rgbToHslF r.toFloat R G B = .ok (h, s, l) ∧ Within (1 / 1000 + 1 / 15000) (hslToRgbF r h s l) (R, G, B) ∧
      ((max R (max G B) = min R (min G B) ∨ 2 / 1000 ≤ max R (max G B) - min R (min G B)) →
        (∀ c ∈ [R, G, B], max R (max G B) - c < 2 / 10000 → c = max R (max G B)) → Within (1 / 15000) (hslToRgbF r h s l) (R, G, B)) := by
  have E := smallErr_of hr
  obtain ⟨⟨r0, r1⟩, ⟨g0, g1⟩, ⟨b0, b1⟩⟩ := hc
  simp only at r0 r1 g0 g1 b0 b1
  have h0 : 0 ≤ min R (min G B) := le_min r0 (le_min g0 b0)
  have h1 : max R (max G B) ≤ 1 := max_le r1 (max_le g1 b1)
  have hRx : R ≤ max R (max G B) := le_max_left _ _
  have hGx : G ≤ max R (max G B) := le_trans (le_max_left _ _) (le_max_right _ _)
  have hBx : B ≤ max R (max G B) := le_trans (le_max_right _ _) (le_max_right _ _)
  have hRn : min R (min G B) ≤ R := min_le_left _ _
  have hGn : min R (min G B) ≤ G := le_trans (min_le_right _ _) (min_le_left _ _)
  have hBn : min R (min G B) ≤ B := le_trans (min_le_right _ _) (min_le_right _ _)
  obtain ⟨l1, l2⟩ := E.near (x := 1 / 1000) (B := 1 / 1000) (by norm_num) (by norm_num) (by norm_num)
  obtain ⟨d1, d2⟩ := E.near (x := max R (max G B) - min R (min G B)) (B := 1) (by linarith) (by linarith) (by norm_num)
  have dd : |r.toDouble (1 / 10000)| ≤ 2 / 10000 ∧ 0 < r.toDouble (1 / 10000) := by
    have h := rounds_std (by norm_num) hr.2 (1 / 10000)
    have e1 : (2 : ℝ) ^ (-((53 : ℕ) : ℤ)) ≤ 1 / 2 ^ 20 := by norm_num [zpow_neg]
    have e2 : (2 : ℝ) ^ ((-1074 : ℤ) - 1) ≤ 1 / 2 ^ 64 := by
      rw [show (-1074 : ℤ) - 1 = -(1075 : ℕ) by norm_num, zpow_neg, zpow_natCast, ← one_div]
      exact one_div_le_one_div_of_le (by positivity) (pow_le_pow_right₀ (by norm_num) (by norm_num))
    rw [abs_of_nonneg (by norm_num : (0 : ℝ) ≤ 1 / 10000)] at h
    have h2 : |r.toDouble (1 / 10000) - 1 / 10000| ≤ 1 / 2 ^ 20 * (1 / 10000) + 1 / 2 ^ 64 :=
      h.trans (add_le_add (mul_le_mul_of_nonneg_right e1 (by norm_num)) e2)
    obtain ⟨a1, a2⟩ := abs_le.1 h2
    norm_num at a1 a2
    constructor
    · rw [abs_le]; constructor <;> linarith
    · linarith
  obtain ⟨dd1, dd0⟩ := dd
  obtain ⟨-, dd2⟩ := abs_le.1 dd1
  unfold rgbToHslF
  by_cases hgray : |r.toFloat (max R (max G B) - min R (min G B))| < r.toFloat (1 / 1000)
  · rw [if_pos hgray]
    refine ⟨_, _, _, rfl, ?_⟩
    have e : hslToRgbF r 0 0 R = (R, R, R) := by unfold hslToRgbF; rw [if_pos (by rw [abs_zero]; exact dd0)]
    rw [e]
    have hD := (abs_lt.1 hgray).2
    have w : ∀ e, max R (max G B) - min R (min G B) ≤ e → Within e (R, R, R) (R, G, B) := by
      intro e he
      refine ⟨?_, ?_, ?_⟩ <;> simp only <;> rw [abs_le] <;> constructor <;> linarith
    refine ⟨w _ (by linarith), fun hor _ => w _ ?_⟩
    rcases hor with h | h
    · rw [h, sub_self]; norm_num
    · exfalso; linarith
  · rw [if_neg hgray]
    have hdiff : 9 / 10000 ≤ r.toFloat (max R (max G B) - min R (min G B)) := by
      push Not at hgray
      have h3 : 0 ≤ r.toFloat (max R (max G B) - min R (min G B)) := by
        have := E.mono 0 (max R (max G B) - min R (min G B)) (by linarith)
        rwa [E.zero] at this
      rw [abs_of_nonneg h3] at hgray
      norm_num at l1
      linarith
    obtain ⟨S, hS, hSlow, hT⟩ := sat_near E h0 h1 (by linarith) hdiff
    obtain ⟨Q, h, n, hQ, n1, n2, n3, n4, n5, hw, hex⟩ := hueF_near E h0 h1 hdiff
    obtain ⟨t1, t2⟩ := hT _ rfl _ rfl
    have hback := back_near E h0 (by linarith) h1 t1 t2 n1 n2 n3 n4 n5
    refine ⟨_, _, _, by simp only [hS, hQ]; rfl, ?_⟩
    unfold hslToRgbF
    rw [if_neg (by rw [abs_of_nonneg (by linarith)]; linarith)]
    have tri : ∀ {a b c : ℝ × ℝ × ℝ} {e f : ℝ}, Within e a b → Within f b c → Within (e + f) a c := by
      rintro a b c e f ⟨x1, x2, x3⟩ ⟨y1, y2, y3⟩
      exact ⟨(abs_sub_le _ _ _).trans (add_le_add x1 y1), (abs_sub_le _ _ _).trans (add_le_add x2 y2), (abs_sub_le _ _ _).trans (add_le_add x3 y3)⟩
    have mono : ∀ {a b : ℝ × ℝ × ℝ} {e f : ℝ}, Within e a b → e ≤ f → Within f a b := by
      rintro a b e f ⟨x1, x2, x3⟩ h
      exact ⟨x1.trans h, x2.trans h, x3.trans h⟩
    refine ⟨mono (tri hback hw) (by norm_num), fun _ hcl => ?_⟩
    rw [hex hcl] at hback
    exact mono hback (by norm_num)

end WB
