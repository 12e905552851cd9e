import Verif.Props.FloatDenoise

/-!
Scaled composition of changed coefficients, on the stored bit patterns.
-/

namespace WB.Props

open Finset Spec

set_option maxHeartbeats 1000000 in
/-- One channel: coefficients that are `√N P` away from those of the decomposition in `float`, composed in `float` at the scale `s`, next to the exact
decomposition composed exactly at the same scale. -/
theorem preview_channel {r : Rounding} (hr : r.IEEE) {o : FloatOps} (ho : o.Correct r) {p : Params} (hv : ValidParams p) (hw : p.wtype ≤ 5)
    (hK : p.steps ≤ 2000) {s : ℕ} (hs : s ≤ p.steps) {x : Mat F32} (hx : Shaped p x) {M : ℝ} (hM0 : 0 ≤ M)
    (hM : ∀ i < x.rows, ∀ j < x.cols, finiteBits (x.get i j) ∧ |((number (x.get i j) : ℚ) : ℝ)| ≤ M) {c : Channel (Bits o)} (hc : SizedChan p c)
    (hfin : ∀ m ∈ c, FinV (bitsScalars hr ho) m) {P : ℝ} (hP0 : 0 ≤ P)
    (dist : apart p (VL (bitsScalars hr ho) c) (VL (bitsScalars hr ho) (chanP (α := Bits o) p (scaling (bitsKit r o) p) nullDenoiser x)) ≤
      Real.sqrt (padSize p) * P)
    (hΩ : Real.sqrt (padSize p) * (3 * M + 3 * P + 1) ≤ maxFloat) :
    (outP (bitsKit r o) p s c).rows = (outP codeKit p s (chanP p (scaling codeKit p) nullDenoiser (matNumbers x))).rows ∧
    (outP (bitsKit r o) p s c).cols = (outP codeKit p s (chanP p (scaling codeKit p) nullDenoiser (matNumbers x))).cols ∧
    FinV (bitsScalars hr ho) (outP (bitsKit r o) p s c) ∧
    nrm (msub ((outP (bitsKit r o) p s c).map (bitsScalars hr ho).val) (outP codeKit p s (chanP p (scaling codeKit p) nullDenoiser (matNumbers x)))) ≤
      Real.sqrt (padSize p) * (91 / 10 * (p.wtype + 2) * (p.shape.length * p.steps) / 2 ^ 24 * M +
          10 * (p.wtype + 2) * (p.shape.length * p.steps) / 2 ^ 150 + 102 / 100 * P) / Real.sqrt 2 ^ (p.shape.length * s) +
        (if s = 0 then 0 else Real.sqrt (padSize p) * (1 / 2 ^ 22 * (103 / 100 * M + 103 / 100 * P + 1 / 100) / Real.sqrt 2 ^ (p.shape.length * s) +
          1 / 2 ^ 149)) := by
  have hkR := codeKit_present (p := p) (by omega)
  have hw0 : 0 ≤ Real.sqrt (padSize p) := Real.sqrt_nonneg _
  have hgp : 0 < Real.sqrt 2 ^ (p.shape.length * s) := pow_pos (Real.sqrt_pos.2 (by norm_num)) _
  have hxR : Shaped p (matNumbers x) := hx
  have szF := sized_VL (sc := bitsScalars hr ho) (chanP_sized (α := Bits o) (k := bitsKit r o) hv nullDenoiser_sized hx)
  have szC := sized_VL (sc := bitsScalars hr ho) hc
  have szR := chanP_sized (k := codeKit) hv nullDenoiser_sized hxR
  have wM : 0 ≤ Real.sqrt (padSize p) * M := mul_nonneg hw0 hM0
  have wP : 0 ≤ Real.sqrt (padSize p) * P := mul_nonneg hw0 hP0
  have hΩ1 : Real.sqrt (padSize p) * (3 * M + 1) ≤ maxFloat := by nlinarith
  obtain ⟨_, t2⟩ := bits_total hr ho hv hw hK hx hM0 hM hΩ1
  obtain ⟨Q, hQ⟩ : ∃ Q, Q = Real.sqrt (padSize p) * (101 / 100 * M + 1 / 2 ^ 130 + P) := ⟨_, rfl⟩
  have hQ0 : 0 ≤ Q := by rw [hQ]; positivity
  have hQt : total p (VL (bitsScalars hr ho) c) ≤ Q := by
    refine (total_le szC szF).trans ((add_le_add dist t2).trans (le_of_eq ?_))
    rw [hQ]
    ring
  have big : ∀ h0 : p.steps ≠ 0, nit (stepG p) (stepT p) (p.steps - s) Q ≤ 61 / 60 * Q + 1 / 1000 * Real.sqrt (padSize p) := fun h0 =>
    (steps_code hr hv hw h0 (k := p.steps - s) (by omega) hQ0).2.2
  have pf := pad_fin (sc := bitsScalars hr ho) hv hx hM0 hM
  obtain ⟨_, _, k3⟩ := chan_apart (sc := bitsScalars hr ho) (kF := bitsKit r o) (k := codeKit) (q := Real.sqrt (padSize p) * M)
    (τ := 401 / 100 * p.wtype / 2 ^ 150 * Real.sqrt (padSize p)) hv hkR (bits_coef hr ho hv hw) (by positivity) (lw_code_sqrt hw) hx pf.1 pf.2 (by
      intro h0
      obtain ⟨_, _, s3⟩ := steps_code hr hv hw h0 (k := p.steps) (by omega) wM
      refine (gr_mono' (code_coef hr hv hw h0) s3).trans (no_overflow_code hr hv hw h0 ?_ (by positivity))
      nlinarith)
  have k3 : apart p (VL (bitsScalars hr ho) (chanP (α := Bits o) p (scaling (bitsKit r o) p) nullDenoiser x))
      (chanP p (scaling codeKit p) nullDenoiser (matNumbers x)) ≤ _ := k3
  obtain ⟨o1, o2, o3, o4⟩ := out_apart (sc := bitsScalars hr ho) (kF := bitsKit r o) (k := codeKit) (s := s) (Q := Q)
    (τ := 401 / 100 * p.wtype / 2 ^ 150 * Real.sqrt (padSize p)) hv hkR (bits_coef hr ho hv hw) (by positivity)
    (lw_code_sqrt hw) hc hfin hQ0 hQt hs (fun _ _ _ => rfl) (u' := 1 / 2 ^ 22) (ω' := 1 / 2 ^ 149) (by norm_num) (by norm_num) (bits_gain hr ho)
    (fun h0 => (gr_mono' (code_coef hr hv hw h0) (big h0)).trans (no_overflow_code hr hv hw h0 (by rw [hQ]; nlinarith) (by positivity)))
    (fun h => by
      split_ifs
      · rw [hQ]; nlinarith
      · refine (big (by omega)).trans ?_
        rw [hQ]; nlinarith)
  obtain ⟨s1, s2⟩ := out_stable (k := codeKit) hv hkR (fun _ _ _ => rfl) szC szR hs
  rw [← apart_sq szC szR, ← sa_sq] at s2
  set D := chanP p (scaling codeKit p) nullDenoiser (matNumbers x) with hD
  have hg2 : (Real.sqrt 2 ^ (p.dimension * s)) ^ 2 = 2 ^ (p.dimension * s) := by rw [← pow_mul, mul_comm, pow_mul, Real.sq_sqrt (by norm_num)]
  have hdim : p.dimension = p.shape.length := rfl
  have hA0 : 1 ≤ sa p (scaling codeKit p) := by
    have := one_le_pa p.wtype (scaling codeKit p)
    unfold sa; split_ifs <;> nlinarith
  have s3 : nrm (msub (outP codeKit p s (VL (bitsScalars hr ho) c)) (outP codeKit p s D)) ≤
      sa p (scaling codeKit p) ^ (p.steps - s) * apart p (VL (bitsScalars hr ho) c) D / Real.sqrt 2 ^ (p.dimension * s) := by
    refine abs_le_of_sq_le_sq' ?_ (div_nonneg (mul_nonneg (by positivity) (apart_nonneg _ _ _)) (by positivity)) |>.2
    rw [div_pow, hg2, sq, nrm_sq, ← sqDist_energy (comb_diff s1.1.symm s1.2.symm)]
    refine s2.trans (le_of_eq ?_)
    rw [mul_pow]; ring
  have tri := nrm_tri (X := (outP (bitsKit r o) p s c).map (bitsScalars hr ho).val) (Y := outP codeKit p s (VL (bitsScalars hr ho) c)) (Z := outP codeKit p s D)
    o1 o2 s1.1 s1.2
  refine ⟨o1.trans s1.1, o2.trans s1.2, o3, tri.trans ((add_le_add o4 s3).trans ?_)⟩
  have a1 : apart p (VL (bitsScalars hr ho) c) D ≤ Real.sqrt (padSize p) * P +
      Real.sqrt (padSize p) * (9 / 2 * (p.wtype + 2) * (p.shape.length * p.steps) / 2 ^ 24 * M +
        9 / 2 * p.wtype * (p.shape.length * p.steps) / 2 ^ 150) := by
    refine (apart_tri szC szF szR).trans (add_le_add dist (k3.trans ?_))
    split_ifs with h0
    · positivity
    · obtain ⟨_, s2, _⟩ := steps_code hr hv hw h0 (k := p.steps) (by omega) wM
      have hA : 1 ≤ sa p (scaling codeKit p) ^ p.steps := one_le_pow₀ hA0
      have : Real.sqrt (padSize p) * M ≤ sa p (scaling codeKit p) ^ p.steps * (Real.sqrt (padSize p) * M) := le_mul_of_one_le_left wM hA
      refine (sub_le_sub_left this _).trans (s2.trans (le_of_eq ?_))
      ring
  have a2 : sa p (scaling codeKit p) ^ (p.steps - s) ≤ 101 / 100 := by
    by_cases h0 : p.steps = 0
    · rw [h0, Nat.zero_sub, pow_zero]; norm_num
    · obtain ⟨s1, _, _⟩ := steps_code hr hv hw h0 (k := p.steps - s) (by omega) wM
      have c1 := ((code_coef hr hv hw h0).sides (τ := 0) le_rfl).2.1
      exact (pow_le_pow_left₀ (by linarith) c1 _).trans (s1 (by omega))
  have a3 := mul_le_mul a2 a1 (apart_nonneg _ _ _) (by norm_num)
  have a4 : (if p.steps = s then 0 else nit (stepG p) (stepT p) (p.steps - s) Q - sa p (scaling codeKit p) ^ (p.steps - s) * Q) ≤
      9 / 2 * (p.wtype + 2) * (p.shape.length * p.steps) / 2 ^ 24 * Q +
      9 / 2 * p.wtype * (p.shape.length * p.steps) / 2 ^ 150 * Real.sqrt (padSize p) := by
    split_ifs with h0
    · positivity
    · have hne : p.steps ≠ 0 := by omega
      obtain ⟨_, s2, _⟩ := steps_code hr hv hw hne (k := p.steps - s) (by omega) hQ0
      have hA : 1 ≤ sa p (scaling codeKit p) ^ (p.steps - s) := one_le_pow₀ hA0
      have : Q ≤ sa p (scaling codeKit p) ^ (p.steps - s) * Q := le_mul_of_one_le_left hQ0 hA
      refine (sub_le_sub_left this _).trans (s2.trans ?_)
      have hk : ((p.steps - s : ℕ) : ℝ) ≤ p.steps := by exact_mod_cast Nat.sub_le _ _
      gcongr
  rw [hdim]
  have hX : ((p.wtype : ℝ) + 2) * (p.shape.length * p.steps) ≤ 28000 := by
    have h1 : (p.shape.length : ℝ) ≤ 2 := by exact_mod_cast dims_le hv
    have h2 : (p.steps : ℝ) ≤ 2000 := by exact_mod_cast hK
    have h3 : (p.wtype : ℝ) ≤ 5 := by exact_mod_cast hw
    have h4 : (p.shape.length : ℝ) * p.steps ≤ 2 * 2000 := mul_le_mul h1 h2 (by positivity) (by norm_num)
    have h5 := mul_le_mul (show (p.wtype : ℝ) + 2 ≤ 7 by linarith) h4 (by positivity) (by norm_num)
    linarith
  have hX1 : (p.wtype : ℝ) * (p.shape.length * p.steps) ≤ (p.wtype + 2) * (p.shape.length * p.steps) :=
    mul_le_mul_of_nonneg_right (by linarith) (by positivity)
  have hX0 : 0 ≤ ((p.wtype : ℝ) + 2) * (p.shape.length * p.steps) := by positivity
  have a5 : 9 / 2 * (p.wtype + 2) * (p.shape.length * p.steps) / 2 ^ 24 * Q +
      9 / 2 * p.wtype * (p.shape.length * p.steps) / 2 ^ 150 * Real.sqrt (padSize p) + 101 / 100 * (Real.sqrt (padSize p) * P +
      Real.sqrt (padSize p) * (9 / 2 * (p.wtype + 2) * (p.shape.length * p.steps) / 2 ^ 24 * M +
        9 / 2 * p.wtype * (p.shape.length * p.steps) / 2 ^ 150)) ≤
      Real.sqrt (padSize p) * (91 / 10 * (p.wtype + 2) * (p.shape.length * p.steps) / 2 ^ 24 * M +
          10 * (p.wtype + 2) * (p.shape.length * p.steps) / 2 ^ 150 + 102 / 100 * P) := by
    rw [hQ]
    have e1 : ∀ a : ℝ, a * (p.wtype + 2) * (p.shape.length * p.steps) = a * ((p.wtype + 2) * (p.shape.length * p.steps)) := fun a => mul_assoc _ _ _
    have e2 : ∀ a : ℝ, a * p.wtype * (p.shape.length * p.steps) = a * (p.wtype * (p.shape.length * p.steps)) := fun a => mul_assoc _ _ _
    simp only [e1, e2]
    generalize ((p.wtype : ℝ) + 2) * (p.shape.length * p.steps) = X at hX hX1 hX0 ⊢
    generalize (p.wtype : ℝ) * (p.shape.length * p.steps) = Y at hX1 ⊢
    have f1 := mul_le_mul_of_nonneg_right hX hP0
    have f2 := mul_nonneg hX0 hM0
    have inner : 9 / 2 * X / 2 ^ 24 * (101 / 100 * M + 1 / 2 ^ 130 + P) + 9 / 2 * Y / 2 ^ 150 +
        101 / 100 * (P + (9 / 2 * X / 2 ^ 24 * M + 9 / 2 * Y / 2 ^ 150)) ≤ 91 / 10 * X / 2 ^ 24 * M + 10 * X / 2 ^ 150 + 102 / 100 * P := by
      linarith
    refine le_trans (le_of_eq ?_) (mul_le_mul_of_nonneg_left inner hw0)
    ring
  have a6 : (if p.steps = s then Q else nit (stepG p) (stepT p) (p.steps - s) Q) ≤
      Real.sqrt (padSize p) * (103 / 100 * M + 103 / 100 * P + 1 / 100) := by
    split_ifs
    · rw [hQ]; nlinarith
    · refine (big (by omega)).trans ?_
      rw [hQ]; nlinarith
  rw [add_right_comm, ← add_div]
  refine add_le_add (div_le_div_of_nonneg_right ((add_le_add a4 a3).trans a5) hgp.le) ?_
  by_cases h0 : s = 0
  · rw [if_pos h0, if_pos h0]
  · rw [if_neg h0, if_neg h0]
    have a7 := div_le_div_of_nonneg_right (mul_le_mul_of_nonneg_left a6 (show (0 : ℝ) ≤ 1 / 2 ^ 22 by norm_num)) hgp.le
    refine (add_le_add_left a7 _).trans (le_of_eq ?_)
    ring

end WB.Props
