import Verif.Props.Rounding2D
import Verif.Proof.SfAssign

/-!
C86: a round trip does not overflow.
-/

namespace WB.Props

open Finset Spec

theorem maxFloat_mem : maxFloat ∈ FloatNumbers 24 (-149) :=
  ⟨2 ^ 24 - 1, 104, by norm_num, by norm_num, by unfold maxFloat; push_cast; norm_num⟩

theorem maxFloat_big : (2 : ℝ) ^ 127 ≤ maxFloat := by unfold maxFloat; norm_num

theorem toFloat_le {r : Rounding} (hr : r.IEEE) {x : ℝ} (hx : |x| ≤ maxFloat) : |r.toFloat x| ≤ maxFloat := by
  have h1 := (hr.1 x).2 _ maxFloat_mem
  have hm : -maxFloat ∈ FloatNumbers 24 (-149) := by
    obtain ⟨m, e, h1, h2, h3⟩ := maxFloat_mem
    exact ⟨-m, e, by rwa [abs_neg], h2, by rw [h3]; push_cast; ring⟩
  have h2 := (hr.1 x).2 _ hm
  obtain ⟨l1, l2⟩ := abs_le.1 hx
  rw [abs_of_nonneg (by linarith : 0 ≤ maxFloat - x)] at h1
  rw [abs_of_nonpos (by linarith : -maxFloat - x ≤ 0)] at h2
  have i1 := (abs_le.1 h1).2
  have i2 := (abs_le.1 h2).1
  exact abs_le.2 ⟨by linarith, by linarith⟩

theorem ov_round {r : Rounding} (hr : r.IEEE) {x : ℝ} (hx : |x| ≤ maxFloat) : Ov.round r.toFloat maxFloat x = Ov.of (r.toFloat x) :=
  if_pos (toFloat_le hr hx)

/-- `float`s with overflow. -/
noncomputable def ovStepwise {r : Rounding} (hr : r.IEEE) : Stepwise (Ov r.toFloat maxFloat) (1 / 2 ^ 24) (1 / 2 ^ 150) maxFloat where
  val := Ov.val
  fin := Ov.Finite
  zero := ⟨rfl, rfl⟩
  neg x hx := by
    match x, hx with
    | some v, _ => exact ⟨rfl, rfl⟩
  add x y hx hy h := by
    match x, y, hx, hy with
    | some v, some w, _, _ =>
      have e : @HAdd.hAdd (Ov r.toFloat maxFloat) (Ov r.toFloat maxFloat) _ _ (some v) (some w) = Ov.of (r.toFloat (v + w)) := ov_round hr h
      rw [e]
      refine ⟨rfl, ?_⟩
      have := rounds_std (by norm_num) hr.1 (v + w)
      have e1 : (2 : ℝ) ^ (-((24 : ℕ) : ℤ)) = 1 / 2 ^ 24 := by norm_num
      have e2 : (2 : ℝ) ^ ((-149 : ℤ) - 1) = 1 / 2 ^ 150 := by norm_num
      rwa [e1, e2] at this
  mul x y hx hy h := by
    match x, y, hx, hy with
    | some v, some w, _, _ =>
      have e : @HMul.hMul (Ov r.toFloat maxFloat) (Ov r.toFloat maxFloat) _ _ (some v) (some w) = Ov.of (r.toFloat (v * w)) := ov_round hr h
      rw [e]
      refine ⟨rfl, ?_⟩
      have := rounds_std (by norm_num) hr.1 (v * w)
      have e1 : (2 : ℝ) ^ (-((24 : ℕ) : ℤ)) = 1 / 2 ^ 24 := by norm_num
      have e2 : (2 : ℝ) ^ ((-149 : ℤ) - 1) = 1 / 2 ^ 150 := by norm_num
      rwa [e1, e2] at this

/-- `float`s with overflow, as the transform needs them. -/
noncomputable def ovScalars {r : Rounding} (hr : r.IEEE) : Scalars (Ov r.toFloat maxFloat) (1 / 2 ^ 24) (1 / 2 ^ 150) maxFloat :=
  (ovStepwise hr).scalars (by norm_num) (by norm_num)

theorem Rel.upper {α x y : ℝ} (h : Rel α x y) (ha : α ≤ 1) : |x| ≤ 2 * |y| := by
  unfold Rel at h
  have h1 : |x| ≤ |x - y| + |y| := by simpa using abs_add_le (x - y) y
  nlinarith [abs_nonneg y]

theorem ov_coeff {r : Rounding} (hr : r.IEEE) {c : ℝ} (hc : 1 / 2 ^ 20 ≤ |c|) (hc2 : |c| ≤ 2) :
    (overflowKit r).mulSqrt2 (Ov.round r.toFloat maxFloat (r.toDouble c)) =
      Ov.of (r.toFloat (r.toDouble (r.toDouble (Real.sqrt 2) * r.toFloat (r.toDouble c)))) := by
  have big := maxFloat_big
  have k1 := rel_double hr (x := c) (by linarith [show (1 : ℝ) / 2 ^ 30 ≤ 1 / 2 ^ 20 by norm_num])
  have b1 := k1.lower (by norm_num)
  have u1 := k1.upper (by norm_num)
  have k2 := rel_float hr (x := r.toDouble c) (by nlinarith [show (1 : ℝ) / 2 ^ 30 ≤ 99 / 100 * (1 / 2 ^ 20) by norm_num])
  have b2 := k2.lower (by norm_num)
  have u2 := k2.upper (by norm_num)
  have hs2 : (1 : ℝ) ≤ Real.sqrt 2 := Real.one_le_sqrt.2 (by norm_num)
  have hs3 : Real.sqrt 2 ≤ 2 := Real.sqrt_le_iff.2 ⟨by norm_num, by norm_num⟩
  have hsa : |Real.sqrt 2| = Real.sqrt 2 := abs_of_nonneg (by linarith)
  have k3 := rel_double hr (x := Real.sqrt 2) (by rw [hsa]; linarith [show (1 : ℝ) / 2 ^ 30 ≤ 1 by norm_num])
  have b3 := k3.lower (by norm_num)
  have u3 := k3.upper (by norm_num)
  rw [hsa] at b3 u3
  have hp : |r.toDouble (Real.sqrt 2) * r.toFloat (r.toDouble c)| ≤ 4 * 8 := by
    rw [abs_mul]
    exact mul_le_mul (by linarith) (by linarith) (abs_nonneg _) (by norm_num)
  have hq : 1 / 2 ^ 30 ≤ |r.toDouble (Real.sqrt 2) * r.toFloat (r.toDouble c)| := by
    rw [abs_mul]
    have : (99 / 100 : ℝ) * (99 / 100 * (99 / 100 * (1 / 2 ^ 20))) ≤ |r.toDouble (Real.sqrt 2)| * |r.toFloat (r.toDouble c)| :=
      mul_le_mul (by linarith) (by linarith) (by norm_num) (abs_nonneg _)
    refine le_trans ?_ this
    norm_num
  have k4 := rel_double hr hq
  have u4 := k4.upper (by norm_num)
  rw [ov_round hr (by linarith [show (8 : ℝ) ≤ 2 ^ 127 by norm_num])]
  show Ov.round r.toFloat maxFloat (r.toDouble (r.toDouble (Real.sqrt 2) * r.toFloat (r.toDouble c))) = _
  exact ov_round hr (by linarith [show (64 : ℝ) ≤ 2 ^ 127 by norm_num])

theorem ov_filter {r : Rounding} (hr : r.IEEE) {p : Params} (h : p.wtype ≤ 5) (j : ℕ) :
    (scalingFilter (overflowKit r) p).getD j 0 = Ov.of ((scalingFilter (floatKit r) p).getD j 0).val := by
  by_cases hj : j < (dbCoeffs p.wtype).length
  · have hmem : (dbCoeffs p.wtype)[j] ∈ dbCoeffs p.wtype := List.getElem_mem hj
    have hc := (coeff_table ⟨p.wtype, by omega⟩).1 _ hmem
    have hc' : (1 : ℝ) / 2 ^ 20 ≤ |(((dbCoeffs p.wtype)[j] : ℚ) : ℝ)| := by
      have := (Rat.cast_le (K := ℝ)).2 hc
      simpa using this
    have hs := (coeff_table ⟨p.wtype, by omega⟩).2
    have hle : |(dbCoeffs p.wtype)[j]| ≤ ((dbCoeffs p.wtype).map (fun c => |c|)).sum :=
      List.single_le_sum (by simp) _ (List.mem_map.2 ⟨_, hmem, rfl⟩)
    have hc2 : |(((dbCoeffs p.wtype)[j] : ℚ) : ℝ)| ≤ 2 := by
      have := (Rat.cast_le (K := ℝ)).2 ((hle.trans hs).trans (show (142 / 100 : ℚ) ≤ 2 by norm_num))
      simpa using this
    have e1 : (scalingFilter (overflowKit r) p).getD j 0 =
        (overflowKit r).mulSqrt2 (Ov.round r.toFloat maxFloat (r.toDouble (((dbCoeffs p.wtype)[j] : ℚ) : ℝ))) := by
      have : (scalingFilter (overflowKit r) p) = (dbCoeffs p.wtype).map
          (fun q => (overflowKit r).mulSqrt2 (Ov.round r.toFloat maxFloat (r.toDouble ((q : ℚ) : ℝ)))) := List.map_map
      rw [this, List.getD, List.getElem?_map, List.getElem?_eq_getElem hj]
      rfl
    have e2 : ((scalingFilter (floatKit r) p).getD j 0).val =
        r.toFloat (r.toDouble (r.toDouble (Real.sqrt 2) * r.toFloat (r.toDouble (((dbCoeffs p.wtype)[j] : ℚ) : ℝ)))) := by
      simp only [scalingFilter, floatKit, List.getD, List.getElem?_map, List.getElem?_eq_getElem hj, Option.map_some, Option.getD_some]
      rfl
    rw [e1, e2, ov_coeff hr hc' hc2]
  · have e1 : (scalingFilter (overflowKit r) p).getD j 0 = 0 := by
      have : (scalingFilter (overflowKit r) p) = (dbCoeffs p.wtype).map
          (fun q => (overflowKit r).mulSqrt2 (Ov.round r.toFloat maxFloat (r.toDouble ((q : ℚ) : ℝ)))) := List.map_map
      rw [this, List.getD, List.getElem?_map, List.getElem?_eq_none (by omega)]
      rfl
    have e2 : (scalingFilter (floatKit r) p).getD j 0 = 0 := by simp [scalingFilter, floatKit, List.getD, hj]
    rw [e1, e2]
    rfl

theorem overflowKit_present {r : Rounding} {p : Params} (h : p.wtype ≤ 10) : FilterPresent (overflowKit r) p := by
  intro h0
  simp only [overflowKit, List.length_map]
  exact length_dbCoeffs (by omega) h

theorem ov_apF {r : Rounding} (hr : r.IEEE) {p : Params} (h : p.wtype ≤ 5) (h0 : p.wtype ≠ 0) :
    ApF (ovScalars hr) ((1 + 1 / 2 ^ 24) ^ 3 - 1) (scaling (overflowKit r) p) (scaling codeKit p) := by
  have hkR := codeKit_present (p := p) (by omega)
  have hkF := overflowKit_present (r := r) (p := p) (by omega)
  refine ⟨by rw [length_scaling hkF h0, length_scaling hkR h0], fun j => ?_⟩
  have e : (scaling (overflowKit r) p).getD j 0 = _ := ov_filter hr h j
  have k : |_ - (scaling codeKit p).getD j 0| ≤ _ * |(scaling codeKit p).getD j 0| := coeffs_code hr h j
  rw [e]
  refine ⟨rfl, le_rfl, ?_⟩
  generalize (scaling codeKit p).getD j 0 = c at k ⊢
  have e2 : ∀ v, (ovScalars hr).val (Ov.of v) = v := fun _ => rfl
  rw [e2]
  linarith

theorem no_overflow_bound {M : ℝ} (hM : 0 ≤ M) {t K : ℕ} (ht : t ≤ 5) (hK : K ≤ 500000) (h : (201 / 100 : ℝ) ^ (2 * K) * (3 * M + 1) ≤ maxFloat) :
    ((1 + 1 / 2 ^ 24 : ℝ) ^ (2 * t + 1) * (1 + ((1 + 1 / 2 ^ 24) ^ 3 - 1)) * (201 / 100)) ^ (2 * K) * M +
      (1 + 1 / 2 ^ 24) ^ (2 * t) * (4 * t) * (1 / 2 ^ 150) *
        ∑ m ∈ range (2 * K), ((1 + 1 / 2 ^ 24 : ℝ) ^ (2 * t + 1) * (1 + ((1 + 1 / 2 ^ 24) ^ 3 - 1)) * (201 / 100)) ^ m ≤ maxFloat := by
  have := bound_linear hM ht hK
  have htR : (t : ℝ) ≤ 5 := by exact_mod_cast ht
  have hKR : (K : ℝ) ≤ 500000 := by exact_mod_cast hK
  have ht0 : (0 : ℝ) ≤ t := by positivity
  have hK0 : (0 : ℝ) ≤ K := by positivity
  have hP : (0 : ℝ) < (201 / 100) ^ (2 * K) := by positivity
  have c1 : (8 * (t + 2) * K / 2 ^ 24 : ℝ) ≤ 2 := by
    rw [div_le_iff₀ (by positivity)]
    have : (t + 2 : ℝ) * K ≤ 7 * 500000 := mul_le_mul (by linarith) hKR hK0 (by norm_num)
    nlinarith
  have c2 : (24 * t * K / 2 ^ 150 : ℝ) ≤ 1 := by
    rw [div_le_iff₀ (by positivity)]
    have : (t : ℝ) * K ≤ 5 * 500000 := mul_le_mul htR hKR hK0 (by norm_num)
    nlinarith
  have c3 : (8 * (t + 2) * K / 2 ^ 24 : ℝ) * M ≤ 2 * M := mul_le_mul_of_nonneg_right c1 hM
  have c4 : (201 / 100 : ℝ) ^ (2 * K) * (8 * (t + 2) * K / 2 ^ 24 * M + 24 * t * K / 2 ^ 150) ≤ (201 / 100) ^ (2 * K) * (2 * M + 1) :=
    mul_le_mul_of_nonneg_left (by linarith) hP.le
  rw [sub_mul] at this
  nlinarith

/-! ### coefficients -/

section Coefficients
variable {α : Type} [Zero α] [Add α] [Mul α] [Neg α] [Inhabited α] {u ω Ω η S M : ℝ} {sc : Scalars α u ω Ω} {p : Params}

theorem fin_chan1 (hu : 0 ≤ u) (hω : 0 ≤ ω) (hη : 0 ≤ η) (hS1 : 1 ≤ S) (hM : 0 ≤ M) (hv : ValidParams p) (hd : p.dimension = 1)
    {kF : Kit α} {kR : Kit ℝ} (hkR : FilterLen kR p) (hf : p.steps ≠ 0 → ApF sc η (scaling kF p) (scaling kR p))
    (hS : p.steps ≠ 0 → ∑ j ∈ range (2 * p.wtype), |(scaling kR p).getD j 0| ≤ S)
    (hΩ : gr_iter u ω η S p.wtype M (2 * p.steps) ≤ Ω) {x : Mat α} (hx : Shaped p x)
    (hb : ∀ i < x.rows, sc.fin (x.get i 0) ∧ |sc.val (x.get i 0)| ≤ M) :
    ∀ m ∈ chanP p (scaling kF p) nullDenoiser x, ∀ i < m.rows, ∀ j < m.cols, sc.fin (m.get i j) := by
  have hpad := apM_padOf hv hd hx hM hb
  have low : ∀ m ≤ 2 * p.steps, gr_iter u ω η S p.wtype M m ≤ Ω := fun m hm => (gr_iter_mono hu hω hη hS1 hM hm).trans hΩ
  have fin : ∀ {m : Mat α} {X : Mat ℝ} {π q : ℝ}, ApM sc π q m X → ∀ i < m.rows, ∀ j < m.cols, sc.fin (m.get i j) := by
    intro m X π q h i hi j hj
    obtain ⟨h1, h2, _, _, _, h3⟩ := h
    obtain rfl : j = 0 := by omega
    exact (h3 i (by omega)).1
  by_cases h0 : p.steps = 0
  · intro m hm
    simp only [chanP, h0, List.range_zero, List.flatMap_nil, List.nil_append, List.mem_singleton, sig] at hm
    subst hm
    exact fin hpad
  have ht := wavelet_of_steps hv (show 0 < p.steps by omega)
  have hl := length_scaling hkR ht
  intro m hm
  rw [chanP, List.mem_append, List.mem_flatMap, List.mem_singleton] at hm
  rcases hm with ⟨s, hs, hm⟩ | rfl
  · rw [List.mem_range] at hs
    have := ap_detail hu hω hη hS1 hM hd (hf h0) hl (hS h0) hpad s (low _ (by omega))
    have e : m = (detailStep p (scaling kF p) nullDenoiser s (sig p (scaling kF p) (padOf p x) s)).getD 0 default := by
      unfold detailStep at hm ⊢
      rw [if_pos hd] at hm ⊢
      simpa using hm
    rw [e]
    exact fin this
  · exact fin (ap_sig hu hω hη hS1 hM hd (hf h0) hl (hS h0) hpad _ (low _ (by omega)))

theorem fin_chan2 (hu : 0 ≤ u) (hω : 0 ≤ ω) (hη : 0 ≤ η) (hS1 : 1 ≤ S) (hM : 0 ≤ M) (hv : ValidParams p) (hd : p.dimension = 2)
    {kF : Kit α} {kR : Kit ℝ} (hkR : FilterLen kR p) (hf : p.steps ≠ 0 → ApF sc η (scaling kF p) (scaling kR p))
    (hS : p.steps ≠ 0 → ∑ j ∈ range (2 * p.wtype), |(scaling kR p).getD j 0| ≤ S)
    (hΩ : gr_iter u ω η S p.wtype M (4 * p.steps) ≤ Ω) {x : Mat α} (hx : Shaped p x)
    (hb : ∀ i < x.rows, ∀ j < x.cols, sc.fin (x.get i j) ∧ |sc.val (x.get i j)| ≤ M) :
    ∀ m ∈ chanP p (scaling kF p) nullDenoiser x, ∀ i < m.rows, ∀ j < m.cols, sc.fin (m.get i j) := by
  have hpad := apM2_padOf hv hd hx hM hb
  have hX := fits_padOf hv (show Shaped p (x.map sc.val) from hx)
  have low : ∀ m ≤ 4 * p.steps, gr_iter u ω η S p.wtype M m ≤ Ω := fun m hm => (gr_iter_mono hu hω hη hS1 hM hm).trans hΩ
  have fin : ∀ {m : Mat α} {X : Mat ℝ} {π q : ℝ}, ApM2 sc π q m X → ∀ i < m.rows, ∀ j < m.cols, sc.fin (m.get i j) := by
    intro m X π q h i hi j hj
    obtain ⟨h1, h2, _, _, h3⟩ := h
    exact (h3 i (by omega) j (by omega)).1
  by_cases h0 : p.steps = 0
  · intro m hm
    simp only [chanP, h0, List.range_zero, List.flatMap_nil, List.nil_append, List.mem_singleton, sig] at hm
    subst hm
    exact fin hpad
  have sg := ap_sig2 hu hω hη hS1 hv hd hkR (hf h0) (hS h0) hpad hX hM (low _ (by omega))
  intro m hm
  rw [chanP, List.mem_append, List.mem_flatMap, List.mem_singleton] at hm
  rcases hm with ⟨s, hs, hm⟩ | rfl
  · rw [List.mem_range] at hs
    have hq := (sg s hs.le).2 hs
    unfold detailStep at hm
    rw [if_neg (by omega)] at hm
    simp only [nullDenoiser, List.mem_cons, List.not_mem_nil, or_false] at hm
    rcases hm with rfl | rfl | rfl
    · exact fin hq.2.1
    · exact fin hq.2.2.1
    · exact fin hq.2.2.2
  · exact fin (sg _ le_rfl).1

end Coefficients

/-- C86. One dimension, IEEE `float` with overflow: `none` is an infinity or NaN. The samples are finite and at most `M` in magnitude, with
`2.01^(2 steps) (3 M + 1)` at most the largest `float`. Then nothing overflows in `Decompose` with the null denoiser and `Compose`: all coefficients and
all samples that come back are finite, and the samples differ from those that went in as in C58. -/
theorem C86_one_dimension (r : Rounding) (hr : r.IEEE) (b : Buffer (Ov r.toFloat maxFloat)) (hb : WellFormed b)
    (h1 : b.params.shape.length = 1) (hw : b.params.wtype ≤ 5) (hK : b.params.steps ≤ 500000) (hch : 0 < b.params.signalNumber)
    (data : List (Mat (Ov r.toFloat maxFloat))) (hd : IsSignal b.params data) (M : ℝ) (hM0 : 0 ≤ M)
    (hM : ∀ x ∈ data, ∀ i < x.rows, ∀ j < x.cols, (x.get i j).Finite ∧ |(x.get i j).val| ≤ M)
    (hΩ : (201 / 100 : ℝ) ^ (2 * b.params.steps) * (3 * M + 1) ≤ maxFloat) :
    ∃ d out, b.decompose (overflowKit r) data nullDenoiser = .ok d true ∧ (Buffer.mk b.params d).compose (overflowKit r) 0 = .ok out ∧
      (∀ c ∈ d, ∀ m ∈ c, ∀ i < m.rows, ∀ j < m.cols, (m.get i j).Finite) ∧ out.length = data.length ∧
      ∀ (n : ℕ) (x : Mat (Ov r.toFloat maxFloat)), data[n]? = some x →
        ∃ y, out[n]? = some y ∧ y.rows = x.rows ∧ y.cols = x.cols ∧
          ∀ i < x.rows, ∀ j < x.cols, (y.get i j).Finite ∧ |(y.get i j).val - (x.get i j).val| ≤
            (201 / 100) ^ (2 * b.params.steps) *
              (8 * (b.params.wtype + 2) * b.params.steps / 2 ^ 24 * M + 24 * b.params.wtype * b.params.steps / 2 ^ 150) +
            ((1 + 12 / 10 ^ 12 : ℝ) ^ b.params.steps - 1) * Real.sqrt ((b.params.shape.map (paddedSide b.params)).prod : ℕ) * M := by
  have hbR := wellFormed_val Ov.val hb
  have hdR := isSignal_val Ov.val hb.1 hd
  obtain ⟨d, out, dR, outR, e1, e2, e3, e4, e5, _, e6⟩ :=
    rounding_1d (sc := ovScalars hr) (η := (1 + 1 / 2 ^ 24) ^ 3 - 1) (S := 201 / 100) (by norm_num) (by norm_num) (by norm_num) (by norm_num) hM0
      (overflowKit r) codeKit b _ hb hbR rfl h1 (overflowKit_present (by omega)) (codeKit_present (by omega))
      (fun _ j => by rw [ov_filter hr hw]; exact ⟨rfl, coeffs_code hr hw j⟩) (fun _ => sum_code hw) (no_overflow_bound hM0 hw hK hΩ) hch data hd hM
  obtain ⟨dX, outX, x1, x2, _, x4⟩ := C09_error_by_largest_sample _ hbR hw hch _ hdR M (by
    intro m hm i hi j hj
    rw [List.mem_map] at hm
    obtain ⟨x, hx, rfl⟩ := hm
    rw [get_val Ov.val x hi hj]
    exact (hM x hx i hi j hj).2)
  replace e3 := x1.symm.trans e3
  injection e3 with e3
  subst e3
  rw [x2] at e4
  injection e4 with e4
  subst e4
  have hcol : ∀ x ∈ data, x.cols = 1 := by
    intro x hx
    obtain ⟨n, hsh, _⟩ | ⟨_, _, hsh, _⟩ := shape_cases hb.1
    · have := of_shaped hb.1 (shaped_of (hd.2 x hx))
      rw [hsh] at this
      exact this.2
    · rw [hsh] at h1
      simp at h1
  have fd : ∀ c ∈ d, ∀ m ∈ c, ∀ i < m.rows, ∀ j < m.cols, (m.get i j).Finite := by
    have hkR := codeKit_present (p := b.params) (by omega)
    have hkF := overflowKit_present (r := r) (p := b.params) (by omega)
    rw [decompose_ok hb hkF hch hd (fun _ => nullDenoiser_sized)] at e1
    injection e1 with e1
    subst e1
    intro c hc
    rw [List.mem_map] at hc
    obtain ⟨x, hx, rfl⟩ := hc
    exact fin_chan1 (sc := ovScalars hr) (η := (1 + 1 / 2 ^ 24) ^ 3 - 1) (S := 201 / 100) (by norm_num) (by norm_num) (by norm_num) (by norm_num) hM0 hb.1 h1 hkR
      (fun h0 => ov_apF hr hw (wavelet_of_steps hb.1 (show 0 < b.params.steps by omega)))
      (fun h0 => by
        have ht := wavelet_of_steps hb.1 (show 0 < b.params.steps by omega)
        rw [← length_scaling hkR ht, sum_getD_abs]
        exact sum_code hw) (by rw [gr_iter_eq]; exact (no_overflow_bound hM0 hw hK hΩ)) (shaped_of (hd.2 x hx)) (fun i hi => hM x hx i hi 0 (by rw [hcol x hx]; norm_num))
  refine ⟨d, out, e1, e2, fd, e5, ?_⟩
  intro n x hn
  obtain ⟨y, z, f1, f2, f3, f4, _, _, f5⟩ := e6 n x hn
  obtain ⟨z', g1, _, _, g2⟩ := x4 n (x.map Ov.val) (by simp [hn])
  rw [f2] at g1
  injection g1 with g1
  subst g1
  refine ⟨y, f1, f3, f4, ?_⟩
  intro i hi j hj
  have a1 := (f5 i hi j hj).2.trans (bound_linear hM0 hw hK)
  have a2 := g2 i hi j hj
  rw [get_val Ov.val x hi hj, h1, Nat.one_mul] at a2
  refine ⟨(f5 i hi j hj).1, (abs_sub_le _ (z.get i j) _).trans ?_⟩
  have e0 : ∀ x, (ovScalars hr).val x = x.val := fun _ => rfl
  rw [e0] at a1
  linarith

/-- C86. Two dimensions, IEEE `float` with overflow: `none` is an infinity or NaN. The samples are finite and at most `M` in magnitude, with
`2.01^(4 steps) (3 M + 1)` at most the largest `float`. Then nothing overflows in `Decompose` with the null denoiser and `Compose`: all coefficients and
all samples that come back are finite, and the samples differ from those that went in as in C85. -/
theorem C86_two_dimensions (r : Rounding) (hr : r.IEEE) (b : Buffer (Ov r.toFloat maxFloat)) (hb : WellFormed b)
    (h1 : b.params.shape.length = 2) (hw : b.params.wtype ≤ 5) (hK : b.params.steps ≤ 250000) (hch : 0 < b.params.signalNumber)
    (data : List (Mat (Ov r.toFloat maxFloat))) (hd : IsSignal b.params data) (M : ℝ) (hM0 : 0 ≤ M)
    (hM : ∀ x ∈ data, ∀ i < x.rows, ∀ j < x.cols, (x.get i j).Finite ∧ |(x.get i j).val| ≤ M)
    (hΩ : (201 / 100 : ℝ) ^ (4 * b.params.steps) * (3 * M + 1) ≤ maxFloat) :
    ∃ d out, b.decompose (overflowKit r) data nullDenoiser = .ok d true ∧ (Buffer.mk b.params d).compose (overflowKit r) 0 = .ok out ∧
      (∀ c ∈ d, ∀ m ∈ c, ∀ i < m.rows, ∀ j < m.cols, (m.get i j).Finite) ∧ out.length = data.length ∧
      ∀ (n : ℕ) (x : Mat (Ov r.toFloat maxFloat)), data[n]? = some x →
        ∃ y, out[n]? = some y ∧ y.rows = x.rows ∧ y.cols = x.cols ∧
          ∀ i < x.rows, ∀ j < x.cols, (y.get i j).Finite ∧ |(y.get i j).val - (x.get i j).val| ≤
            (201 / 100) ^ (4 * b.params.steps) *
              (16 * (b.params.wtype + 2) * b.params.steps / 2 ^ 24 * M + 48 * b.params.wtype * b.params.steps / 2 ^ 150) +
            ((1 + 12 / 10 ^ 12 : ℝ) ^ (2 * b.params.steps) - 1) * Real.sqrt ((b.params.shape.map (paddedSide b.params)).prod : ℕ) * M := by
  have hbR := wellFormed_val Ov.val hb
  have hdR := isSignal_val Ov.val hb.1 hd
  have hΩ' := no_overflow_bound hM0 hw (show 2 * b.params.steps ≤ 500000 by omega)
    (by rw [show 2 * (2 * b.params.steps) = 4 * b.params.steps by ring]; exact hΩ)
  rw [show 2 * (2 * b.params.steps) = 4 * b.params.steps by ring] at hΩ'
  obtain ⟨d, out, dR, outR, e1, e2, e3, e4, e5, _, e6⟩ :=
    rounding_2d (sc := ovScalars hr) (η := (1 + 1 / 2 ^ 24) ^ 3 - 1) (S := 201 / 100) (by norm_num) (by norm_num) (by norm_num) (by norm_num) hM0
      (overflowKit r) codeKit b _ hb hbR rfl h1 (overflowKit_present (by omega)) (codeKit_present (by omega))
      (fun _ j => by rw [ov_filter hr hw]; exact ⟨rfl, coeffs_code hr hw j⟩) (fun _ => sum_code hw) hΩ' hch data hd hM
  obtain ⟨dX, outX, x1, x2, _, x4⟩ := C09_error_by_largest_sample _ hbR hw hch _ hdR M (by
    intro m hm i hi j hj
    rw [List.mem_map] at hm
    obtain ⟨x, hx, rfl⟩ := hm
    rw [get_val Ov.val x hi hj]
    exact (hM x hx i hi j hj).2)
  replace e3 := x1.symm.trans e3
  injection e3 with e3
  subst e3
  rw [x2] at e4
  injection e4 with e4
  subst e4
  have fd : ∀ c ∈ d, ∀ m ∈ c, ∀ i < m.rows, ∀ j < m.cols, (m.get i j).Finite := by
    have hkR := codeKit_present (p := b.params) (by omega)
    have hkF := overflowKit_present (r := r) (p := b.params) (by omega)
    rw [decompose_ok hb hkF hch hd (fun _ => nullDenoiser_sized)] at e1
    injection e1 with e1
    subst e1
    intro c hc
    rw [List.mem_map] at hc
    obtain ⟨x, hx, rfl⟩ := hc
    exact fin_chan2 (sc := ovScalars hr) (η := (1 + 1 / 2 ^ 24) ^ 3 - 1) (S := 201 / 100) (by norm_num) (by norm_num) (by norm_num) (by norm_num) hM0 hb.1 h1 hkR
      (fun h0 => ov_apF hr hw (wavelet_of_steps hb.1 (show 0 < b.params.steps by omega)))
      (fun h0 => by
        have ht := wavelet_of_steps hb.1 (show 0 < b.params.steps by omega)
        rw [← length_scaling hkR ht, sum_getD_abs]
        exact sum_code hw) (by rw [gr_iter_eq]; exact hΩ') (shaped_of (hd.2 x hx)) (fun i hi j hj => hM x hx i hi j hj)
  refine ⟨d, out, e1, e2, fd, e5, ?_⟩
  intro n x hn
  obtain ⟨y, z, f1, f2, f3, f4, _, _, f5⟩ := e6 n x hn
  obtain ⟨z', g1, _, _, g2⟩ := x4 n (x.map Ov.val) (by simp [hn])
  rw [f2] at g1
  injection g1 with g1
  subst g1
  refine ⟨y, f1, f3, f4, ?_⟩
  intro i hi j hj
  have a1 := (f5 i hi j hj).2
  have a3 := bound_linear hM0 hw (show 2 * b.params.steps ≤ 500000 by omega)
  rw [show 2 * (2 * b.params.steps) = 4 * b.params.steps by ring] at a3
  have a1 := a1.trans a3
  push_cast at a1
  have a2 := g2 i hi j hj
  rw [get_val Ov.val x hi hj, h1] at a2
  refine ⟨(f5 i hi j hj).1, (abs_sub_le _ (z.get i j) _).trans ?_⟩
  have e0 : ∀ x, (ovScalars hr).val x = x.val := fun _ => rfl
  rw [e0] at a1
  have a4 : (201 / 100 : ℝ) ^ (4 * b.params.steps) * (8 * (b.params.wtype + 2) * (2 * b.params.steps) / 2 ^ 24 * M +
      24 * b.params.wtype * (2 * b.params.steps) / 2 ^ 150) = (201 / 100) ^ (4 * b.params.steps) *
      (16 * (b.params.wtype + 2) * b.params.steps / 2 ^ 24 * M + 48 * b.params.wtype * b.params.steps / 2 ^ 150) := by ring
  linarith

/-- A picture of 12 x 20 pixels, DB2, two steps, for every IEEE rounding: with samples up to 2^100 nothing overflows. -/
example (r : Rounding) (hr : r.IEEE) (f : ℕ → ℕ → ℝ) (hf : ∀ i j, |f i j| ≤ 2 ^ 100) :
    let p : Params := ⟨[12, 20], 1, 2, 2⟩
    ∃ d y, (Buffer.mk p [List.replicate 7 Mat.empty] : Buffer (Ov r.toFloat maxFloat)).decompose (overflowKit r)
        [Mat.ofFn 20 12 (fun i j => Ov.of (f i j))] nullDenoiser = .ok d true ∧
      (Buffer.mk p d).compose (overflowKit r) 0 = .ok [y] ∧ ∀ i < 20, ∀ j < 12, (y.get i j).Finite := by
  intro p
  obtain ⟨d, out, h1, h2, _, h3, h4⟩ := C86_two_dimensions r hr (Buffer.mk p [List.replicate 7 Mat.empty])
    ⟨⟨by simp [p], by simp [p], by simp [p]⟩, by simp [p], by simp [p, subbandCount, detailsPerStep]⟩ rfl (by simp [p]) (by simp [p])
    (by simp [p]) [Mat.ofFn 20 12 (fun i j => Ov.of (f i j))] ⟨by simp [p], by simp [p, HasShape]⟩
    (2 ^ 100) (by norm_num) (by
      intro x hx i hi j hj
      rw [List.mem_singleton] at hx
      subst hx
      simp only [Mat.rows_ofFn, Mat.cols_ofFn] at hi hj
      rw [Mat.get_ofFn hi hj]
      exact ⟨rfl, hf i j⟩) (by simp only [p, maxFloat]; norm_num)
  obtain ⟨y, h5, _, _, h6⟩ := h4 0 _ rfl
  have hout : out = [y] := by
    match out, h3, h5 with
    | [_], _, h5 => simpa using h5
  exact ⟨d, y, h1, by rw [h2, hout], fun i hi j hj => (h6 i hi j hj).1⟩

/-- Twenty samples, DB3, two steps, samples up to 2^110. -/
example (r : Rounding) (hr : r.IEEE) (f : ℕ → ℝ) (hf : ∀ i, |f i| ≤ 2 ^ 110) :
    let p : Params := ⟨[20], 1, 2, 3⟩
    ∃ d y, (Buffer.mk p [[Mat.empty, Mat.empty, Mat.empty]] : Buffer (Ov r.toFloat maxFloat)).decompose (overflowKit r)
        [Mat.ofFn 20 1 (fun i _ => Ov.of (f i))] nullDenoiser = .ok d true ∧
      (Buffer.mk p d).compose (overflowKit r) 0 = .ok [y] ∧ ∀ i < 20, (y.get i 0).Finite := by
  intro p
  obtain ⟨d, out, h1, h2, _, h3, h4⟩ := C86_one_dimension r hr (Buffer.mk p [[Mat.empty, Mat.empty, Mat.empty]])
    ⟨⟨by simp [p], by simp [p], by simp [p]⟩, by simp [p], by simp [p, subbandCount, detailsPerStep]⟩ rfl (by simp [p]) (by simp [p])
    (by simp [p]) [Mat.ofFn 20 1 (fun i _ => Ov.of (f i))] ⟨by simp [p], by simp [p, HasShape]⟩ (2 ^ 110) (by norm_num) (by
      intro x hx i hi j hj
      rw [List.mem_singleton] at hx
      subst hx
      simp only [Mat.rows_ofFn, Mat.cols_ofFn] at hi hj
      rw [Mat.get_ofFn hi hj]
      exact ⟨rfl, hf i⟩) (by simp only [p, maxFloat]; norm_num)
  obtain ⟨y, h5, _, _, h6⟩ := h4 0 _ rfl
  have hout : out = [y] := by
    match out, h3, h5 with
    | [_], _, h5 => simpa using h5
  exact ⟨d, y, h1, by rw [h2, hout], fun i hi => (h6 i hi 0 (by simp)).1⟩

/-! ### overflow -/

theorem not_finite_add {r : Rounding} {x y : Ov r.toFloat maxFloat} (h : ¬x.Finite ∨ ¬y.Finite) : ¬(x + y).Finite := by
  match x, y with
  | some _, some _ => exact absurd h (by simp [Ov.Finite])
  | some _, none => exact Bool.false_ne_true
  | none, some _ => exact Bool.false_ne_true
  | none, none => exact Bool.false_ne_true

theorem not_finite_mul {r : Rounding} {x y : Ov r.toFloat maxFloat} (h : ¬x.Finite ∨ ¬y.Finite) : ¬(x * y).Finite := by
  match x, y with
  | some _, some _ => exact absurd h (by simp [Ov.Finite])
  | some _, none => exact Bool.false_ne_true
  | none, some _ => exact Bool.false_ne_true
  | none, none => exact Bool.false_ne_true

theorem ov_db1 {r : Rounding} (hr : r.IEEE) : ∃ a b : ℝ, 7 / 10 ≤ a ∧ a ≤ 8 / 10 ∧ 7 / 10 ≤ b ∧ b ≤ 8 / 10 ∧
    scaling (overflowKit r) ⟨[2], 1, 1, 1⟩ = [Ov.of a, Ov.of b] := by
  set p : Params := ⟨[2], 1, 1, 1⟩ with hp
  have hs1 : 1.414 ≤ Real.sqrt 2 := Real.le_sqrt_of_sq_le (by norm_num)
  have hs2 : Real.sqrt 2 ≤ 1.415 := Real.sqrt_le_iff.2 ⟨by norm_num, by norm_num⟩
  have hl : (scaling (overflowKit r) p).length = 2 := length_scaling (overflowKit_present (by simp [p])) (by simp [p])
  have hc : ∀ j < 2, (scalingFilter codeKit p).getD j 0 = Real.sqrt 2 * (1 / 2) := by
    intro j hj
    rcases (by omega : j = 0 ∨ j = 1) with rfl | rfl <;> · simp [scalingFilter, codeKit, p, dbCoeffs]; norm_num
  have hb : ∀ j < 2, 7 / 10 ≤ ((scalingFilter (floatKit r) p).getD j 0).val ∧ ((scalingFilter (floatKit r) p).getD j 0).val ≤ 8 / 10 := by
    intro j hj
    have := coeffs_code hr (p := p) (by simp [p]) j
    rw [hc j hj, abs_of_nonneg (show 0 ≤ Real.sqrt 2 * (1 / 2) by positivity)] at this
    obtain ⟨l1, l2⟩ := abs_le.1 this
    norm_num at l1 l2 hs1 hs2 ⊢
    constructor <;> linarith
  have e0 : (scaling (overflowKit r) p).getD 0 0 = _ := ov_filter hr (p := p) (by simp [p]) 0
  have e1 : (scaling (overflowKit r) p).getD 1 0 = _ := ov_filter hr (p := p) (by simp [p]) 1
  refine ⟨_, _, (hb 0 (by norm_num)).1, (hb 0 (by norm_num)).2, (hb 1 (by norm_num)).1, (hb 1 (by norm_num)).2, ?_⟩
  rw [← e0, ← e1]
  match h : scaling (overflowKit r) p, hl with
  | [_, _], _ => rfl

theorem ov_big {r : Rounding} (hr : r.IEEE) {a b : ℝ} (h1 : 7 / 10 ≤ a) (h2 : a ≤ 8 / 10) (h3 : 7 / 10 ≤ b) (h4 : b ≤ 8 / 10) :
    ¬((0 : Ov r.toFloat maxFloat) + Ov.of maxFloat * Ov.of a + Ov.of maxFloat * Ov.of b).Finite := by
  have big := maxFloat_big
  have hM : (1 : ℝ) ≤ maxFloat := le_trans (by norm_num) big
  have std : ∀ x, |r.toFloat x - x| ≤ 1 / 2 ^ 24 * |x| + 1 / 2 ^ 150 := by
    intro x
    have := rounds_std (by norm_num) hr.1 x
    have e1 : (2 : ℝ) ^ (-((24 : ℕ) : ℤ)) = 1 / 2 ^ 24 := by norm_num
    have e2 : (2 : ℝ) ^ ((-149 : ℤ) - 1) = 1 / 2 ^ 150 := by norm_num
    rwa [e1, e2] at this
  have one : ∀ x k : ℝ, 1 / 2 ≤ k → k * maxFloat ≤ x → (k - 1 / 100) * maxFloat ≤ r.toFloat x ∨ 2 * maxFloat ≤ x := by
    intro x k hk hx
    by_cases hx2 : 2 * maxFloat ≤ x
    · exact .inr hx2
    · left
      have hpos : 0 ≤ x := le_trans (by nlinarith) hx
      obtain ⟨l1, _⟩ := abs_le.1 (std x)
      rw [abs_of_nonneg hpos] at l1
      norm_num at l1
      nlinarith
  have prod : ∀ c : ℝ, 7 / 10 ≤ c → c ≤ 8 / 10 →
      (Ov.of maxFloat * Ov.of c : Ov r.toFloat maxFloat) = Ov.of (r.toFloat (maxFloat * c)) ∧
      69 / 100 * maxFloat ≤ r.toFloat (maxFloat * c) ∧ r.toFloat (maxFloat * c) ≤ maxFloat := by
    intro c c1 c2
    have hle : |maxFloat * c| ≤ maxFloat := by rw [abs_of_nonneg (by nlinarith)]; nlinarith
    refine ⟨ov_round hr hle, ?_, (abs_le.1 (toFloat_le hr hle)).2⟩
    rcases one (maxFloat * c) (7 / 10) (by norm_num) (by nlinarith) with h | h
    · linarith
    · nlinarith
  obtain ⟨p1, p2, p3⟩ := prod a h1 h2
  obtain ⟨q1, q2, q3⟩ := prod b h3 h4
  rw [p1, q1]
  have z1 : (0 : Ov r.toFloat maxFloat) + Ov.of (r.toFloat (maxFloat * a)) = Ov.of (r.toFloat (0 + r.toFloat (maxFloat * a))) :=
    ov_round hr (by rw [zero_add, abs_of_nonneg (by linarith)]; exact p3)
  rw [z1, zero_add]
  set P := r.toFloat (maxFloat * a) with hP
  set Q := r.toFloat (maxFloat * b) with hQ
  have s1 : 68 / 100 * maxFloat ≤ r.toFloat P := by
    rcases one P (69 / 100) (by norm_num) p2 with h | h
    · linarith
    · linarith
  have s2 : r.toFloat P ≤ maxFloat := (abs_le.1 (toFloat_le hr (by rw [abs_of_nonneg (by linarith)]; exact p3))).2
  have s3 : maxFloat < r.toFloat (r.toFloat P + Q) := by
    obtain ⟨l1, _⟩ := abs_le.1 (std (r.toFloat P + Q))
    rw [abs_of_nonneg (by linarith)] at l1
    norm_num at l1
    nlinarith
  have e : (Ov.of (r.toFloat P) + Ov.of Q : Ov r.toFloat maxFloat) = (none : Option ℝ) := if_neg (not_le.2 (s3.trans_le (le_abs_self _)))
  rw [e]
  exact Bool.false_ne_true

/-- Near the largest `float` a round trip overflows: two equal samples, DB1, one step. Both samples come back as an infinity or NaN. -/
theorem C86_overflow_counterexample (r : Rounding) (hr : r.IEEE) :
    ∃ d y, (Buffer.mk ⟨[2], 1, 1, 1⟩ [[Mat.empty, Mat.empty]] : Buffer (Ov r.toFloat maxFloat)).decompose (overflowKit r)
        [Mat.ofFn 2 1 (fun _ _ => Ov.of maxFloat)] nullDenoiser = .ok d true ∧
      (Buffer.mk ⟨[2], 1, 1, 1⟩ d).compose (overflowKit r) 0 = .ok [y] ∧ ∀ i < 2, ¬(y.get i 0).Finite := by
  set p : Params := ⟨[2], 1, 1, 1⟩ with hp
  have hb : WellFormed (Buffer.mk p [[Mat.empty, Mat.empty]] : Buffer (Ov r.toFloat maxFloat)) :=
    ⟨⟨by simp [p], by simp [p], by simp [p]⟩, by simp [p], by simp [p, subbandCount, detailsPerStep]⟩
  have hd : IsSignal p [(Mat.ofFn 2 1 (fun _ _ => Ov.of maxFloat) : Mat (Ov r.toFloat maxFloat))] := ⟨by simp [p], by simp [p, HasShape]⟩
  have hk := overflowKit_present (r := r) (p := p) (by simp [p])
  have c1 := decompose_ok hb hk (by simp [p]) hd (fun _ => nullDenoiser_sized)
  have c2 := compose_ok (k := overflowKit r) (b := ⟨p, [(Mat.ofFn 2 1 (fun _ _ => Ov.of maxFloat) : Mat (Ov r.toFloat maxFloat))].map
    (chanP p (scaling (overflowKit r) p) nullDenoiser)⟩) (s := 0) hb.1 (by simp [p]) hk (by
      intro c hc
      rw [List.mem_map] at hc
      obtain ⟨m, hm, rfl⟩ := hc
      exact chanP_sized hb.1 nullDenoiser_sized (shaped_of (hd.2 m hm))) (Nat.zero_le _)
  refine ⟨_, _, c1, c2, ?_⟩
  obtain ⟨a, b, a1, a2, b1, b2, hab⟩ := ov_db1 hr
  have hA := ov_big hr a1 a2 b1 b2
  have hlast : (sig p (scaling (overflowKit r) p) (padOf p (Mat.ofFn 2 1 (fun _ _ => Ov.of maxFloat))) 1) =
      Mat.ofCol [(0 : Ov r.toFloat maxFloat) + Ov.of maxFloat * Ov.of a + Ov.of maxFloat * Ov.of b] := by
    have hpad : padOf p (Mat.ofFn 2 1 (fun _ _ => Ov.of maxFloat)) = (Mat.ofFn 2 1 (fun _ _ => Ov.of maxFloat) : Mat (Ov r.toFloat maxFloat)) := by
      have e1 : matRows (paddedShape p) = 2 := by decide
      have e2 : matCols (paddedShape p) = 1 := by decide
      unfold padOf
      rw [e1, e2, if_neg (by decide)]
      refine Mat.ofFn_congr fun i hi j hj => ?_
      simp only [Mat.rows_ofFn, Mat.cols_ofFn]
      refine Mat.get_ofFn ?_ ?_
      · rcases (by omega : i = 0 ∨ i = 1) with rfl | rfl <;> decide
      · obtain rfl : j = 0 := by omega
        decide
    have hcol : (Mat.ofFn 2 1 (fun _ _ => Ov.of maxFloat) : Mat (Ov r.toFloat maxFloat)).col 0 = [Ov.of maxFloat, Ov.of maxFloat] := by
      simp [Mat.col, List.range_succ, Mat.get_ofFn]
    have hdim : p.dimension = 1 := rfl
    rw [hab, hpad]
    simp [sig, approxStep, hdim, hcol, anaP, List.range_succ]
  have syn : ∀ (A : Ov r.toFloat maxFloat) (D hi : List (Ov r.toFloat maxFloat)) (i : ℕ), ¬A.Finite → ¬(synP [A] D [Ov.of b, Ov.of a] hi i).Finite := by
    intro A D hi i h
    simp only [synP, List.length_cons, List.length_nil, List.range_succ, Nat.reduceAdd, Nat.reduceDiv, List.range_zero, List.nil_append,
      List.foldl_cons, List.foldl_nil, Nat.mod_one, List.getD_cons_zero]
    exact not_finite_add (.inl (not_finite_add (.inr (not_finite_mul (.inr h)))))
  intro i hi
  show ¬((cropOf p 0 (reconP p (scaling (overflowKit r) p) 0 (chanP p (scaling (overflowKit r) p) nullDenoiser _))).get i 0).Finite
  have hcrop : ∀ m : Mat (Ov r.toFloat maxFloat), m.rows = 2 → m.cols = 1 → (cropOf p 0 m).get i 0 = m.get i 0 := by
    intro m hr hc
    unfold cropOf
    rw [if_neg (by decide)]
    rw [Mat.get_ofFn (by exact hi) (by decide), hr, hc, show padOffset .both 2 (matRows (p.shape.map (· / 2 ^ 0))) = 0 by decide, Nat.zero_add,
      show padOffset .both 1 (matCols (p.shape.map (· / 2 ^ 0))) = 0 by decide]
  unfold reconP
  rw [chanP_last]
  show ¬Ov.Finite ((cropOf p 0 (synthStep p (scaling (overflowKit r) p) (sig p (scaling (overflowKit r) p) (padOf p _) 1) _)).get i 0)
  rw [hlast, hab]
  rw [hcrop _ rfl rfl]
  rcases (by omega : i = 0 ∨ i = 1) with rfl | rfl
  · exact syn _ _ _ 0 hA
  · exact syn _ _ _ 1 hA

end WB.Props
