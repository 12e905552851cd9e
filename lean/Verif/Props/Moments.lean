import Verif.Proof.Moments
import Verif.Proof.Rounding

/-!
C99: details of signals that are locally polynomials. The exact statement holds for every filter whose alternating moments vanish; the
decimals in the code are close to such filters.
-/

set_option linter.unusedSectionVars false

namespace WB.Props

open Finset Spec

section Ring
variable {R : Type} [CommRing R] [Inhabited R]

/-- C99. If the alternating moments of the scaling filter vanish up to the order of the wavelet, the details of every step are zero
wherever the padded signal is, within the window of samples they depend on (C98), a polynomial of degree less than the order (in each
coordinate). -/
theorem C99_polynomials_have_no_details (k : Kit R) (b : Buffer R) (hb : WellFormed b) (hk : FilterPresent k b.params)
    (hch : 0 < b.params.signalNumber) (hm : b.params.wtype ≠ 0 → VanishingMoments b.params.wtype (scalingFilter k b.params))
    (data : List (Mat R)) (hd : IsSignal b.params data) :
    ∃ d, b.decompose k data nullDenoiser = .ok d true ∧ d.length = data.length ∧
      ∀ (n : ℕ) (x px : Mat R) (c : List (Mat R)), data[n]? = some x →
        addPadding x (b.params.shape.map (paddedSide b.params)) = .ok px → d[n]? = some c →
        ∀ s < b.params.steps, ∀ q < detailsPerStep b.params, ∃ m, c[s * detailsPerStep b.params + q]? = some m ∧
          ∀ i < m.rows, ∀ j < m.cols, LocallyPolynomial b.params (s + 1) i j px → m.get i j = 0 := by
  have hv := hb.1
  refine ⟨_, decompose_ok hb hk hch hd (fun _ => nullDenoiser_sized), by simp, ?_⟩
  intro n x px c hx hpx hc s hs q hq
  rw [List.getElem?_map, hx] at hc
  obtain rfl := Option.some.inj hc
  have sx := shaped_of (hd.2 x (List.mem_of_getElem? hx))
  rw [paddedShape_spec hv, addPadding_ok hv sx] at hpx
  injection hpx with hpx
  have fx := fits_padOf hv sx
  rw [hpx] at fx
  refine ⟨_, chan_detail hv hk sx hs hq, ?_⟩
  rw [hpx]
  intro i hi j hj hp
  have ht := wavelet_of_steps hv hs
  have hmm := qmf_moments (length_scaling hk ht) (hm ht)
  obtain ⟨Q, hQ, _, e⟩ := detail_value (k := k) hv hk fx hs _ _ hi hj hp
  rw [e]
  rcases off_cases hq with hr | ⟨hd1, _, hc⟩
  · rw [hr]
    simp_rw [mul_sum]
    rw [sum_comm]
    refine sum_eq_zero fun l _ => ?_
    have := hQ.killed hmm l
    calc _ = tapC b.params (subf (scaling k b.params) (cOff b.params q)) l *
          ∑ a ∈ range (2 * b.params.wtype), fl (qmf (scaling k b.params)) a * Q a l := by
          rw [mul_sum]; exact sum_congr rfl fun a _ => by simp only [subf, if_true]; ring
      _ = 0 := by rw [this, mul_zero]
  · rw [hc]
    refine sum_eq_zero fun a _ => ?_
    have := hQ.swap.killed hmm a
    have e3 : ∑ l ∈ range (tapsC b.params), tapC b.params (subf (scaling k b.params) true) l * Q a l = 0 := by
      rw [← this]
      unfold tapsC tapC
      simp only [if_neg hd1, subf, if_true]
    rw [e3, mul_zero]

end Ring

/-! ### the decimals in the code -/

/-- What to subtract from the decimals in the code to get a filter with vanishing moments. -/
def excess : ℕ → List ℚ
  | 1 => [0, 0]
  | 2 => [7/30000000000000, 0, 0, 7/30000000000000]
  | 3 => [0, 3/200000000000000, -23/50000000000000, 0, 0, -519/200000000000000]
  | 4 => [1/500000000000000, -7/50000000000000, 0, 0, 0, 3/250000000000000, -13/100000000000000, 0]
  | 5 => [-7/120000000000000, 0, 0, -143/250000000000000, 9/25000000000000, 0, 0, 0, 323/1000000000000000, -7/30000000000000]
  | _ => []

theorem excess_moments : ∀ t : Fin 6, ∀ m : Fin 5, m.val < t.val →
    ∑ u ∈ range (2 * t.val), (-1) ^ u * (dbCoeffs t.val).getD u 0 * (u : ℚ) ^ m.val =
      ∑ u ∈ range (2 * t.val), (-1) ^ u * (excess t.val).getD u 0 * (u : ℚ) ^ m.val := by decide +kernel

theorem excess_sum : ∀ t : Fin 6, t.val ≠ 0 → (excess t.val).length = 2 * t.val ∧
    ∑ u ∈ range (2 * t.val), |(excess t.val).getD u 0| ≤ 31 / 10 ^ 13 ∧
    ∑ u ∈ range (2 * t.val), |(dbCoeffs t.val).getD u 0| ≤ 1415 / 1000 := by decide +kernel

theorem getD_scaled (l : List ℚ) (u : ℕ) : ((l.map fun q : ℚ => (q : ℝ)).map fun x => Real.sqrt 2 * x).getD u 0 =
    Real.sqrt 2 * ((l.getD u 0 : ℚ) : ℝ) := by
  simp only [List.getD, List.map_map, List.getElem?_map]
  cases l[u]? <;> simp

/-- C99 for the decimals of DB1 to DB5 in the code: where the signal is a polynomial of degree less than the order and its samples are
at most `A` in magnitude, the details are at most `2 · 10⁻¹² · (9/4)^(dimension · (s + 1)) · A`. -/
theorem C99_code_filters (b : Buffer ℝ) (hb : WellFormed b) (ht : b.params.wtype ≤ 5) (hch : 0 < b.params.signalNumber)
    (data : List (Mat ℝ)) (hd : IsSignal b.params data) :
    ∃ d, b.decompose codeKit data nullDenoiser = .ok d true ∧ d.length = data.length ∧
      ∀ (n : ℕ) (x px : Mat ℝ) (c : List (Mat ℝ)), data[n]? = some x →
        addPadding x (b.params.shape.map (paddedSide b.params)) = .ok px → d[n]? = some c →
        ∀ s < b.params.steps, ∀ q < detailsPerStep b.params, ∃ m, c[s * detailsPerStep b.params + q]? = some m ∧
          ∀ i < m.rows, ∀ j < m.cols, LocallyPolynomial b.params (s + 1) i j px → ∀ A : ℝ, 0 ≤ A →
            (∀ t ≤ (2 * b.params.wtype - 1) * (2 ^ (s + 1) - 1), ∀ t' ≤ (2 * b.params.wtype - 1) * (2 ^ (s + 1) - 1),
              |px.get ((2 ^ (s + 1) * i + t) % px.rows) ((2 ^ (s + 1) * j + t') % px.cols)| ≤ A) →
            |m.get i j| ≤ 2 / 10 ^ 12 * (9 / 4) ^ (b.params.shape.length * (s + 1)) * A := by
  have hv := hb.1
  have hk : FilterPresent codeKit b.params := codeKit_present (by omega)
  refine ⟨_, decompose_ok hb hk hch hd (fun _ => nullDenoiser_sized), by simp, ?_⟩
  intro n x px c hx hpx hc s hs q hq
  rw [List.getElem?_map, hx] at hc
  obtain rfl := Option.some.inj hc
  have sx := shaped_of (hd.2 x (List.mem_of_getElem? hx))
  rw [paddedShape_spec hv, addPadding_ok hv sx] at hpx
  injection hpx with hpx
  have fx := fits_padOf hv sx
  rw [hpx] at fx
  refine ⟨_, chan_detail hv hk sx hs hq, ?_⟩
  rw [hpx]
  intro i hi j hj hp A hA hbd
  have ht0 := wavelet_of_steps hv hs
  obtain ⟨Q, hQ, eQ, e⟩ := detail_value (k := codeKit) hv hk fx hs _ _ hi hj hp
  rw [e]
  obtain ⟨xl, x1, x2⟩ := excess_sum ⟨b.params.wtype, by omega⟩ ht0
  simp only at xl x1 x2
  have hq0 : 0 ≤ Real.sqrt 2 := Real.sqrt_nonneg 2
  have hq2 : Real.sqrt 2 ≤ 1415 / 1000 := by
    rw [Real.sqrt_le_left (by norm_num)]; norm_num
  set ex : List ℝ := ((excess b.params.wtype).map fun q : ℚ => (q : ℝ)).map fun x => Real.sqrt 2 * x with hex
  have gex : ∀ u, ex.getD u 0 = Real.sqrt 2 * (((excess b.params.wtype).getD u 0 : ℚ) : ℝ) := getD_scaled _
  have gsc : ∀ u, (scaling codeKit b.params).getD u 0 = Real.sqrt 2 * (((dbCoeffs b.params.wtype).getD u 0 : ℚ) : ℝ) := getD_scaled _
  have lex : ex.length = 2 * b.params.wtype := by rw [hex, List.length_map, List.length_map, xl]
  have sumabs : ∀ (l : List ℚ) (f : ℕ → ℝ) (r : ℚ), (∀ u, f u = Real.sqrt 2 * ((l.getD u 0 : ℚ) : ℝ)) →
      ∑ u ∈ range (2 * b.params.wtype), |l.getD u 0| ≤ r → ∑ u ∈ range (2 * b.params.wtype), |f u| ≤ 1415 / 1000 * r := by
    intro l f r hf hr
    have h1 : ∑ u ∈ range (2 * b.params.wtype), |f u| = Real.sqrt 2 * ((∑ u ∈ range (2 * b.params.wtype), |l.getD u 0| : ℚ) : ℝ) := by
      push_cast
      rw [mul_sum]
      exact sum_congr rfl fun u _ => by rw [hf, abs_mul, abs_of_nonneg hq0]
    have h2 : ((∑ u ∈ range (2 * b.params.wtype), |l.getD u 0| : ℚ) : ℝ) ≤ r := by exact_mod_cast hr
    have h3 : (0 : ℝ) ≤ ((∑ u ∈ range (2 * b.params.wtype), |l.getD u 0| : ℚ) : ℝ) := by
      exact_mod_cast sum_nonneg fun u _ => abs_nonneg _
    rw [h1]
    exact mul_le_mul hq2 h2 h3 (by norm_num)
  have lsc := length_scaling hk ht0
  have B1 : ∑ u ∈ range (2 * b.params.wtype), |fl (scaling codeKit b.params) u| ≤ 9 / 4 :=
    (sumabs _ _ _ gsc x2).trans (by norm_num)
  have B2 : ∑ u ∈ range (2 * b.params.wtype), |fl (qmf (scaling codeKit b.params)) u| ≤ 9 / 4 := by
    have := sum_abs_qmf lsc
    exact (le_of_eq this).trans B1
  have B3 : ∑ u ∈ range (2 * b.params.wtype), |fl (qmf ex) u| ≤ 9 / 2 / 10 ^ 12 := by
    have := sum_abs_qmf lex
    exact (le_of_eq this).trans ((sumabs _ _ _ gex x1).trans (by norm_num))
  have mom : ∀ m < b.params.wtype, ∑ u ∈ range (2 * b.params.wtype), fl (qmf (scaling codeKit b.params)) u * (u : ℝ) ^ m =
      ∑ u ∈ range (2 * b.params.wtype), fl (qmf ex) u * (u : ℝ) ^ m := by
    intro m hm
    rw [qmf_moment lsc hm, qmf_moment lex hm]
    refine sum_congr rfl fun r hr => ?_
    rw [mem_range] at hr
    congr 2
    have h0 := excess_moments ⟨b.params.wtype, by omega⟩ ⟨r, by omega⟩ hr
    simp only at h0
    have h1 := congrArg (fun z : ℚ => Real.sqrt 2 * (z : ℝ)) h0
    push_cast at h1
    simp only [gex, gsc]
    rw [mul_sum, mul_sum] at h1
    calc _ = _ := sum_congr rfl fun u _ => by ring
      _ = _ := h1
      _ = _ := sum_congr rfl fun u _ => by ring
  set M : ℝ := (9 / 4 * bC b.params (9 / 4)) ^ s * A with hM
  have hb0 := bC_nonneg (p := b.params) (B := 9 / 4) (by norm_num)
  have hM0 : 0 ≤ M := by rw [hM]; positivity
  have hQb : ∀ u < 2 * b.params.wtype, ∀ v < 2 * b.params.wtype, |Q u v| ≤ M := by
    intro u hu v hv'
    rw [← eQ u hu v hv']
    refine sig_bound hv hk fx (by omega) (by norm_num) hA B1 (by omega) (2 * i) (2 * j) (2 * b.params.wtype - 1) ?_ u (by omega) v (by omega)
    have e : ∀ z, 2 ^ s * (2 * z) = 2 ^ (s + 1) * z := fun z => by rw [pow_succ]; ring
    have w := width_step (N := b.params.wtype) (s := s) (U := 0)
    simp only [Nat.mul_zero, Nat.zero_add] at w
    rw [e, e, w]
    exact hbd
  have tc : tapsC b.params ≤ 2 * b.params.wtype := by unfold tapsC; split <;> omega
  have fin : ∀ z : ℝ, |z| ≤ 9 / 2 / 10 ^ 12 * bC b.params (9 / 4) * M →
      |z| ≤ 2 / 10 ^ 12 * (9 / 4) ^ (b.params.shape.length * (s + 1)) * A := by
    intro z hz
    refine hz.trans (le_of_eq ?_)
    have e1 : 9 / 4 * bC b.params (9 / 4 : ℝ) = (9 / 4) ^ b.params.shape.length := by
      rcases shape_cases hv with ⟨a, hsh, hd1⟩ | ⟨a, a', hsh, hd2⟩
      · unfold bC; rw [if_pos hd1, hsh]; simp
      · unfold bC; rw [if_neg (by omega), hsh]; norm_num
    rw [hM, pow_mul, ← e1, pow_succ]; ring
  refine fin _ ?_
  rcases off_cases hq with hr | ⟨hd1, hr, hc⟩
  · rw [hr]
    have e2 : ∑ a ∈ range (2 * b.params.wtype), fl (subf (scaling codeKit b.params) true) a *
          ∑ l ∈ range (tapsC b.params), tapC b.params (subf (scaling codeKit b.params) (cOff b.params q)) l * Q a l =
        ∑ l ∈ range (tapsC b.params), tapC b.params (subf (scaling codeKit b.params) (cOff b.params q)) l *
          ∑ a ∈ range (2 * b.params.wtype), fl (qmf ex) a * Q a l := by
      rw [← sum_congr rfl fun l _ => congrArg (_ * ·) (hQ.exchange mom l)]
      simp_rw [mul_sum]
      rw [sum_comm]
      exact sum_congr rfl fun l _ => sum_congr rfl fun a _ => by simp only [subf, if_true]; ring
    rw [e2]
    have Bc : ∑ u ∈ range (tapsC b.params), |tapC b.params (subf (scaling codeKit b.params) (cOff b.params q)) u| ≤
        bC b.params (9 / 4) := sum_tapC (by unfold subf; split <;> assumption)
    refine (abs_sum_mul_le (M := 9 / 2 / 10 ^ 12 * M) (by positivity) Bc (fun l hl => abs_sum_mul_le hM0 B3 (fun a ha =>
      hQb a ha l (by omega)))).trans (le_of_eq (by ring))
  · rw [hr, hc]
    have e2 : ∀ a, ∑ l ∈ range (tapsC b.params), tapC b.params (subf (scaling codeKit b.params) true) l * Q a l =
        ∑ l ∈ range (2 * b.params.wtype), fl (qmf ex) l * Q a l := by
      intro a
      rw [← hQ.swap.exchange mom a]
      unfold tapsC tapC
      simp only [if_neg hd1, subf, if_true]
    simp only [e2]
    refine (abs_sum_mul_le (M := 9 / 2 / 10 ^ 12 * M) (by positivity) (B := 9 / 4) (by simpa [subf] using B1) (fun a ha =>
      abs_sum_mul_le hM0 B3 (fun l hl => hQb a ha l hl))).trans (le_of_eq ?_)
    unfold bC
    rw [if_neg hd1]; ring

/-- A ramp of six samples. -/
def ramp : Mat ℝ := Mat.ofFn 6 1 fun i _ => (i : ℝ)

/-- C99 does not hold exactly for the decimals in the code: with DB2, the first detail of the ramp 0, 1, 2, 3, 4, 5 is not zero. -/
theorem C99_decimals_counterexample :
    ∃ (b : Buffer ℝ) (d : Decs ℝ) (c : List (Mat ℝ)) (m : Mat ℝ), WellFormed b ∧ b.params = ⟨[6], 1, 1, 2⟩ ∧ IsSignal b.params [ramp] ∧
      addPadding ramp (b.params.shape.map (paddedSide b.params)) = .ok ramp ∧ LocallyPolynomial b.params 1 0 0 ramp ∧
      b.decompose codeKit [ramp] nullDenoiser = .ok d true ∧ d[0]? = some c ∧ c[0]? = some m ∧ 0 < m.rows ∧ 0 < m.cols ∧
      m.get 0 0 ≠ 0 := by
  have hb : WellFormed (Buffer.mk ⟨[6], 1, 1, 2⟩ [[Mat.empty, Mat.empty]] : Buffer ℝ) :=
    ⟨⟨by simp, by simp, by simp⟩, by simp, by simp [subbandCount, detailsPerStep]⟩
  have hv := hb.1
  have hk : FilterPresent codeKit ⟨[6], 1, 1, 2⟩ := codeKit_present (by simp)
  have hsig : IsSignal ⟨[6], 1, 1, 2⟩ [ramp] := ⟨by simp, by simp [HasShape, ramp]⟩
  have sx : Shaped ⟨[6], 1, 1, 2⟩ ramp := shaped_of (hsig.2 ramp (by simp))
  have hp : padOf ⟨[6], 1, 1, 2⟩ ramp = ramp := padOf_self hv sx (by simp)
  have hd := chan_detail (k := codeKit) hv hk sx (s := 0) (q := 0) (by simp) (by simp [detailsPerStep])
  refine ⟨⟨⟨[6], 1, 1, 2⟩, [[Mat.empty, Mat.empty]]⟩, _, _, _, hb, rfl, hsig, ?_, ?_,
    decompose_ok hb hk (by simp) hsig (fun _ => nullDenoiser_sized), rfl, by simpa using hd, ?_, ?_, ?_⟩
  · rw [paddedShape_spec hv, addPadding_ok hv sx, hp]
  · refine ⟨fun a b => if a = 1 ∧ b = 0 then 1 else 0, ?_⟩
    intro t ht t' _
    have ht : t ≤ 3 := by simpa using ht
    have e : (ramp).get ((2 ^ 1 * 0 + t) % ramp.rows) ((2 ^ 1 * 0 + t') % ramp.cols) = t := by
      have h1 : (2 ^ 1 * 0 + t) % 6 = t := by omega
      have h2 : (2 ^ 1 * 0 + t') % 1 = 0 := by omega
      change (Mat.ofFn 6 1 fun i _ => (i : ℝ)).get ((2 ^ 1 * 0 + t) % 6) ((2 ^ 1 * 0 + t') % 1) = t
      rw [h1, h2, Mat.get_ofFn (by omega) (by omega)]
    rw [e]
    simp [sum_range_succ]
  · rw [hp]; simp [stepSub, sig, ramp]
  · simp [stepSub, Params.dimension]
  · rw [hp]
    have w : (stepSub ⟨[6], 1, 1, 2⟩ (scaling codeKit ⟨[6], 1, 1, 2⟩) (rOff ⟨[6], 1, 1, 2⟩ 0) (cOff ⟨[6], 1, 1, 2⟩ 0)
        (sig ⟨[6], 1, 1, 2⟩ (scaling codeKit ⟨[6], 1, 1, 2⟩) ramp 0)).get 0 0 =
        ∑ u ∈ range 4, fl (qmf (scaling codeKit ⟨[6], 1, 1, 2⟩)) u * (u : ℝ) := by
      change (stepSub ⟨[6], 1, 1, 2⟩ _ _ _ ramp).get 0 0 = _
      unfold stepSub
      rw [Mat.get_ofFn (by simp [ramp]) (by simp [Params.dimension])]
      refine sum_congr rfl fun u hu => ?_
      have hu : u < 4 := by simpa using hu
      have h1 : (2 * 0 + u) % 6 = u := by omega
      simp only [tapsC, tapC, Params.dimension, List.length_singleton, if_true, sum_range_one, one_mul, rOff, subf]
      congr 1
      change (Mat.ofFn 6 1 fun i _ => (i : ℝ)).get ((2 * 0 + u) % 6) ((2 * 0 + 0) % 1) = u
      rw [h1, Mat.get_ofFn (by omega) (by omega)]
    rw [w]
    have h := qmf_moment (N := 2) (h := scaling codeKit ⟨[6], 1, 1, 2⟩) (length_scaling hk (by simp)) (m := 1) (by omega)
    simp only [pow_one] at h
    rw [show 2 * 2 = 4 from rfl] at h
    rw [h]
    have gsc : ∀ u, (scaling codeKit ⟨[6], 1, 1, 2⟩).getD u 0 = Real.sqrt 2 * (((dbCoeffs 2).getD u 0 : ℚ) : ℝ) := getD_scaled _
    have hq : Real.sqrt 2 ≠ 0 := by positivity
    have c0 : (dbCoeffs 2).getD 0 0 = 34150635094622 / 10 ^ 14 := by decide +kernel
    have c1 : (dbCoeffs 2).getD 1 0 = 59150635094587 / 10 ^ 14 := by decide +kernel
    have c2 : (dbCoeffs 2).getD 2 0 = 15849364905378 / 10 ^ 14 := by decide +kernel
    have c3 : (dbCoeffs 2).getD 3 0 = -9150635094587 / 10 ^ 14 := by decide +kernel
    simp only [gsc, sum_range_succ, sum_range_zero, c0, c1, c2, c3]
    generalize Real.sqrt 2 = r at hq
    intro h0
    apply hq
    push_cast at h0
    simp only [Nat.choose] at h0
    ring_nf at h0
    linarith

/-! ### Concrete cases -/

/-- The hypotheses of C99 for a filter of integers (order 2) and a signal of 12 samples that is a ramp except for the last three. -/
example : let p : Params := ⟨[12], 1, 1, 2⟩
    let k : Kit ℤ := ⟨fun _ => [1, 2, 1, 0], fun x => 3 * x, fun _ _ x => x⟩
    let x : Mat ℤ := Mat.ofFn 12 1 fun i _ => if i < 9 then 5 * i + 2 else -7
    WellFormed (Buffer.mk p [[Mat.empty, Mat.empty]] : Buffer ℤ) ∧ FilterPresent k p ∧ VanishingMoments p.wtype (scalingFilter k p) ∧
      IsSignal p [x] ∧ LocallyPolynomial p 1 2 0 x := by
  refine ⟨⟨⟨by simp, by simp, by simp⟩, by simp, by simp [subbandCount, detailsPerStep]⟩, fun _ => rfl, ?_, ⟨by simp, by simp [HasShape]⟩, ?_⟩
  · intro m hm
    have hm : m = 0 ∨ m = 1 := by simp at hm; omega
    rcases hm with rfl | rfl <;> decide
  · refine ⟨fun a b => if b = 0 then if a = 0 then 22 else 5 else 0, ?_⟩
    intro t ht t' _
    have ht : t ≤ 3 := by simpa using ht
    have h1 : (2 ^ 1 * 2 + t) % 12 = 4 + t := by omega
    have h2 : (2 ^ 1 * 0 + t') % 1 = 0 := by omega
    change (Mat.ofFn 12 1 fun i _ => if i < 9 then 5 * (i : ℤ) + 2 else -7).get ((2 ^ 1 * 2 + t) % 12) ((2 ^ 1 * 0 + t') % 1) = _
    rw [h1, h2, Mat.get_ofFn (by omega) (by omega), if_pos (by omega)]
    simp [sum_range_succ]
    ring

end WB.Props
