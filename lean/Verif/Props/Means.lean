import Verif.Proof.Means
import Verif.Props.Metrics
import Verif.Props.Preview

/-!
C136: the previews of a Haar decomposition are averages and stay in the range of the samples.
-/

namespace WB.Props

open Spec Finset

theorem pad_sample {p : Params} (hv : ValidParams p) (hw : p.wtype = 1) {x : Mat ℝ} (hx : Shaped p x) {i j : ℕ} (hi : i < lvlR p 0) (hj : j < lvlC p 0) :
    (padOf p x).get i j = paddedSample p x i j := by
  obtain ⟨e1, e2⟩ := fits_sides hv (fits_padOf hv hx)
  unfold padOf paddedSample at *
  rw [if_neg (by omega)] at e1 e2 ⊢
  simp only [Mat.rows_ofFn, Mat.cols_ofFn] at e1 e2
  have hr : i < matRows (paddedShape p) := by simpa [lvlR] using hi
  have hc : j < matCols (paddedShape p) := by
    rcases shape_cases hv with ⟨n, hsh, hd⟩ | ⟨w, h, hsh, hd⟩
    · have e : matCols (paddedShape p) = 1 := by
        have : (paddedShape p).length = 1 := by unfold paddedShape; split_ifs <;> simp [hsh]
        match hs : paddedShape p, this with
        | [a], _ => simp [matCols]
      rw [e]
      simpa [lvlC, hd] using hj
    · simpa [lvlC, hd] using hj
  rw [Mat.get_ofFn hr hc, ← e1, ← e2]
  rfl

/-- C136. Haar, exact arithmetic: every value of a preview is the mean of the samples it stands for. -/
theorem C136_means (b : Buffer ℝ) (hb : WellFormed b) (hw : b.params.wtype = 1) (hch : 0 < b.params.signalNumber) (data : List (Mat ℝ)) (hd : IsSignal b.params data)
    (s : ℕ) (hs : s ≤ b.params.steps) :
    ∃ d out, b.decompose codeKit data nullDenoiser = .ok d true ∧ (Buffer.mk b.params d).compose codeKit s = .ok out ∧
      List.Forall₂ (fun x y => HasShape (b.params.shape.map (· / 2 ^ s)) y ∧ BlockMeans b.params s x y) data out := by
  have hv := hb.1
  have hk : FilterPresent codeKit b.params := codeKit_present (by omega)
  have sh : ∀ m ∈ data, Shaped b.params m := fun m hm => shaped_of (hd.2 m hm)
  refine ⟨_, _, decompose_ok hb hk hch hd (fun _ => nullDenoiser_sized), compose_ok (b := ⟨b.params, data.map (chanP b.params (scaling codeKit b.params) nullDenoiser)⟩) hv
    (by simpa using hd.1) hk (by
      intro c hc
      obtain ⟨m, hm, rfl⟩ := List.mem_map.1 hc
      exact chanP_sized hv nullDenoiser_sized (sh m hm)) hs, ?_⟩
  show List.Forall₂ _ data ((data.map _).map _)
  rw [List.map_map, List.forall₂_map_right_iff, List.forall₂_same]
  intro x hx
  have sx := sh x hx
  have hp := fits_padOf hv sx
  have f := fits_sig (k := codeKit) hv hp hs
  have hok : OrthoKit codeKit b.params := fun ht => ortho_of hk (haar_ortho _ hw) ht
  show HasShape _ (outP codeKit b.params s _) ∧ BlockMeans b.params s x (outP codeKit b.params s _)
  unfold outP
  rw [reconP_chanP hv hk hok sx hs]
  obtain ⟨r1, r2⟩ := finishP_size (k := codeKit) hv hs f
  obtain ⟨l1, l2⟩ := scaled_le hv f
  obtain ⟨e1, e2⟩ := fits_sides hv f
  refine ⟨hasShape_of hv r1 r2, ?_⟩
  set p := b.params with hpd
  intro i hi j hj
  rw [r1, r2, ← e1, ← e2]
  rw [r1] at hi
  rw [r2] at hj
  have h0 : ¬ matRows (p.shape.map (· / 2 ^ s)) * matCols (p.shape.map (· / 2 ^ s)) = 0 := Nat.mul_ne_zero (by omega) (by omega)
  have val : (finishP codeKit p s (sig p (scaling codeKit p) (padOf p x) s)).get i j =
      (sig p (scaling codeKit p) (padOf p x) s).get (i + ((sig p (scaling codeKit p) (padOf p x) s).rows - matRows (p.shape.map (· / 2 ^ s))) / 2)
        (j + ((sig p (scaling codeKit p) (padOf p x) s).cols - matCols (p.shape.map (· / 2 ^ s))) / 2) / (if p.dimension = 1 then Real.sqrt 2 else 2) ^ s := by
    have crop : (cropOf p s (sig p (scaling codeKit p) (padOf p x) s)).get i j =
        (sig p (scaling codeKit p) (padOf p x) s).get (i + ((sig p (scaling codeKit p) (padOf p x) s).rows - matRows (p.shape.map (· / 2 ^ s))) / 2)
          (j + ((sig p (scaling codeKit p) (padOf p x) s).cols - matCols (p.shape.map (· / 2 ^ s))) / 2) := by
      unfold cropOf
      simp only
      rw [if_neg h0, Mat.get_ofFn hi hj]
      unfold padOffset
      simp only [reduceCtorEq, if_false]
      rw [Nat.add_comm i, Nat.add_comm j]
    have sizes : (cropOf p s (sig p (scaling codeKit p) (padOf p x) s)).rows = matRows (p.shape.map (· / 2 ^ s)) ∧
        (cropOf p s (sig p (scaling codeKit p) (padOf p x) s)).cols = matCols (p.shape.map (· / 2 ^ s)) := by
      unfold cropOf
      simp only
      rw [if_neg h0]
      exact ⟨rfl, rfl⟩
    unfold finishP
    split_ifs with hs0 hd1 hd1
    · rw [Mat.get_map _ _ (by rw [sizes.1]; exact hi) (by rw [sizes.2]; exact hj), crop]
      have : (p.dimension == 2) = false := by rw [hd1]; rfl
      rw [this]
      rfl
    · rw [Mat.get_map _ _ (by rw [sizes.1]; exact hi) (by rw [sizes.2]; exact hj), crop]
      have : (p.dimension == 2) = true := by
        rcases shape_cases hv with ⟨_, _, hd⟩ | ⟨_, _, _, hd⟩
        · exact absurd hd hd1
        · rw [hd]; rfl
      rw [this]
      rfl
    · obtain rfl : s = 0 := by omega
      rw [crop]
      exact (div_one _).symm.trans (by rw [pow_zero (M := ℝ)])
    · obtain rfl : s = 0 := by omega
      rw [crop]
      exact (div_one _).symm.trans (by rw [pow_zero (M := ℝ)])
  rw [val]
  obtain ⟨I, hI⟩ : ∃ I, I = i + ((sig p (scaling codeKit p) (padOf p x) s).rows - matRows (p.shape.map (· / 2 ^ s))) / 2 := ⟨_, rfl⟩
  obtain ⟨J, hJ⟩ : ∃ J, J = j + ((sig p (scaling codeKit p) (padOf p x) s).cols - matCols (p.shape.map (· / 2 ^ s))) / 2 := ⟨_, rfl⟩
  rw [← hI, ← hJ]
  have hIr : I < lvlR p s := by
    have : (sig p (scaling codeKit p) (padOf p x) s).rows = lvlR p s := f.1
    omega
  have hJc : J < lvlC p s := by
    have : (sig p (scaling codeKit p) (padOf p x) s).cols = lvlC p s := f.2
    omega
  rw [haar_sig hv hw hp s hs I hIr J hJc]
  have ebc : blockCols p s = colsPer p ^ s := by
    unfold blockCols colsPer
    rcases shape_cases hv with ⟨n, hsh, hd⟩ | ⟨w, h, hsh, hd⟩
    · rw [hsh, if_pos hd, one_pow]; rfl
    · rw [hsh, if_neg (show ¬ p.dimension = 1 by rw [hd]; decide)]; rfl
  have erow : 2 ^ s * lvlR p s ≤ lvlR p 0 := by
    unfold lvlR
    rw [pow_zero, Nat.div_one]
    exact Nat.mul_div_le _ _
  have ecol : colsPer p ^ s * lvlC p s ≤ lvlC p 0 := by
    unfold lvlC colsPer
    split_ifs
    · simp
    · rw [pow_zero, Nat.div_one]
      exact Nat.mul_div_le _ _
  have inside : ∀ {n N I a : ℕ}, I < N → a < n → n * I + a < n * N := by
    intro n N I a h1 h2
    have : n * (I + 1) ≤ n * N := Nat.mul_le_mul_left _ h1
    rw [Nat.mul_add, Nat.mul_one] at this
    omega
  rw [ebc, sum_congr rfl fun a ha => sum_congr rfl fun b hb => pad_sample hv hw sx (lt_of_lt_of_le (inside hIr (mem_range.1 ha)) erow)
    (lt_of_lt_of_le (inside hJc (mem_range.1 hb)) ecol)]
  have g : haarGain p ^ s / (if p.dimension = 1 then Real.sqrt 2 else 2) ^ s = 1 / ((2 ^ s * colsPer p ^ s : ℕ) : ℝ) := by
    rw [← div_pow]
    push_cast
    rw [← mul_pow, ← one_div_pow]
    congr 1
    unfold haarGain colsPer
    have : Real.sqrt 2 ≠ 0 := (Real.sqrt_pos.2 (by norm_num)).ne'
    split_ifs
    · field_simp
      norm_num
    · norm_num
  rw [mul_comm, mul_div_assoc, g, mul_one_div]

/-- A mean of samples is in the range of the samples. -/
theorem mean_between {p : Params} {s : ℕ} {x y : Mat ℝ} (hr : 0 < x.rows) (hc : 0 < x.cols) {lo hi : ℝ} (h : ∀ i < x.rows, ∀ j < x.cols, lo ≤ x.get i j ∧ x.get i j ≤ hi)
    (hm : BlockMeans p s x y) : ∀ i < y.rows, ∀ j < y.cols, lo ≤ y.get i j ∧ y.get i j ≤ hi := by
  intro i hi' j hj'
  have hn : 0 < blockCols p s := by unfold blockCols; split <;> positivity
  have hpos : (0 : ℝ) < ((2 ^ s * blockCols p s : ℕ) : ℝ) := by positivity
  have key : ∀ I J, lo ≤ paddedSample p x I J ∧ paddedSample p x I J ≤ hi := fun I J => h _ (by omega) _ (by omega)
  have count : ∀ c : ℝ, ∑ _a ∈ range (2 ^ s), ∑ _b ∈ range (blockCols p s), c = c * ((2 ^ s * blockCols p s : ℕ) : ℝ) := by
    intro c
    simp only [sum_const, card_range, nsmul_eq_mul]
    push_cast
    ring
  rw [hm i hi' j hj', le_div_iff₀ hpos, div_le_iff₀ hpos, ← count, ← count]
  exact ⟨sum_le_sum fun _ _ => sum_le_sum fun _ _ => (key _ _).1, sum_le_sum fun _ _ => sum_le_sum fun _ _ => (key _ _).2⟩

/-- C136. Haar, exact arithmetic: if all samples lie in an interval, so do all values of all previews. -/
theorem C136_range_partial (b : Buffer ℝ) (hb : WellFormed b) (hw : b.params.wtype = 1) (hch : 0 < b.params.signalNumber) (data : List (Mat ℝ)) (hd : IsSignal b.params data)
    (lo hi : ℝ) (h : ∀ x ∈ data, ∀ i < x.rows, ∀ j < x.cols, lo ≤ x.get i j ∧ x.get i j ≤ hi) (s : ℕ) (hs : s ≤ b.params.steps) :
    ∃ d out, b.decompose codeKit data nullDenoiser = .ok d true ∧ (Buffer.mk b.params d).compose codeKit s = .ok out ∧ out.length = data.length ∧
      ∀ y ∈ out, HasShape (b.params.shape.map (· / 2 ^ s)) y ∧ ∀ i < y.rows, ∀ j < y.cols, lo ≤ y.get i j ∧ y.get i j ≤ hi := by
  have hv := hb.1
  obtain ⟨d, out, h1, h2, h3⟩ := C136_means b hb hw hch data hd s hs
  refine ⟨d, out, h1, h2, h3.length_eq.symm, fun y hy => ?_⟩
  obtain ⟨n, hn, rfl⟩ := List.mem_iff_getElem.1 hy
  have hn' : n < data.length := by rw [h3.length_eq]; exact hn
  have sx := shaped_of (hd.2 _ (List.getElem_mem hn'))
  obtain ⟨a, c, _⟩ := padded_ge hv (show b.params.wtype ≠ 0 by omega)
  have g := h3.get hn' hn
  exact ⟨g.1, mean_between (by rw [sx.1]; exact a) (by rw [sx.2]; exact c) (h _ (List.getElem_mem hn')) g.2⟩

theorem matNumbers_get {x : Mat F32} {i j : ℕ} (hi : i < x.rows) (hj : j < x.cols) : (matNumbers x).get i j = ((number (x.get i j) : ℚ) : ℝ) :=
  Mat.get_map _ _ hi hj

theorem hasShape_rows {α : Type} {p : Params} (hv : ValidParams p) {s : ℕ} {m : Mat α} (h : HasShape (p.shape.map (· / 2 ^ s)) m) :
    m.rows = matRows (p.shape.map (· / 2 ^ s)) ∧ m.cols = matCols (p.shape.map (· / 2 ^ s)) := by
  rcases shape_cases hv with ⟨a, hsh, _⟩ | ⟨a, c, hsh, _⟩ <;> rw [hsh] at h ⊢ <;> exact h

/-- C136. The previews that come out of an archive, computed in `float`: whatever bound C112 gives, no value is further than that from the mean of the samples it stands
for, and so none is further than that outside the range of the samples. -/
theorem C136_archive (r : Rounding) (o : FloatOps) (e : Ext) (Mem level : ℕ) (old : Bytes) (b : Buffer F32) (hb : WellFormed b) (hw : b.params.wtype = 1)
    (hch : 0 < b.params.signalNumber) (den : Denoiser F32) (data : List (Mat F32)) (hd : IsSignal b.params data) (s : ℕ) (hs : s ≤ b.params.steps) (bound lo hi : ℝ)
    (h : ∀ x ∈ data, ∀ i < x.rows, ∀ j < x.cols, lo ≤ ((number (x.get i j) : ℚ) : ℝ) ∧ ((number (x.get i j) : ℚ) : ℝ) ≤ hi)
    (hp : PreviewWithin r o e Mem level old b den data s bound) :
    ∃ d blob d' out, Buffer.decompose (α := Bits o) (bitsKit r o) b data den = .ok d true ∧ serialize e ⟨b.params, d⟩ old level = .ok (true, blob) ∧
      (blob.length ≤ Mem → parse e blob = .ok (some ⟨b.params, d'⟩)) ∧ Buffer.compose (α := Bits o) (bitsKit r o) ⟨b.params, d'⟩ s = .ok out ∧
      out.length = data.length ∧ ∀ (n : ℕ) (x y : Mat F32), data[n]? = some x → out[n]? = some y →
        HasShape (b.params.shape.map (· / 2 ^ s)) y ∧ (∃ z : Mat ℝ, z.rows = y.rows ∧ z.cols = y.cols ∧ BlockMeans b.params s (matNumbers x) z ∧
          ∀ i < y.rows, ∀ j < y.cols, |((number (y.get i j) : ℚ) : ℝ) - z.get i j| ≤ bound) ∧
        ∀ i < y.rows, ∀ j < y.cols, lo - bound ≤ ((number (y.get i j) : ℚ) : ℝ) ∧ ((number (y.get i j) : ℚ) : ℝ) ≤ hi + bound := by
  have hv := hb.1
  obtain ⟨d, blob, d', out, h1, h2, h3, h4, h5, h6⟩ := hp
  refine ⟨d, blob, d', out, h1, h2, h3, h4, h5, fun n x y hx hy => ?_⟩
  have hdR : IsSignal b.params (data.map matNumbers) := by
    refine ⟨by rw [List.length_map]; exact hd.1, fun m hm => ?_⟩
    obtain ⟨x, hx, rfl⟩ := List.mem_map.1 hm
    have := hd.2 x hx
    rcases shape_cases hv with ⟨a, hsh, _⟩ | ⟨a, c, hsh, _⟩ <;> rw [hsh] at this ⊢ <;> exact this
  obtain ⟨bR, hbR, hpR⟩ : ∃ bR : Buffer ℝ, WellFormed bR ∧ bR.params = b.params :=
    ⟨⟨b.params, List.replicate b.params.signalNumber (List.replicate (subbandCount b.params) Mat.empty)⟩, ⟨hv, by simp, by
      intro c hc
      rw [List.eq_of_mem_replicate hc, List.length_replicate]⟩, rfl⟩
  obtain ⟨dR, outR, k1, k2, k3, k4⟩ := h6 bR hbR hpR
  obtain ⟨dR', outR', g1, g2, g3⟩ := C136_means bR hbR (by rw [hpR]; exact hw) (by rw [hpR]; exact hch) (data.map matNumbers) (by rw [hpR]; exact hdR) s (by rw [hpR]; exact hs)
  rw [k1] at g1
  injection g1 with g1
  subst g1
  rw [hpR, k2] at g2
  injection g2 with g2
  subst g2
  rw [hpR] at g3
  obtain ⟨hn, rfl⟩ := List.getElem?_eq_some_iff.1 hx
  have hnR : n < outR.length := by omega
  obtain ⟨q1, q2, _, q4⟩ := k4 n y _ hy (List.getElem?_eq_getElem hnR)
  have mean := (g3.get (i := n) (by rw [List.length_map]; exact hn) hnR).2
  simp only [List.get_eq_getElem, List.getElem_map] at mean
  have size : outR[n].rows = y.rows ∧ outR[n].cols = y.cols := by
    have a := hasShape_rows hv q1
    have b := hasShape_rows hv q2
    exact ⟨b.1.trans a.1.symm, b.2.trans a.2.symm⟩
  have near : ∀ i < y.rows, ∀ j < y.cols, |((number (y.get i j) : ℚ) : ℝ) - outR[n].get i j| ≤ bound := by
    intro i hi j hj
    refine le_trans ?_ q4
    rw [← matNumbers_get hi hj, ← Real.sqrt_sq_eq_abs]
    refine Real.sqrt_le_sqrt ?_
    unfold sqDist
    refine le_trans ?_ (single_le_sum (f := fun i => ∑ j ∈ range (matNumbers y).cols, ((matNumbers y).get i j - outR[n].get i j) ^ 2)
      (fun _ _ => sum_nonneg fun _ _ => sq_nonneg _) (mem_range.2 (show i < (matNumbers y).rows from hi)))
    exact single_le_sum (f := fun j => ((matNumbers y).get i j - outR[n].get i j) ^ 2) (fun _ _ => sq_nonneg _) (mem_range.2 (show j < (matNumbers y).cols from hj))
  refine ⟨q1, ⟨outR[n], size.1, size.2, mean, near⟩, fun i hi' j hj' => ?_⟩
  have sx := shaped_of (hd.2 _ (List.getElem_mem hn))
  obtain ⟨a, c, _⟩ := padded_ge hv (show b.params.wtype ≠ 0 by omega)
  have rng := mean_between (lo := lo) (hi := hi) (x := matNumbers data[n]) (by show 0 < data[n].rows; rw [sx.1]; exact a) (by show 0 < data[n].cols; rw [sx.2]; exact c) (by
    intro i hi j hj
    rw [matNumbers_get hi hj]
    exact h _ (List.getElem_mem hn) i hi j hj) mean i (by rw [size.1]; exact hi') j (by rw [size.2]; exact hj')
  have := abs_le.1 (near i hi' j hj')
  constructor <;> linarith [this.1, this.2, rng.1, rng.2]

/-- C136 is false for every order above 1: there is a signal with samples in `[0, 1]` whose preview of scale 1 has a value below 0. -/
theorem C136_false_above_haar (t : ℕ) (h2 : 2 ≤ t) (h5 : t ≤ 5) :
    ∃ (b : Buffer ℝ) (data : List (Mat ℝ)) (d : Decs ℝ) (y : Mat ℝ), b.params.wtype = t ∧ WellFormed b ∧ b.params.steps = 1 ∧
      0 < b.params.signalNumber ∧ IsSignal b.params data ∧ SamplesIn 1 data ∧ b.decompose codeKit data nullDenoiser = .ok d true ∧
      (Buffer.mk b.params d).compose codeKit 1 = .ok [y] ∧ y.rows = 2 * t ∧ y.cols = 1 ∧ y.get 0 0 < 0 := by
  set p : Params := ⟨[4 * t], 1, 1, t⟩ with hp
  obtain ⟨κ, hκ, hneg⟩ : ∃ κ < 2 * t, (dbCoeffs t).getD κ 0 < 0 := by
    have : t = 2 ∨ t = 3 ∨ t = 4 ∨ t = 5 := by omega
    rcases this with rfl | rfl | rfl | rfl
    · exact ⟨3, by omega, by decide +kernel⟩
    · exact ⟨3, by omega, by decide +kernel⟩
    · exact ⟨3, by omega, by decide +kernel⟩
    · exact ⟨4, by omega, by decide +kernel⟩
  have hv : ValidParams p := by
    refine ⟨Or.inl rfl, ?_, ?_⟩
    · simp [hp]; omega
    · simp [hp]; omega
  have hb : WellFormed (Buffer.mk p [[Mat.empty, Mat.empty]] : Buffer ℝ) := by
    refine ⟨hv, rfl, ?_⟩
    simp [hp, subbandCount, detailsPerStep]
  set x : Mat ℝ := Mat.ofFn (4 * t) 1 (fun i _ => if i = κ then 1 else 0) with hx
  have hsig : IsSignal p [x] := ⟨rfl, by intro m hm; simp at hm; subst hm; exact ⟨rfl, rfl⟩⟩
  have hk : FilterPresent codeKit p := codeKit_present (by simp [hp]; omega)
  have hsh : Shaped p x := shaped_of (hsig.2 x (by simp))
  have hpad : padOf p x = x := by
    have h1 := addPadding_ok hv hsh
    have hps : paddedShape p = [4 * t] := by
      rw [← paddedShape_spec hv]
      simp [hp, paddedSide]
      omega
    rw [hps] at h1
    have h2 : addPadding x [4 * t] = .ok x := extend_self _ _ _ rfl rfl
    rw [h2] at h1
    injection h1 with h1
    exact h1.symm
  have hL := length_scaling hk (show p.wtype ≠ 0 by simp [hp]; omega)
  have neg : (approxStep p (scaling codeKit p) x).get 0 0 < 0 := by
    have hd1 : p.dimension = 1 := rfl
    have hr : x.rows = 2 * (2 * t) := by rw [hx]; simp; omega
    have e : (approxStep p (scaling codeKit p) x).get 0 0 = anaP (x.col 0) (scaling codeKit p) 0 := by
      unfold approxStep
      rw [if_pos hd1]
      have : 0 < x.rows / 2 := by omega
      simp [Mat.get, Mat.ofCol, List.getD, this]
    rw [e, ana_col hL hr (by omega)]
    have e2 : ∀ a ∈ range (2 * (2 * t)), kern (2 * (2 * t)) (fl (scaling codeKit p)) (2 * p.wtype) 0 a * x.get a 0 =
        if a = κ then fl (scaling codeKit p) κ else 0 := by
      intro a ha
      rw [mem_range] at ha
      rw [hx, Mat.get_ofFn (by omega) (by omega)]
      split_ifs with hak
      · subst hak
        rw [mul_one]
        unfold kern
        rw [sum_eq_single a]
        · rw [if_pos]; rw [Nat.mul_zero, Nat.zero_add, Nat.mod_eq_of_lt (by omega)]
        · intro j hj hja
          rw [mem_range] at hj
          have : p.wtype = t := rfl
          rw [if_neg]; rw [Nat.mul_zero, Nat.zero_add, Nat.mod_eq_of_lt (by omega)]; exact hja
        · intro hn; exact absurd (mem_range.2 hκ) hn
      · rw [mul_zero]
    rw [sum_congr rfl e2, sum_ite_eq', if_pos (mem_range.2 (by omega)), fl_code]
    have : (((dbCoeffs p.wtype).getD κ 0 : ℚ) : ℝ) < 0 := by exact_mod_cast hneg
    exact mul_neg_of_pos_of_neg (Real.sqrt_pos.2 (by norm_num)) this

  have hrec : reconP p (scaling codeKit p) 1 (chanP p (scaling codeKit p) nullDenoiser x) = approxStep p (scaling codeKit p) x := by
    have h1 := chanP_last p (scaling codeKit p) nullDenoiser x default
    rw [hpad] at h1
    unfold reconP
    rw [h1]
    rfl
  have hap : (approxStep p (scaling codeKit p) x).rows = 2 * t ∧ (approxStep p (scaling codeKit p) x).cols = 1 := by
    constructor
    · simp [approxStep, hp, Params.dimension, hx]; omega
    · simp [approxStep, hp, Params.dimension]
  have hrow : matRows (p.shape.map (· / 2 ^ 1)) = 2 * t := by simp [hp, matRows]; omega
  have hcol : matCols (p.shape.map (· / 2 ^ 1)) = 1 := by simp [hp, matCols]
  have hcrop : cropOf p 1 (approxStep p (scaling codeKit p) x) = Mat.ofFn (2 * t) 1 fun i j => (approxStep p (scaling codeKit p) x).get i j := by
    unfold cropOf
    simp only
    rw [hrow, hcol, if_neg (by omega), hap.1, hap.2]
    simp [padOffset]
  have hy : outP codeKit p 1 (chanP p (scaling codeKit p) nullDenoiser x) =
      (Mat.ofFn (2 * t) 1 fun i j => (approxStep p (scaling codeKit p) x).get i j).map (codeKit.divFactor (p.dimension == 2) 1) := by
    unfold outP finishP
    rw [hrec, if_pos (by omega), hcrop]
  refine ⟨⟨p, [[Mat.empty, Mat.empty]]⟩, [x], _, _, rfl, hb, rfl, by simp [hp], hsig, ?_,
    decompose_ok hb hk (by simp [hp]) hsig (fun _ => nullDenoiser_sized),
    compose_ok (b := ⟨p, [chanP p (scaling codeKit p) nullDenoiser x]⟩) hv rfl hk (by
      intro c hc
      obtain rfl := List.mem_singleton.1 hc
      exact chanP_sized hv nullDenoiser_sized hsh) (le_refl 1), ?_, ?_, ?_⟩
  · intro m hm i hi j hj
    simp at hm; subst hm
    rw [hx, Mat.get_ofFn (show i < 4 * t from hi) (show j < 1 from hj)]
    split_ifs <;> norm_num
  · show (outP codeKit p 1 _).rows = _
    rw [hy]
    rfl
  · show (outP codeKit p 1 _).cols = _
    rw [hy]
    rfl
  · show (outP codeKit p 1 _).get 0 0 < 0
    rw [hy, Mat.get_map _ _ (show 0 < 2 * t by omega) (show 0 < 1 by omega), Mat.get_ofFn (by omega) (by omega)]
    show _ / Real.sqrt 2 ^ 1 < 0
    exact div_neg_of_neg_of_pos neg (by positivity)

/-! ### examples -/

/-- A picture of 1000 by 800, five Haar steps: at every scale the previews are the means of the blocks. -/
example (x : Mat ℝ) (h1 : x.rows = 800) (h2 : x.cols = 1000) (s : ℕ) (hs : s ≤ 5) :
    ∃ d out, Buffer.decompose codeKit ⟨⟨[1000, 800], 1, 5, 1⟩, [List.replicate 16 Mat.empty]⟩ [x] nullDenoiser = .ok d true ∧
      (Buffer.mk ⟨[1000, 800], 1, 5, 1⟩ d).compose codeKit s = .ok out ∧ List.Forall₂ (fun x y => HasShape [1000 / 2 ^ s, 800 / 2 ^ s] y ∧ BlockMeans ⟨[1000, 800], 1, 5, 1⟩ s x y) [x] out :=
  C136_means ⟨⟨[1000, 800], 1, 5, 1⟩, [List.replicate 16 Mat.empty]⟩ ⟨⟨by simp, by simp, by simp⟩, rfl, by simp [subbandCount, detailsPerStep]⟩ rfl (by simp) [x]
    ⟨rfl, by intro m hm; simp at hm; subst hm; exact ⟨h1, h2⟩⟩ s hs

/-- The mean of the first block of four samples of a signal of eight. -/
example (x y : Mat ℝ) (h1 : x.rows = 8) (h2 : x.cols = 1) (hy : y.rows = 2) (hy' : y.cols = 1) (h : BlockMeans ⟨[8], 1, 2, 1⟩ 2 x y) :
    y.get 0 0 = (x.get 0 0 + x.get 1 0 + x.get 2 0 + x.get 3 0) / 4 := by
  have := h 0 (by omega) 0 (by omega)
  simpa [paddedSample, blockCols, levelSides, paddedSide, h1, h2, hy, hy', sum_range_succ] using this

end WB.Props
