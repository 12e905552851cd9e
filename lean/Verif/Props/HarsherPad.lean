import Verif.Props.Harsher

/-!
C143 with padding: a higher threshold can give a better copy.
-/

set_option linter.unusedSectionVars false

namespace WB.Props

open Finset Spec

/-- Parameters with padding: eleven samples, three steps. -/
def eleven : Params := ⟨[11], 1, 3, 1⟩

theorem eleven_dim : eleven.dimension = 1 := rfl

theorem eleven_pad (a b c d e f g h i j k : ℝ) : padOf eleven (Mat.ofCol [a, b, c, d, e, f, g, h, i, j, k]) =
    Mat.ofCol [a, a, a, b, c, d, e, f, g, h, i, j, k, k, k, k] := by
  have e1 : matRows (paddedShape eleven) = 16 := by decide +kernel
  have e2 : matCols (paddedShape eleven) = 1 := by decide +kernel
  unfold padOf
  rw [if_neg (by simp [eleven]), e1, e2]
  rw [Mat.eq_iff]
  refine ⟨rfl, rfl, ?_⟩
  simp [Mat.ofFn, Mat.get, Mat.ofCol, clampIdx, padOffset, List.range, List.range.loop]

theorem eleven_crop (y z a b c d e f g h i j k u v w : ℝ) : cropOf eleven 0 (Mat.ofCol [y, z, a, b, c, d, e, f, g, h, i, j, k, u, v, w]) =
    Mat.ofCol [a, b, c, d, e, f, g, h, i, j, k] := by
  unfold cropOf
  simp [eleven, matRows, matCols]
  rw [Mat.eq_iff]
  refine ⟨rfl, rfl, ?_⟩
  simp [Mat.ofFn, Mat.get, Mat.ofCol, padOffset, List.range, List.range.loop]

theorem eleven_low16 (t a b c d e f g h i j k l m n o p : ℝ) :
    approxStep eleven [t, t] (Mat.ofCol [a, b, c, d, e, f, g, h, i, j, k, l, m, n, o, p]) =
      Mat.ofCol [a * t + b * t, c * t + d * t, e * t + f * t, g * t + h * t, i * t + j * t, k * t + l * t, m * t + n * t, o * t + p * t] := by
  unfold approxStep
  rw [if_pos eleven_dim, Mat.col_ofCol]
  simp [anaP, List.range, List.range.loop]

theorem eleven_low8 (t a b c d e f g h : ℝ) : approxStep eleven [t, t] (Mat.ofCol [a, b, c, d, e, f, g, h]) =
    Mat.ofCol [a * t + b * t, c * t + d * t, e * t + f * t, g * t + h * t] := by
  unfold approxStep
  rw [if_pos eleven_dim, Mat.col_ofCol]
  simp [anaP, List.range, List.range.loop]

theorem eleven_low4 (t a b c d : ℝ) : approxStep eleven [t, t] (Mat.ofCol [a, b, c, d]) = Mat.ofCol [a * t + b * t, c * t + d * t] := by
  unfold approxStep
  rw [if_pos eleven_dim, Mat.col_ofCol]
  simp [anaP, List.range, List.range.loop]

theorem eleven_high16 (t : ℝ) (den : Denoiser ℝ) (s : ℕ) (a b c d e f g h i j k l m n o p : ℝ) :
    detailStep eleven [t, t] den s (Mat.ofCol [a, b, c, d, e, f, g, h, i, j, k, l, m, n, o, p]) =
      [Mat.ofCol (den.d1 [a * t + -(b * t), c * t + -(d * t), e * t + -(f * t), g * t + -(h * t), i * t + -(j * t), k * t + -(l * t),
        m * t + -(n * t), o * t + -(p * t)] s)] := by
  unfold detailStep
  rw [if_pos eleven_dim, Mat.col_ofCol]
  simp [anaP, qmf, List.range, List.range.loop]

theorem eleven_high8 (t : ℝ) (den : Denoiser ℝ) (s : ℕ) (a b c d e f g h : ℝ) :
    detailStep eleven [t, t] den s (Mat.ofCol [a, b, c, d, e, f, g, h]) =
      [Mat.ofCol (den.d1 [a * t + -(b * t), c * t + -(d * t), e * t + -(f * t), g * t + -(h * t)] s)] := by
  unfold detailStep
  rw [if_pos eleven_dim, Mat.col_ofCol]
  simp [anaP, qmf, List.range, List.range.loop]

theorem eleven_high4 (t : ℝ) (den : Denoiser ℝ) (s : ℕ) (a b c d : ℝ) :
    detailStep eleven [t, t] den s (Mat.ofCol [a, b, c, d]) = [Mat.ofCol (den.d1 [a * t + -(b * t), c * t + -(d * t)] s)] := by
  unfold detailStep
  rw [if_pos eleven_dim, Mat.col_ofCol]
  simp [anaP, qmf, List.range, List.range.loop]

theorem eleven_up2 (t a b c d : ℝ) : synthStep eleven [t, t] (Mat.ofCol [a, b]) [Mat.ofCol [c, d]] =
    Mat.ofCol [t * a + t * c, t * a + -(t * c), t * b + t * d, t * b + -(t * d)] := by
  unfold synthStep
  rw [if_pos eleven_dim]
  simp [synP, qmf, List.range, List.range.loop, Mat.col_ofCol]

theorem eleven_up4 (t a b c d : ℝ) : synthStep eleven [t, t] (Mat.ofCol [a, b, c, d]) [Mat.ofCol [0, 0, 0, 0]] =
    Mat.ofCol [t * a, t * a, t * b, t * b, t * c, t * c, t * d, t * d] := by
  unfold synthStep
  rw [if_pos eleven_dim]
  simp [synP, qmf, List.range, List.range.loop, Mat.col_ofCol]

theorem eleven_up8 (t a b c d e f g h : ℝ) : synthStep eleven [t, t] (Mat.ofCol [a, b, c, d, e, f, g, h]) [Mat.ofCol [0, 0, 0, 0, 0, 0, 0, 0]] =
    Mat.ofCol [t * a, t * a, t * b, t * b, t * c, t * c, t * d, t * d, t * e, t * e, t * f, t * f, t * g, t * g, t * h, t * h] := by
  unfold synthStep
  rw [if_pos eleven_dim]
  simp [synP, qmf, List.range, List.range.loop, Mat.col_ofCol]

/-- The samples. -/
def elevenSamples : List ℝ := [4, 0, 2, 2, 2, 2, 2, 2, 2, 2, 2]

/-- What is composed if the denoiser removes the details of the first two steps and makes `w` of the first detail of the last step. -/
theorem eleven_channel (den : Denoiser ℝ) (w : ℝ) (h0 : den.d1 [0, (Real.sqrt 2 / 2) * 4, 0, 0, 0, 0, 0, 0] 0 = [0, 0, 0, 0, 0, 0, 0, 0])
    (h1 : den.d1 [2, 0, 0, 0] 1 = [0, 0, 0, 0]) (h2 : den.d1 [(Real.sqrt 2 / 2) * 2, 0] 2 = [(Real.sqrt 2 / 2) * w, 0]) :
    outP codeKit eleven 0 (chanP eleven (scaling codeKit eleven) den (Mat.ofCol elevenSamples)) =
      Mat.ofCol [(10 + w) / 4, (10 + w) / 4, (10 - w) / 4, (10 - w) / 4, (10 - w) / 4, (10 - w) / 4, 2, 2, 2, 2, 2] := by
  set t : ℝ := Real.sqrt 2 / 2 with ht
  have hh : Real.sqrt 2 * Real.sqrt 2 = 2 := Real.mul_self_sqrt (by norm_num)
  have tt : t * t = 1 / 2 := by rw [ht]; linear_combination hh / 4
  have hs : scaling codeKit eleven = [t, t] := haar_scaling rfl
  have s1 : approxStep eleven [t, t] (Mat.ofCol [4, 4, 4, 0, 2, 2, 2, 2, 2, 2, 2, 2, 2, 2, 2, 2]) =
      Mat.ofCol [t * 8, t * 4, t * 4, t * 4, t * 4, t * 4, t * 4, t * 4] := by
    rw [eleven_low16]
    congr 1
    simp only [List.cons.injEq, and_true]
    refine ⟨by ring, by ring, by ring, by ring, by ring, by ring, by ring, by ring⟩
  have s2 : approxStep eleven [t, t] (Mat.ofCol [t * 8, t * 4, t * 4, t * 4, t * 4, t * 4, t * 4, t * 4]) = Mat.ofCol [6, 4, 4, 4] := by
    rw [eleven_low8]
    congr 1
    simp only [List.cons.injEq, and_true]
    refine ⟨by linear_combination 12 * tt, by linear_combination 8 * tt, by linear_combination 8 * tt, by linear_combination 8 * tt⟩
  have s3 : approxStep eleven [t, t] (Mat.ofCol [6, 4, 4, 4]) = Mat.ofCol [t * 10, t * 8] := by
    rw [eleven_low4]
    congr 1
    simp only [List.cons.injEq, and_true]
    refine ⟨by ring, by ring⟩
  have d1 : detailStep eleven [t, t] den 0 (Mat.ofCol [4, 4, 4, 0, 2, 2, 2, 2, 2, 2, 2, 2, 2, 2, 2, 2]) = [Mat.ofCol [0, 0, 0, 0, 0, 0, 0, 0]] := by
    rw [eleven_high16]
    have e1 : 4 * t + -(4 * t) = 0 := by ring
    have e2 : 4 * t + -(0 * t) = t * 4 := by ring
    have e3 : 2 * t + -(2 * t) = 0 := by ring
    rw [e1, e2, e3, h0]
  have d2 : detailStep eleven [t, t] den 1 (Mat.ofCol [t * 8, t * 4, t * 4, t * 4, t * 4, t * 4, t * 4, t * 4]) = [Mat.ofCol [0, 0, 0, 0]] := by
    rw [eleven_high8]
    have e1 : t * 8 * t + -(t * 4 * t) = 2 := by linear_combination 4 * tt
    have e2 : t * 4 * t + -(t * 4 * t) = 0 := by ring
    rw [e1, e2, h1]
  have d3 : detailStep eleven [t, t] den 2 (Mat.ofCol [6, 4, 4, 4]) = [Mat.ofCol [t * w, 0]] := by
    rw [eleven_high4]
    have e1 : 6 * t + -(4 * t) = t * 2 := by ring
    have e2 : 4 * t + -(4 * t) = 0 := by ring
    rw [e1, e2, h2]
  have hc : chanP eleven [t, t] den (Mat.ofCol elevenSamples) =
      [Mat.ofCol [0, 0, 0, 0, 0, 0, 0, 0], Mat.ofCol [0, 0, 0, 0], Mat.ofCol [t * w, 0], Mat.ofCol [t * 10, t * 8]] := by
    unfold chanP elevenSamples
    rw [eleven_pad]
    have st : eleven.steps = 3 := rfl
    rw [st]
    have r3 : List.range 3 = [0, 1, 2] := rfl
    rw [r3]
    simp only [List.flatMap_cons, List.flatMap_nil, sig, s1, s2, s3, d1, d2, d3, List.append_nil]
    rfl
  rw [hs, hc]
  unfold outP finishP
  rw [if_neg (by omega), hs]
  have sw : subbandsPerWT eleven = 1 := rfl
  have st : eleven.steps = 3 := rfl
  unfold reconP
  rw [st]
  simp only [reconFrom, detailsAt, sw]
  have r1 : List.range 1 = [0] := rfl
  simp only [r1, List.map_cons, List.map_nil]
  simp only [Nat.mul_one, Nat.add_zero, List.getD_cons_zero, List.getD_cons_succ, Nat.reduceSub]
  rw [eleven_up2, eleven_up4, eleven_up8, eleven_crop]
  congr 1
  simp only [List.cons.injEq, and_true]
  have a1 : t * (t * (t * (t * 10) + t * (t * w))) = (10 + w) / 4 := by linear_combination (t * t + 1 / 2) * (10 + w) * tt
  have a2 : t * (t * (t * (t * 10) + -(t * (t * w)))) = (10 - w) / 4 := by linear_combination (t * t + 1 / 2) * (10 - w) * tt
  have a3 : t * (t * (t * (t * 8) + t * 0)) = 2 := by linear_combination (t * t + 1 / 2) * 8 * tt
  have a4 : t * (t * (t * (t * 8) + -(t * 0))) = 2 := by linear_combination (t * t + 1 / 2) * 8 * tt
  exact ⟨a1, a1, a2, a2, a2, a2, a3, a3, a3, a3, a4⟩

/-- With padding the last part of C143 is false. Eleven samples, three steps of the Haar wavelet of the code (orthonormal): the thresholds 3, 2, 1
leave a signal with squared distance 10 to the input, the higher thresholds 3, 3, 3 one with 19/2. -/
theorem C143_padding_counterexample : let b : Buffer ℝ := ⟨eleven, [[Mat.empty, Mat.empty, Mat.empty, Mat.empty]]⟩
    let x : Mat ℝ := Mat.ofCol elevenSamples
    WellFormed b ∧ FilterPresent codeKit b.params ∧ EvenShiftOrthonormal (scalingFilter codeKit b.params) ∧ IsSignal b.params [x] ∧
    (∀ s < b.params.steps, (-1 : ℝ) * s + 3 ≤ 0 * s + 3) ∧
    ∃ d d' y y', b.decompose codeKit [x] (thresholdDenoiser (fun x => |x|) (-1) 3) = .ok d true ∧
      b.decompose codeKit [x] (thresholdDenoiser (fun x => |x|) 0 3) = .ok d' true ∧
      (Buffer.mk b.params d).compose codeKit 0 = .ok [y] ∧ (Buffer.mk b.params d').compose codeKit 0 = .ok [y'] ∧
      sqDist y x = 10 ∧ sqDist y' x = 19 / 2 := by
  intro b x
  have hv : ValidParams eleven := ⟨by simp [eleven], by simp [eleven], by simp [eleven]⟩
  have hb : WellFormed b := ⟨hv, by simp [b, eleven], by simp [b, eleven, subbandCount, detailsPerStep]⟩
  have hk : FilterPresent codeKit eleven := codeKit_present (by simp [eleven])
  have hd : IsSignal eleven [x] := by
    refine ⟨by simp [eleven], ?_⟩
    intro m hm
    obtain rfl : m = x := by simpa using hm
    exact ⟨rfl, rfl⟩
  have s2 : (1 : ℝ) < Real.sqrt 2 := by
    rw [Real.lt_sqrt (by norm_num)]; norm_num
  have s3 : Real.sqrt 2 < 3 / 2 := by
    rw [Real.sqrt_lt' (by norm_num)]; norm_num
  have p4 : |Real.sqrt 2 / 2 * 4| = Real.sqrt 2 / 2 * 4 := abs_of_pos (by positivity)
  have sz : ∀ (dn : Denoiser ℝ), KeepsSizes dn → ∀ e ∈ [x].map (chanP eleven (scaling codeKit eleven) dn), SizedChan eleven e := by
    intro dn hdn e he
    obtain ⟨z, hz, rfl⟩ := List.mem_map.1 he
    exact chanP_sized hv hdn (shaped_of (hd.2 z hz))
  have k1 := threshold_sizes_kept (fun x : ℝ => |x|) (-1) 3
  have k2 := threshold_sizes_kept (fun x : ℝ => |x|) 0 3
  refine ⟨hb, hk, haar_ortho eleven rfl, hd, ?_, _, _, _, _, decompose_ok hb hk Nat.one_pos hd (fun _ => k1),
    decompose_ok hb hk Nat.one_pos hd (fun _ => k2), compose_ok (b := Buffer.mk eleven ([x].map (chanP eleven (scaling codeKit eleven) _))) hv rfl hk
      (sz _ k1) (Nat.zero_le _), compose_ok (b := Buffer.mk eleven ([x].map (chanP eleven (scaling codeKit eleven) _))) hv rfl hk
      (sz _ k2) (Nat.zero_le _), ?_, ?_⟩
  · intro s _
    have : (0 : ℝ) ≤ s := Nat.cast_nonneg s
    linarith
  · show sqDist (outP codeKit eleven 0 (chanP eleven (scaling codeKit eleven) _ (Mat.ofCol elevenSamples))) (Mat.ofCol elevenSamples) = 10
    rw [eleven_channel _ 2]
    · simp [sqDist, elevenSamples, Mat.get, Mat.ofCol, Finset.sum_range_succ]
      norm_num
    · have n : ¬ 3 < Real.sqrt 2 / 2 * 4 := by linarith
      simp [thresholdDenoiser, threshold1, getThreshold, p4, n]
    · simp [thresholdDenoiser, threshold1, getThreshold]
      norm_num
    · simp [thresholdDenoiser, threshold1, getThreshold, abs_of_nonneg (Real.sqrt_nonneg 2)]
      intro h
      linarith
  · show sqDist (outP codeKit eleven 0 (chanP eleven (scaling codeKit eleven) _ (Mat.ofCol elevenSamples))) (Mat.ofCol elevenSamples) = 19 / 2
    rw [eleven_channel _ 0]
    · simp [sqDist, elevenSamples, Mat.get, Mat.ofCol, Finset.sum_range_succ]
      norm_num
    · have n : ¬ 3 < Real.sqrt 2 / 2 * 4 := by linarith
      simp [thresholdDenoiser, threshold1, getThreshold, p4, n]
    · simp [thresholdDenoiser, threshold1, getThreshold]
      norm_num
    · simp [thresholdDenoiser, threshold1, getThreshold, abs_of_nonneg (Real.sqrt_nonneg 2)]
      linarith

end WB.Props
