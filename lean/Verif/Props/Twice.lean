import Verif.Proof.Twice

/-!
C140: denoising again.
-/

set_option linter.unusedSectionVars false

namespace WB.Props

open Spec

section Ring
variable {R : Type} [CommRing R] [Inhabited R]

/-- C140. If no padding is needed and the filter is orthonormal, decomposing with one denoiser, composing, and decomposing the result with
another (in any buffer with the same parameters) gives the subbands of one decomposition of the original signal with the two denoisers
applied one after the other. -/
theorem C140_two_passes (k : Kit R) (b b' : Buffer R) (hb : WellFormed b) (hb' : WellFormed b') (hp : b'.params = b.params)
    (hk : FilterPresent k b.params) (ho : b.params.wtype ≠ 0 → EvenShiftOrthonormal (scalingFilter k b.params))
    (hch : 0 < b.params.signalNumber) (hdvd : ∀ n ∈ b.params.shape, 2 ^ b.params.steps ∣ n) (data : List (Mat R))
    (hd : IsSignal b.params data) (first second both : Denoiser R) (h1 : KeepsSizes first) (h2 : KeepsSizes second) (h3 : KeepsSizes both)
    (hm : Merges b.params first second both) :
    ∃ d y d', b.decompose k data first = .ok d true ∧ (Buffer.mk b.params d).compose k 0 = .ok y ∧ IsSignal b.params y ∧
      b'.decompose k y second = .ok d' true ∧ b.decompose k data both = .ok d' true := by
  have hv := hb.1
  have hok : OrthoKit k b.params := fun ht => ortho_of hk (ho ht) ht
  have hsz : ∀ e ∈ data.map (chanP b.params (scaling k b.params) first), SizedChan b.params e := by
    intro e he
    obtain ⟨x, h4, rfl⟩ := List.mem_map.1 he
    exact chanP_sized hv h1 (shaped_of (hd.2 x h4))
  have hsig : IsSignal b.params ((data.map (chanP b.params (scaling k b.params) first)).map (outP k b.params 0)) := by
    refine ⟨by simp [hd.1], ?_⟩
    intro m hm
    obtain ⟨c, h4, rfl⟩ := List.mem_map.1 hm
    exact of_shaped hv (chanP_outP hv hk hok hdvd (hsz c h4)).1
  refine ⟨_, _, _, decompose_ok hb hk hch hd (fun _ => h1),
    compose_ok (b := Buffer.mk b.params (data.map (chanP b.params (scaling k b.params) first))) hv (by simp [hd.1]) hk hsz (Nat.zero_le _),
    hsig, ?_, decompose_ok hb hk hch hd (fun _ => h3)⟩
  rw [decompose_ok hb' (by rw [hp]; exact hk) (by rw [hp]; exact hch) (by rw [hp]; exact hsig) (fun _ => h2), hp, List.map_map, List.map_map]
  congr 1
  apply List.map_congr_left
  intro x hx
  exact chanP_merge hv hk hok hdvd h1 hm (shaped_of (hd.2 x hx))

/-- Hence, if applying the denoiser a second time to a subband changes nothing, then neither does denoising the denoised signal: all later
rounds return the signal of the first. -/
theorem C140_rounds (k : Kit R) (b : Buffer R) (hb : WellFormed b) (hk : FilterPresent k b.params)
    (ho : b.params.wtype ≠ 0 → EvenShiftOrthonormal (scalingFilter k b.params)) (hch : 0 < b.params.signalNumber)
    (hdvd : ∀ n ∈ b.params.shape, 2 ^ b.params.steps ∣ n) (data : List (Mat R)) (hd : IsSignal b.params data) (den : Denoiser R)
    (h : KeepsSizes den) (hm : Merges b.params den den den) :
    ∃ y, Rounds k b den 1 data y ∧ ∀ n, Rounds k b den n y y := by
  obtain ⟨d, y, d', e1, e2, _, e4, e5⟩ := C140_two_passes k b b hb hb rfl hk ho hch hdvd data hd den den den h h h hm
  rw [e1] at e5
  injection e5 with e5
  subst e5
  refine ⟨y, ⟨d, y, e1, e2, rfl⟩, ?_⟩
  intro n
  induction n with
  | zero => rfl
  | succ n ih => exact ⟨d, y, e4, e2, ih⟩

end Ring

theorem threshold_sizes_kept {α : Type} [Zero α] [Add α] [Mul α] [NatCast α] [LT α] [DecidableLT α] (abs : α → α) (a b : α) :
    KeepsSizes (thresholdDenoiser abs a b) :=
  ⟨fun v s => by simp [thresholdDenoiser, threshold1], fun m s => ⟨rfl, rfl⟩⟩

/-- C140 for thresholds. Of two passes with different thresholds only the stricter one counts, whichever comes first. -/
theorem C140_thresholds (k : Kit ℝ) (b : Buffer ℝ) (hb : WellFormed b) (hk : FilterPresent k b.params)
    (ho : b.params.wtype ≠ 0 → EvenShiftOrthonormal (scalingFilter k b.params)) (hch : 0 < b.params.signalNumber)
    (hdvd : ∀ n ∈ b.params.shape, 2 ^ b.params.steps ∣ n) (data : List (Mat ℝ)) (hd : IsSignal b.params data) (a c a' c' : ℝ)
    (hle : ∀ s < b.params.steps, a * s + c ≤ a' * s + c') :
    ∃ d y d' y' e, b.decompose k data (thresholdDenoiser (fun x => |x|) a c) = .ok d true ∧ (Buffer.mk b.params d).compose k 0 = .ok y ∧
      b.decompose k data (thresholdDenoiser (fun x => |x|) a' c') = .ok d' true ∧ (Buffer.mk b.params d').compose k 0 = .ok y' ∧
      b.decompose k y (thresholdDenoiser (fun x => |x|) a' c') = .ok e true ∧
      b.decompose k y' (thresholdDenoiser (fun x => |x|) a c) = .ok e true ∧ e = d' := by
  have k1 := threshold_sizes_kept (fun x : ℝ => |x|) a c
  have k2 := threshold_sizes_kept (fun x : ℝ => |x|) a' c'
  obtain ⟨d, y, e, g1, g2, _, g4, g5⟩ := C140_two_passes k b b hb hb rfl hk ho hch hdvd data hd _ _ _ k1 k2 k2
    (threshold_merge (fun x : ℝ => |x|) fun s hs x => ⟨fun h => ⟨lt_of_le_of_lt (hle s hs) h, h⟩, fun h => h.2⟩)
  obtain ⟨d', y', e', f1, f2, _, f4, f5⟩ := C140_two_passes k b b hb hb rfl hk ho hch hdvd data hd _ _ _ k2 k1 k2
    (threshold_merge (fun x : ℝ => |x|) fun s hs x => ⟨fun h => ⟨h, lt_of_le_of_lt (hle s hs) h⟩, fun h => h.1⟩)
  rw [f1] at g5 f5
  injection g5 with g5
  injection f5 with f5
  subst g5 f5
  exact ⟨d, y, d', y', d', g1, g2, f1, f2, g4, f4, rfl⟩

/-- In particular the same threshold a second time, and any number of times, changes nothing. -/
theorem C140_threshold_again (k : Kit ℝ) (b : Buffer ℝ) (hb : WellFormed b) (hk : FilterPresent k b.params)
    (ho : b.params.wtype ≠ 0 → EvenShiftOrthonormal (scalingFilter k b.params)) (hch : 0 < b.params.signalNumber)
    (hdvd : ∀ n ∈ b.params.shape, 2 ^ b.params.steps ∣ n) (data : List (Mat ℝ)) (hd : IsSignal b.params data) (a c : ℝ) :
    ∃ y, Rounds k b (thresholdDenoiser (fun x => |x|) a c) 1 data y ∧ ∀ n, Rounds k b (thresholdDenoiser (fun x => |x|) a c) n y y :=
  C140_rounds k b hb hk ho hch hdvd data hd _ (threshold_sizes_kept _ _ _) (threshold_merge _ fun _ _ _ => ⟨fun h => ⟨h, h⟩, fun h => h.1⟩)

theorem simple_merge {ext : SimpleExt ℝ} (ha : ExactCast ext) (hnth : NthOk ext) {level level' : ℝ} (h0 : 0 ≤ level') (hl : level' ≤ level)
    (h1 : level ≤ 1) {den den' : Denoiser ℝ} (hden : IsSimple ext level den) (hden' : IsSimple ext level' den') {p : Params}
    (hN : p.shape.prod < 2 ^ 64) : Merges p den den' den := by
  have habs : ext.abs = fun x => |x| := funext ha.1
  have count : ∀ n : ℕ, n - min ⌊(n : ℝ) * level⌋₊ (n - 1) ≤ n - min ⌊(n : ℝ) * level'⌋₊ (n - 1) := by
    intro n
    have : ⌊(n : ℝ) * level'⌋₊ ≤ ⌊(n : ℝ) * level⌋₊ := Nat.floor_le_floor (mul_le_mul_of_nonneg_left hl (Nat.cast_nonneg n))
    omega
  intro s _
  constructor
  · intro v hv
    have hv : v.length < 2 ^ 64 := hv.trans_lt hN
    obtain ⟨r, hr, hk⟩ := simple1_ok ext level v _ (cut_ok ha (h0.trans hl) h1 hv).1 hnth.1
    rw [hden.2.1 v s r hv hr]
    have hlen : r.length = v.length := by simpa using hk.rows
    have hv' : r.length < 2 ^ 64 := by omega
    obtain ⟨r', hr', hk'⟩ := simple1_ok ext level' r _ (cut_ok ha h0 (hl.trans h1) hv').1 hnth.1
    rw [hden'.2.1 r s r' hv' hr']
    rw [habs] at hk hk'
    have hn := (keepsLargest_nonzeros hk).trans (count v.length)
    rw [← hlen] at hn
    have := keepsLargest_same hk' hn
    simpa [Mat.col_ofCol] using congrArg (fun m => Mat.col m 0) this
  · intro m hm
    have hm : m.rows * m.cols < 2 ^ 64 := hm.trans_lt hN
    obtain ⟨r, hr, hk⟩ := simple2_ok ext level m _ (cut_ok ha (h0.trans hl) h1 hm).1 hnth.2
    rw [hden.2.2 m s r hm hr]
    have hm' : r.rows * r.cols < 2 ^ 64 := by rw [hk.rows, hk.cols]; exact hm
    obtain ⟨r', hr', hk'⟩ := simple2_ok ext level' r _ (cut_ok ha h0 (hl.trans h1) hm').1 hnth.2
    rw [hden'.2.2 r s r' hm' hr']
    rw [habs] at hk hk'
    have hn := (keepsLargest_nonzeros hk).trans (count (m.rows * m.cols))
    rw [← hk.rows, ← hk.cols] at hn
    exact keepsLargest_same hk' hn

/-- C140 for the simple denoiser: a second pass with the same or a lower level gives back the subbands of the first. -/
theorem C140_simple_again (ext : SimpleExt ℝ) (ha : ExactCast ext) (hnth : NthOk ext) (level level' : ℝ) (h0 : 0 ≤ level') (hl : level' ≤ level)
    (h1 : level ≤ 1) (den den' : Denoiser ℝ) (hden : IsSimple ext level den) (hden' : IsSimple ext level' den') (k : Kit ℝ) (b : Buffer ℝ)
    (hb : WellFormed b) (hk : FilterPresent k b.params) (ho : b.params.wtype ≠ 0 → EvenShiftOrthonormal (scalingFilter k b.params))
    (hch : 0 < b.params.signalNumber) (hdvd : ∀ n ∈ b.params.shape, 2 ^ b.params.steps ∣ n) (hN : b.params.shape.prod < 2 ^ 64)
    (data : List (Mat ℝ)) (hd : IsSignal b.params data) :
    ∃ d y, b.decompose k data den = .ok d true ∧ (Buffer.mk b.params d).compose k 0 = .ok y ∧ b.decompose k y den' = .ok d true := by
  obtain ⟨d, y, e, g1, g2, _, g4, g5⟩ := C140_two_passes k b b hb hb rfl hk ho hch hdvd data hd den den' den hden.1 hden'.1 hden.1
    (simple_merge ha hnth h0 hl h1 hden hden' hN)
  rw [g1] at g5
  injection g5 with g5
  subst g5
  exact ⟨d, y, g1, g2, g4⟩

/-! ### With padding -/

/-- Parameters with padding: five samples, two steps. -/
def drifting : Params := ⟨[5], 1, 2, 1⟩

theorem drift_pad (a b c d e : ℝ) : padOf drifting (Mat.ofCol [a, b, c, d, e]) = Mat.ofCol [a, a, b, c, d, e, e, e] := by
  have e1 : matRows (paddedShape drifting) = 8 := by decide +kernel
  have e2 : matCols (paddedShape drifting) = 1 := by decide +kernel
  unfold padOf
  rw [if_neg (by simp [drifting]), e1, e2]
  rw [Mat.eq_iff]
  refine ⟨rfl, rfl, ?_⟩
  simp [Mat.ofFn, Mat.get, Mat.ofCol, clampIdx, padOffset, List.range, List.range.loop]

theorem drift_crop (z a b c d e y x : ℝ) : cropOf drifting 0 (Mat.ofCol [z, a, b, c, d, e, y, x]) = Mat.ofCol [a, b, c, d, e] := by
  unfold cropOf
  simp [drifting, matRows, matCols]
  rw [Mat.eq_iff]
  refine ⟨rfl, rfl, ?_⟩
  simp [Mat.ofFn, Mat.get, Mat.ofCol, padOffset, List.range, List.range.loop]

theorem drift_dim : drifting.dimension = 1 := rfl

theorem drift_low8 (g a b c d e f y x : ℝ) : approxStep drifting [g, g] (Mat.ofCol [a, b, c, d, e, f, y, x]) =
    Mat.ofCol [a * g + b * g, c * g + d * g, e * g + f * g, y * g + x * g] := by
  unfold approxStep
  rw [if_pos drift_dim, Mat.col_ofCol]
  simp [anaP, List.range, List.range.loop]

theorem drift_low4 (g a b c d : ℝ) : approxStep drifting [g, g] (Mat.ofCol [a, b, c, d]) = Mat.ofCol [a * g + b * g, c * g + d * g] := by
  unfold approxStep
  rw [if_pos drift_dim, Mat.col_ofCol]
  simp [anaP, List.range, List.range.loop]

theorem drift_high8 (g : ℝ) (den : Denoiser ℝ) (s : ℕ) (a b c d e f y x : ℝ) :
    detailStep drifting [g, g] den s (Mat.ofCol [a, b, c, d, e, f, y, x]) =
      [Mat.ofCol (den.d1 [a * g + -(b * g), c * g + -(d * g), e * g + -(f * g), y * g + -(x * g)] s)] := by
  unfold detailStep
  rw [if_pos drift_dim, Mat.col_ofCol]
  simp [anaP, qmf, List.range, List.range.loop]

theorem drift_high4 (g : ℝ) (den : Denoiser ℝ) (s : ℕ) (a b c d : ℝ) :
    detailStep drifting [g, g] den s (Mat.ofCol [a, b, c, d]) = [Mat.ofCol (den.d1 [a * g + -(b * g), c * g + -(d * g)] s)] := by
  unfold detailStep
  rw [if_pos drift_dim, Mat.col_ofCol]
  simp [anaP, qmf, List.range, List.range.loop]

theorem drift_up2 (g a b c d : ℝ) : synthStep drifting [g, g] (Mat.ofCol [a, b]) [Mat.ofCol [c, d]] =
    Mat.ofCol [g * a + g * c, g * a + -(g * c), g * b + g * d, g * b + -(g * d)] := by
  unfold synthStep
  rw [if_pos drift_dim]
  simp [synP, qmf, List.range, List.range.loop, Mat.col_ofCol]

theorem drift_up4 (g a b c d a' b' c' d' : ℝ) : synthStep drifting [g, g] (Mat.ofCol [a, b, c, d]) [Mat.ofCol [a', b', c', d']] =
    Mat.ofCol [g * a + g * a', g * a + -(g * a'), g * b + g * b', g * b + -(g * b'), g * c + g * c', g * c + -(g * c'), g * d + g * d', g * d + -(g * d')] := by
  unfold synthStep
  rw [if_pos drift_dim]
  simp [synP, qmf, List.range, List.range.loop, Mat.col_ofCol]

/-- The channel with the samples 0, 0, 0, v + 2, v, its subbands after the threshold 1 in both steps, and what they compose to. -/
theorem drift_channel (v : ℝ) :
    outP codeKit drifting 0 (chanP drifting (scaling codeKit drifting) (thresholdDenoiser (fun x => |x|) 0 1) (Mat.ofCol [0, 0, 0, v + 2, v])) =
      Mat.ofCol [0, 0, 0, (v - 1 / 2) + 2, v - 1 / 2] := by
  set g : ℝ := Real.sqrt 2 / 2 with hg
  have h2 : Real.sqrt 2 * Real.sqrt 2 = 2 := Real.mul_self_sqrt (by norm_num)
  have gg : g * g = 1 / 2 := by rw [hg]; linear_combination h2 / 4
  have hs : scaling codeKit drifting = [g, g] := haar_scaling rfl
  have g0 : 0 < g := by rw [hg]; positivity
  have big : 1 < g * 2 := by nlinarith
  have hc : chanP drifting [g, g] (thresholdDenoiser (fun x => |x|) 0 1) (Mat.ofCol [0, 0, 0, v + 2, v]) =
      [Mat.ofCol [0, 0, g * 2, 0], Mat.ofCol [0, 0], Mat.ofCol [0, 2 * v + 1]] := by
    have s1 : approxStep drifting [g, g] (Mat.ofCol [0, 0, 0, 0, v + 2, v, v, v]) = Mat.ofCol [0, 0, g * (2 * v + 2), g * (2 * v)] := by
      rw [drift_low8]
      congr 1
      simp only [List.cons.injEq, and_true]
      refine ⟨by ring, by ring, by ring, by ring⟩
    have s2 : approxStep drifting [g, g] (Mat.ofCol [0, 0, g * (2 * v + 2), g * (2 * v)]) = Mat.ofCol [0, 2 * v + 1] := by
      rw [drift_low4]
      congr 1
      simp only [List.cons.injEq, and_true]
      refine ⟨by ring, by linear_combination (4 * v + 2) * gg⟩
    have d1 : detailStep drifting [g, g] (thresholdDenoiser (fun x => |x|) 0 1) 0 (Mat.ofCol [0, 0, 0, 0, v + 2, v, v, v]) =
        [Mat.ofCol [0, 0, g * 2, 0]] := by
      rw [drift_high8]
      have e : (v + 2) * g + -(v * g) = g * 2 := by ring
      have e0 : v * g + -(v * g) = 0 := by ring
      rw [e, e0]
      simp [thresholdDenoiser, threshold1, getThreshold, abs_of_pos g0, big]
    have d2 : detailStep drifting [g, g] (thresholdDenoiser (fun x => |x|) 0 1) 1 (Mat.ofCol [0, 0, g * (2 * v + 2), g * (2 * v)]) =
        [Mat.ofCol [0, 0]] := by
      rw [drift_high4]
      have e : g * (2 * v + 2) * g + -(g * (2 * v) * g) = 1 := by linear_combination 2 * gg
      rw [e]
      simp [thresholdDenoiser, threshold1, getThreshold]
    unfold chanP
    rw [drift_pad]
    have st : drifting.steps = 2 := rfl
    rw [st]
    have r2 : List.range 2 = [0, 1] := rfl
    rw [r2]
    simp only [List.flatMap_cons, List.flatMap_nil, sig, s1, s2, d1, d2, List.append_nil]
    rfl
  rw [hs, hc]
  unfold outP finishP
  rw [if_neg (by omega), hs]
  have rec2 : reconP drifting [g, g] 0 [Mat.ofCol [0, 0, g * 2, 0], Mat.ofCol [0, 0], Mat.ofCol [0, 2 * v + 1]] =
      Mat.ofCol [0, 0, 0, 0, (v - 1 / 2) + 2, v - 1 / 2, v + 1 / 2, v + 1 / 2] := by
    have sw : subbandsPerWT drifting = 1 := rfl
    have st : drifting.steps = 2 := rfl
    unfold reconP
    rw [st]
    simp only [reconFrom, detailsAt, sw]
    have r1 : List.range 1 = [0] := rfl
    simp only [r1, List.map_cons, List.map_nil]
    simp only [Nat.mul_one, Nat.add_zero, List.getD_cons_zero, List.getD_cons_succ, Nat.reduceSub]
    rw [drift_up2, drift_up4]
    congr 1
    simp only [List.cons.injEq, and_true]
    refine ⟨by ring, by ring, by ring, by ring, ?_, ?_, ?_, ?_⟩
    · linear_combination (2 * v + 3) * gg
    · linear_combination (2 * v - 1) * gg
    · linear_combination (2 * v + 1) * gg
    · linear_combination (2 * v + 1) * gg
  rw [rec2, drift_crop]

/-- With padding C140 is false, and not only by a little: denoising over and over can move a sample without bound. Five samples, two steps of the
Haar wavelet of the code (orthonormal), the threshold 1 in both steps; every round lowers the last two samples by 1/2. -/
theorem C140_padding_drifts : let b : Buffer ℝ := ⟨drifting, [[Mat.empty, Mat.empty, Mat.empty]]⟩
    let den := thresholdDenoiser (fun x : ℝ => |x|) 0 1
    let x : ℝ → List (Mat ℝ) := fun v => [Mat.ofCol [0, 0, 0, v + 2, v]]
    WellFormed b ∧ FilterPresent codeKit b.params ∧ EvenShiftOrthonormal (scalingFilter codeKit b.params) ∧ IsSignal b.params (x 0) ∧
    KeepsSizes den ∧ Merges b.params den den den ∧ ∀ n : ℕ, Rounds codeKit b den n (x 0) (x (-(n / 2))) := by
  intro b den x
  have hv : ValidParams drifting := ⟨by simp [drifting], by simp [drifting], by simp [drifting]⟩
  have hb : WellFormed b := ⟨hv, by simp [b, drifting], by simp [b, drifting, subbandCount, detailsPerStep]⟩
  have hk : FilterPresent codeKit drifting := codeKit_present (by simp [drifting])
  have hd : ∀ v, IsSignal drifting (x v) := by
    intro v
    refine ⟨by simp [x, drifting], ?_⟩
    intro m hm
    obtain rfl : m = Mat.ofCol [0, 0, 0, v + 2, v] := by simpa [x] using hm
    exact ⟨rfl, rfl⟩
  refine ⟨hb, hk, haar_ortho drifting rfl, hd 0, threshold_sizes_kept _ _ _, threshold_merge _ fun _ _ _ => ⟨fun h => ⟨h, h⟩, fun h => h.1⟩, ?_⟩
  have one : ∀ v, ∃ d, b.decompose codeKit (x v) den = .ok d true ∧ (Buffer.mk drifting d).compose codeKit 0 = .ok (x (v - 1 / 2)) := by
    intro v
    refine ⟨_, decompose_ok hb hk (by simp [b, drifting]) (hd v) (fun _ => threshold_sizes_kept _ _ _), ?_⟩
    refine (compose_ok (b := Buffer.mk drifting ((x v).map (chanP drifting (scaling codeKit drifting) den))) hv (by simp [x, drifting]) hk ?_
      (Nat.zero_le _)).trans ?_
    rotate_left
    · simp only [x, List.map_cons, List.map_nil]
      rw [drift_channel]
    · intro c hc
      obtain ⟨m, h1, rfl⟩ := List.mem_map.1 hc
      exact chanP_sized hv (threshold_sizes_kept _ _ _) (shaped_of ((hd v).2 m h1))
  have all : ∀ (n : ℕ) (v : ℝ), Rounds codeKit b den n (x v) (x (v - n / 2)) := by
    intro n
    induction n with
    | zero => intro v; simp [Rounds]
    | succ n ih =>
      intro v
      obtain ⟨d, h1, h2⟩ := one v
      refine ⟨d, _, h1, h2, ?_⟩
      have := ih (v - 1 / 2)
      rw [show v - 1 / 2 - (n : ℝ) / 2 = v - ((n + 1 : ℕ) : ℝ) / 2 by push_cast; ring] at this
      exact this
  intro n
  have := all n 0
  rwa [zero_sub] at this

/-! ### Concrete cases -/

/-- The hypotheses of C140 for a signal of four samples, two steps of the Haar wavelet of the code and thresholds 1/2 and 3/4 against 1 and 1. -/
example : let p : Params := ⟨[4], 1, 2, 1⟩
    let b : Buffer ℝ := ⟨p, [[Mat.empty, Mat.empty, Mat.empty]]⟩
    WellFormed b ∧ FilterPresent codeKit p ∧ EvenShiftOrthonormal (scalingFilter codeKit p) ∧ (∀ n ∈ p.shape, 2 ^ p.steps ∣ n) ∧
      IsSignal p [Mat.ofCol [1, 5, -2, (0 : ℝ)]] ∧ p.shape.prod < 2 ^ 64 ∧
      ∀ s < p.steps, (1 / 4 : ℝ) * s + 1 / 2 ≤ 0 * s + 1 := by
  intro p b
  refine ⟨⟨⟨by simp [b, p], by simp [b, p], by simp [b, p]⟩, by simp [b, p], by simp [b, p, subbandCount, detailsPerStep]⟩,
    codeKit_present (by simp [p]), haar_ortho p rfl, by simp [p], ⟨by simp [p], ?_⟩, by simp [p], ?_⟩
  · intro m hm
    obtain rfl : m = Mat.ofCol [1, 5, -2, 0] := by simpa using hm
    exact ⟨rfl, rfl⟩
  · intro s hs
    have hs : s < 2 := hs
    rcases (by omega : s = 0 ∨ s = 1) with rfl | rfl <;> norm_num

/-- Two denoisers that merge into a third, none of them equal to another: thresholds 1, 2 and their stricter one. -/
example (p : Params) : Merges p (thresholdDenoiser (fun x : ℝ => |x|) 0 1) (thresholdDenoiser (fun x : ℝ => |x|) 0 2)
    (thresholdDenoiser (fun x : ℝ => |x|) 0 2) :=
  threshold_merge _ fun s _ x => by
    simp only [getThreshold]
    constructor
    · intro h; constructor <;> linarith
    · intro h; exact h.2

end WB.Props
