import Verif.Proof.ColorFloat
import Verif.Props.ImageFloat

/-! C102: rounding in the colour conversions, and what the HSL codec does to pixels. -/

namespace WB.Props

open Spec

/-- C102: in `float` arithmetic with any IEEE rounding, a colour with components in [0,1] is converted to HSL without a division by zero, and
after converting it back no component has changed by more than 0.0011. -/
theorem C102_colour_round_trip (r : Rounding) (hr : r.IEEE) (c : ℝ × ℝ × ℝ) (hc : UnitColour c) :
    ∃ d, rgbToHslF r.toFloat c.1 c.2.1 c.2.2 = .ok d ∧ Within (1 / 1000 + 1 / 15000) (hslToRgbF r d.1 d.2.1 d.2.2) c := by
  obtain ⟨h, s, l, h1, h2, -⟩ := rgb_float hr hc
  exact ⟨_, h1, h2⟩

/-- C102: a gray, and a colour that is neither nearly gray nor has a component just below the largest, changes by at most 1/15000. -/
theorem C102_clear_colour (r : Rounding) (hr : r.IEEE) (c : ℝ × ℝ × ℝ) (hc : UnitColour c)
    (hg : brightest c = darkest c ∨ 2 / 1000 ≤ brightest c - darkest c)
    (hm : ∀ x ∈ [c.1, c.2.1, c.2.2], brightest c - x < 2 / 10000 → x = brightest c) :
    ∃ d, rgbToHslF r.toFloat c.1 c.2.1 c.2.2 = .ok d ∧ Within (1 / 15000) (hslToRgbF r d.1 d.2.1 d.2.2) c := by
  obtain ⟨h, s, l, h1, -, h2⟩ := rgb_float hr hc
  exact ⟨_, h1, h2 hg hm⟩

/-- An orange meets the hypotheses of `C102_clear_colour`. -/
example : let c : ℝ × ℝ × ℝ := (9 / 10, 1 / 2, 1 / 10)
    UnitColour c ∧ 2 / 1000 ≤ brightest c - darkest c ∧ ∀ x ∈ [c.1, c.2.1, c.2.2], brightest c - x < 2 / 10000 → x = brightest c := by
  have hb : brightest (9 / 10, 1 / 2, 1 / 10) = 9 / 10 := by
    unfold brightest; rw [max_eq_left (by norm_num : (1 : ℝ) / 10 ≤ 1 / 2), max_eq_left (by norm_num)]
  have hd : darkest (9 / 10, 1 / 2, 1 / 10) = 1 / 10 := by
    unfold darkest; rw [min_eq_right (by norm_num : (1 : ℝ) / 10 ≤ 1 / 2), min_eq_right (by norm_num)]
  refine ⟨⟨⟨by norm_num, by norm_num⟩, ⟨by norm_num, by norm_num⟩, ⟨by norm_num, by norm_num⟩⟩, ?_, ?_⟩
  · rw [hb, hd]; norm_num
  · intro x hx h
    rw [hb] at h ⊢
    simp only [List.mem_cons, List.not_mem_nil, or_false] at hx
    rcases hx with rfl | rfl | rfl
    · rfl
    · norm_num at h
    · norm_num at h

theorem pixel_unit {r : Rounding} (hr : r.IEEE) (k : UInt8) : Unit01 (ofPixel r k) :=
  ⟨(pixel_back hr k.toNat k.toNat_lt).1, (pixel_back hr k.toNat k.toNat_lt).2.1⟩

/-- Different pixels are far apart. -/
theorem pixel_apart {r : Rounding} (hr : r.IEEE) {j k : UInt8} (h : ofPixel r k - ofPixel r j < 3 / 1000) : k.toNat ≤ j.toNat := by
  by_contra hc
  have hk := abs_le.1 (ofPixel_near hr k)
  have hj := abs_le.1 (ofPixel_near hr j)
  have : (j.toNat : ℝ) + 1 ≤ k.toNat := by exact_mod_cast (by omega : j.toNat + 1 ≤ k.toNat)
  norm_num at hk hj
  linarith

theorem pixel_same {r : Rounding} {j k : UInt8} (h : k.toNat = j.toNat) : ofPixel r k = ofPixel r j := by
  rw [UInt8.toNat_inj.1 h]

/-- The colour of a pixel is gray, or neither nearly gray nor has a component just below the largest. -/
theorem pixel_clear {r : Rounding} (hr : r.IEEE) (k1 k2 k3 : UInt8) :
    let c := (ofPixel r k1, ofPixel r k2, ofPixel r k3)
    (brightest c = darkest c ∨ 2 / 1000 ≤ brightest c - darkest c) ∧
      ∀ x ∈ [c.1, c.2.1, c.2.2], brightest c - x < 2 / 10000 → x = brightest c := by
  have hmax : ∃ j : UInt8, max (ofPixel r k1) (max (ofPixel r k2) (ofPixel r k3)) = ofPixel r j := by
    rcases max_choice (ofPixel r k1) (max (ofPixel r k2) (ofPixel r k3)) with h | h
    · exact ⟨_, h⟩
    · rcases max_choice (ofPixel r k2) (ofPixel r k3) with h' | h'
      · exact ⟨_, h.trans h'⟩
      · exact ⟨_, h.trans h'⟩
  have hmin : ∃ j : UInt8, min (ofPixel r k1) (min (ofPixel r k2) (ofPixel r k3)) = ofPixel r j := by
    rcases min_choice (ofPixel r k1) (min (ofPixel r k2) (ofPixel r k3)) with h | h
    · exact ⟨_, h⟩
    · rcases min_choice (ofPixel r k2) (ofPixel r k3) with h' | h'
      · exact ⟨_, h.trans h'⟩
      · exact ⟨_, h.trans h'⟩
  obtain ⟨jx, hx⟩ := hmax
  obtain ⟨jn, hn⟩ := hmin
  have mono : ∀ {a b : UInt8}, a.toNat ≤ b.toNat → ofPixel r a ≤ ofPixel r b := by
    intro a b h
    unfold ofPixel
    refine rounds_mono hr.1 (rounds_mono hr.2 ?_)
    have : (a.toNat : ℝ) ≤ b.toNat := by exact_mod_cast h
    linarith
  have hle : ofPixel r jn ≤ ofPixel r jx := by rw [← hx, ← hn]; exact (min_le_left _ _).trans (le_max_left _ _)
  refine ⟨?_, ?_⟩
  · show max _ _ = min _ _ ∨ _ ≤ max _ _ - min _ _
    simp only [hx, hn]
    by_cases h : ofPixel r jx - ofPixel r jn < 3 / 1000
    · exact .inl (le_antisymm (mono (pixel_apart hr h)) hle)
    · right; push Not at h; linarith
  · intro x hmem h
    change max _ _ - x < _ at h
    show x = max _ _
    simp only [hx] at h ⊢
    have key : ∀ k : UInt8, ofPixel r k ≤ max (ofPixel r k1) (max (ofPixel r k2) (ofPixel r k3)) → ofPixel r jx - ofPixel r k < 2 / 10000 →
        ofPixel r k = ofPixel r jx := fun k h1 h2 => le_antisymm (by rw [← hx]; exact h1) (mono (pixel_apart hr (by linarith)))
    simp only [List.mem_cons, List.not_mem_nil, or_false] at hmem
    rcases hmem with rfl | rfl | rfl
    · exact key k1 (le_max_left _ _) h
    · exact key k2 (le_trans (le_max_left _ _) (le_max_right _ _)) h
    · exact key k3 (le_trans (le_max_right _ _) (le_max_right _ _)) h

/-- A pixel that goes through the colour conversions keeps its samples up to 1/15000. -/
theorem pixel_colour {r : Rounding} (hr : r.IEEE) (k1 k2 k3 : UInt8) :
    ∃ d, rgbToHslF r.toFloat (ofPixel r k1) (ofPixel r k2) (ofPixel r k3) = .ok d ∧
      Within (1 / 15000) (hslToRgbF r d.1 d.2.1 d.2.2) (ofPixel r k1, ofPixel r k2, ofPixel r k3) :=
  C102_clear_colour r hr (ofPixel r k1, ofPixel r k2, ofPixel r k3) ⟨pixel_unit hr k1, pixel_unit hr k2, pixel_unit hr k3⟩
    (pixel_clear hr k1 k2 k3).1 (pixel_clear hr k1 k2 k3).2

theorem back_pixel {r : Rounding} (hr : r.IEEE) (k : UInt8) {x : ℝ} (h : |x - ofPixel r k| ≤ 1 / 15000) :
    ∃ k', toPixel r x = .ok k' ∧ (k' = k ∨ k'.toNat + 1 = k.toNat) := by
  obtain ⟨k', h1, h2, h3⟩ := toPixel_near hr k (d := 1) le_rfl (x := x) (h.trans (by norm_num))
  refine ⟨k', h1, ?_⟩
  by_cases hk : k'.toNat = k.toNat
  · exact .inl (UInt8.toNat_inj.1 hk)
  · right; omega

/-- C102: every component of an 8-bit pixel that is read, converted to HSL and back and written again is the same or one less. -/
theorem C102_pixel_partial (r : Rounding) (hr : r.IEEE) (k1 k2 k3 : UInt8) :
    ∃ d k1' k2' k3', rgbToHslF r.toFloat (ofPixel r k1) (ofPixel r k2) (ofPixel r k3) = .ok d ∧
      toPixel r (hslToRgbF r d.1 d.2.1 d.2.2).1 = .ok k1' ∧ toPixel r (hslToRgbF r d.1 d.2.1 d.2.2).2.1 = .ok k2' ∧
      toPixel r (hslToRgbF r d.1 d.2.1 d.2.2).2.2 = .ok k3' ∧ (k1' = k1 ∨ k1'.toNat + 1 = k1.toNat) ∧
      (k2' = k2 ∨ k2'.toNat + 1 = k2.toNat) ∧ (k3' = k3 ∨ k3'.toNat + 1 = k3.toNat) := by
  obtain ⟨d, h, w1, w2, w3⟩ := pixel_colour hr k1 k2 k3
  obtain ⟨k1', a1, b1⟩ := back_pixel hr k1 w1
  obtain ⟨k2', a2, b2⟩ := back_pixel hr k2 w2
  obtain ⟨k3', a3, b3⟩ := back_pixel hr k3 w3
  exact ⟨d, k1', k2', k3', h, a1, a2, a3, b1, b2, b3⟩

/-- C102: importing a JPEG picture with the HSL codec into an image of its size without denoising and exporting it again hands the JPEG library
a picture of the same size in which every byte is the same or one less, for every IEEE rounding of the pixel and colour conversions and every
transform that reconstructs. -/
theorem C102_import_export_partial (r : Rounding) (hr : r.IEEE) (load : Bytes → Outcome CImg)
    (save : CImg → ℕ → ℤ → Outcome Bytes) (quality : ℤ) (k : Kit ℝ) (b : Buffer ℝ)
    (hb : WellFormed b) (hk : FilterPresent k b.params) (ho : b.params.wtype ≠ 0 → EvenShiftOrthonormal (scalingFilter k b.params))
    (hn : b.params.signalNumber = 3) (blob old : Bytes) (hblob : blob ≠ []) (img : CImg) (hload : load blob = .ok img)
    (hs : 3 ≤ img.spectrum) (hsh : b.params.shape = [img.width, img.height]) (hw : 0 < img.width) (hh : 0 < img.height) :
    ∃ d img', importFromString k (jpegCodec (colourExt r load save) .hsl quality) b blob nullDenoiser 0 = .ok d .kOk ∧
      img'.width = img.width ∧ img'.height = img.height ∧ img'.spectrum = 3 ∧
      (∀ x < img.width, ∀ y < img.height, ∀ c < 3, ∃ p p', img.at x y c = .ok p ∧ img'.at x y c = .ok p' ∧ (p' = p ∨ p'.toNat + 1 = p.toNat)) ∧
      ∀ out, save img' ((3 * img.height * img.width + 1000) % 2 ^ 32) quality = .ok out →
        exportToString k (jpegCodec (colourExt r load save) .hsl quality) ⟨b.params, d⟩ old 0 = .ok out .kOk := by
  set e := colourExt r load save with he
  -- decode
  choose hl hhl hwi using fun a b c => pixel_colour hr a b c
  set hlf : ℝ → ℝ → ℝ → ℝ × ℝ × ℝ := fun x y z => match e.rgbHsl x y z with | .ok o => o | _ => (x, y, z) with hhlf
  have hhlf' : ∀ a b c, hlf (ofPixel r a) (ofPixel r b) (ofPixel r c) = hl a b c := by
    intro a b c
    simp only [hhlf]
    rw [show e.rgbHsl (ofPixel r a) (ofPixel r b) (ofPixel r c) = .ok (hl a b c) from hhl a b c]
  obtain ⟨im, d1, d2, d3, d4, d5⟩ := C44_decode e hlf
    (fun a b c => by
      rw [show hlf (e.ofPx a) (e.ofPx b) (e.ofPx c) = hl a b c from hhlf' a b c]
      exact hhl a b c) .hsl blob [] 0 (by norm_num) hblob img hload hs
  have hcn : CodecKind.hsl.needs = 3 := rfl
  rw [List.length_nil, Nat.zero_max, Nat.zero_add, hcn] at d2
  have hent : ∀ (i : ℕ) (m : Mat ℝ), im[i]? = some m → m.rows = img.height ∧ m.cols = img.width := by
    intro i m hm
    have hi : i < im.length := (List.getElem?_eq_some_iff.1 hm).1
    rw [d2] at hi
    obtain ⟨m', e1, e2, e3, e4⟩ := d5 i hi
    rw [Nat.zero_add, hm] at e1
    cases e1
    exact ⟨e2, e3⟩
  have hshape : ∀ m ∈ im, HasShape b.params.shape m := by
    intro m hm
    obtain ⟨i, hi⟩ := List.getElem?_of_mem hm
    obtain ⟨e1, e2⟩ := hent i m hi
    rw [hsh]; exact ⟨e1, e2⟩
  have hsig : IsSignal b.params im := ⟨by rw [d2, hn], hshape⟩
  -- decompose and compose
  obtain ⟨d, g1, g2⟩ := C08_perfect_reconstruction_2D k b hb hk (by rw [hsh]; rfl) ho (by rw [hn]; omega) im hsig
  have hview : (View.mk (0 : ℕ) (im.length : ℕ) false).decompose k b im nullDenoiser = .ok d true := by
    unfold View.decompose View.checkRange
    have e1 : -2 ^ 31 ≤ ((0 : ℕ) : ℤ) + (im.length : ℤ) ∧ ((0 : ℕ) : ℤ) + (im.length : ℤ) < 2 ^ 31 := by
      rw [d2]; constructor <;> omega
    have e2 : (0 ≤ ((0 : ℕ) : ℤ) + (im.length : ℤ) ∧ ((0 : ℕ) : ℤ) + (im.length : ℤ) ≤ (b.params.signalNumber : ℤ)) := by
      rw [d2, hn]; constructor <;> omega
    simp only [if_pos e1, e2, and_self, decide_true, Run.lift_ok, Run.bind_ok, if_true]
    rw [d2, ← hn]
    exact g1
  -- encode
  have hE : Encodable .hsl im 0 img.height img.width := by
    refine ⟨by omega, by omega, ?_⟩
    intro c hc
    obtain ⟨m', e1, e2, e3, e4⟩ := d5 c hc
    exact ⟨m', e1, e2, e3⟩
  choose tp htp using (C43_clamped_and_monotone r hr).1
  obtain ⟨img', i1, i2, i3, i4, i5, -⟩ := C44_encode_accepts e tp (hslToRgbF r) .hsl quality im old 0 img.height
    img.width (by norm_num) hE (fun _ _ _ _ _ _ => htp _) (fun _ _ _ _ _ => rfl)
  refine ⟨d, img', ?_, i1, i2, i3, ?_, ?_⟩
  · rw [import_start k (jpegCodec e .hsl quality) b blob nullDenoiser 0 im d1 (toInt32_nat (by norm_num)) (toInt32_nat (by omega))]
    rw [hview]; rfl
  · intro x hx y hy c hc
    -- the bytes of this place
    choose px hpx using fun c : Fin 3 => at_ok img hx hy (lt_of_lt_of_le c.isLt hs)
    have hsample : ∀ c < 3, sampleAt im c y x = comp c (hl (px 0) (px 1) (px 2)) := by
      intro c hc
      obtain ⟨m', e1, e2, e3, e4⟩ := d5 c hc
      obtain ⟨q, q1, q2⟩ := e4 y hy x hx
      have hq : ∀ j : Fin 3, q j = px j := fun j => by
        have := q1 j j.isLt
        rw [hpx j] at this
        exact (Outcome.ok.inj this).symm
      rw [Nat.zero_add] at e1
      unfold sampleAt
      rw [show im.getD c default = m' by simp [List.getD, e1], q2]
      show comp c (hlf (e.ofPx (q 0)) (e.ofPx (q 1)) (e.ofPx (q 2))) = _
      rw [show q 0 = px 0 from hq 0, show q 1 = px 1 from hq 1, show q 2 = px 2 from hq 2]
      exact congrArg (comp c) (hhlf' _ _ _)
    have hcs : colourSample .hsl (hslToRgbF r) im 0 y x c =
        comp c (hslToRgbF r (hl (px 0) (px 1) (px 2)).1 (hl (px 0) (px 1) (px 2)).2.1 (hl (px 0) (px 1) (px 2)).2.2) := by
      unfold colourSample
      simp only [Nat.zero_add]
      rw [hsample 0 (by norm_num), hsample 1 (by norm_num), hsample 2 (by norm_num)]
      rfl
    have hwb := hwi (px 0) (px 1) (px 2)
    have hnear : |colourSample .hsl (hslToRgbF r) im 0 y x c - ofPixel r (px ⟨c, hc⟩)| ≤ 1 / 15000 := by
      rw [hcs]
      obtain ⟨w1, w2, w3⟩ := hwb
      rcases (by omega : c = 0 ∨ c = 1 ∨ c = 2) with rfl | rfl | rfl
      · exact w1
      · exact w2
      · exact w3
    obtain ⟨p', h1, h2⟩ := back_pixel hr _ hnear
    refine ⟨px ⟨c, hc⟩, p', hpx ⟨c, hc⟩, ?_, h2⟩
    rw [i4 x hx y hy c hc]
    rw [← h1, htp]
  · intro out hout
    have henc := i5 out (by rw [d2]; exact hout)
    have hexp := (C45_export_to_string k (jpegCodec e .hsl quality) ⟨b.params, d⟩ old 0 (by
      show 0 + 3 < _; omega)).2 im (by show 0 + 3 ≤ b.params.signalNumber; rw [hn]) g2
    apply hexp.1 out
    show codecEncode e .hsl quality ((im.drop 0).take 3) old 0 = _
    rw [List.drop_zero, ← d2, List.take_length]
    exact henc

/-- The code's Haar wavelet on a 4×2 picture in three channels meets the hypotheses of `C102_import_export_partial`. -/
example : let p : Params := ⟨[4, 2], 3, 1, 1⟩
    let b : Buffer ℝ := ⟨p, List.replicate 3 (List.replicate 4 Mat.empty)⟩
    WellFormed b ∧ FilterPresent codeKit p ∧ EvenShiftOrthonormal (scalingFilter codeKit p) ∧ b.params.signalNumber = 3 := by
  refine ⟨⟨?_, rfl, ?_⟩, codeKit_present (by decide), haar_ortho _ rfl, rfl⟩
  · simp [ValidParams]
  · simp [subbandCount, detailsPerStep]

/-! ### a colour that changes -/

theorem toFloat_exact {r : Rounding} (hr : r.IEEE) {y : ℝ} (n : ℤ) (e : ℤ) (h1 : -2 ^ 24 < n) (h2 : n < 2 ^ 24) (he : -149 ≤ e) (hy : y = n * 2 ^ e) :
    r.toFloat y = y := by
  refine rounds_self hr.1 ⟨n, e, ?_, he, hy⟩
  rw [abs_lt]
  exact ⟨by exact_mod_cast h1, by exact_mod_cast h2⟩

/-- C102, the whole claim is false: a dark magenta with the bytes 3, 0, 3 comes back as 2, 0, 3, whatever way ties are rounded. -/
theorem C102_pixel_counterexample (r : Rounding) (hr : r.IEEE) :
    ∃ d, rgbToHslF r.toFloat (ofPixel r 3) (ofPixel r 0) (ofPixel r 3) = .ok d ∧
      toPixel r (hslToRgbF r d.1 d.2.1 d.2.2).1 = .ok 2 ∧ toPixel r (hslToRgbF r d.1 d.2.1 d.2.2).2.1 = .ok 0 ∧
      toPixel r (hslToRgbF r d.1 d.2.1 d.2.2).2.2 = .ok 3 := by
  have f0 : r.toFloat 0 = 0 := toFloat_exact hr 0 0 (by norm_num) (by norm_num) (by norm_num) (by norm_num)
  have p0 : ofPixel r 0 = 0 := by
    have d0 : r.toDouble 0 = 0 := rounds_self hr.2 ⟨0, 0, by norm_num, by norm_num, by norm_num⟩
    unfold ofPixel
    rw [show ((0 : UInt8).toNat : ℝ) / 255 = 0 by norm_num, d0, f0]
  have p3 : ofPixel r 3 = 12632257 / 2 ^ 30 := by
    have h := rounds_std (by norm_num) hr.2 (3 / 255)
    have e1 : (2 : ℝ) ^ (-((53 : ℕ) : ℤ)) ≤ 1 / 2 ^ 53 := by norm_num [zpow_neg]
    have e2 : (2 : ℝ) ^ ((-1074 : ℤ) - 1) ≤ 1 / 2 ^ 64 := by
      rw [show (-1074 : ℤ) - 1 = -(1075 : ℕ) by norm_num, zpow_neg, zpow_natCast, ← one_div]
      exact one_div_le_one_div_of_le (by positivity) (pow_le_pow_right₀ (by norm_num) (by norm_num))
    rw [abs_of_nonneg (by norm_num : (0 : ℝ) ≤ 3 / 255)] at h
    have h2 : |r.toDouble (3 / 255) - 3 / 255| ≤ 1 / 2 ^ 53 * (3 / 255) + 1 / 2 ^ 64 :=
      h.trans (add_le_add (mul_le_mul_of_nonneg_right e1 (by norm_num)) e2)
    obtain ⟨a1, a2⟩ := abs_le.1 h2
    unfold ofPixel
    rw [show ((3 : UInt8).toNat : ℝ) / 255 = 3 / 255 by rw [show (3 : UInt8).toNat = 3 from rfl]; norm_num]
    have := (to_float hr 12632257 (-30) (y := r.toDouble (3 / 255)) (by norm_num) (by norm_num) (by norm_num) (by
      norm_num at a1 a2 ⊢
      rw [abs_lt]
      constructor <;> linarith)).1
    rw [this]; norm_num
  have c1 : r.toFloat (12632257 / 2 ^ 30) = 12632257 / 2 ^ 30 :=
    toFloat_exact hr 12632257 (-30) (by norm_num) (by norm_num) (by norm_num) (by norm_num)
  have c1n : r.toFloat (-(12632257 / 2 ^ 30)) = -(12632257 / 2 ^ 30) :=
    toFloat_exact hr (-12632257) (-30) (by norm_num) (by norm_num) (by norm_num) (by norm_num)
  have c2 : r.toFloat (12632257 / 2 ^ 30 / 2) = 12632257 / 2 ^ 30 / 2 :=
    toFloat_exact hr 12632257 (-31) (by norm_num) (by norm_num) (by norm_num) (by norm_num)
  have one : r.toFloat 1 = 1 := toFloat_exact hr 1 0 (by norm_num) (by norm_num) (by norm_num) (by norm_num)
  have two : r.toFloat 2 = 2 := toFloat_exact hr 2 0 (by norm_num) (by norm_num) (by norm_num) (by norm_num)
  have mone : r.toFloat (-1) = -1 := toFloat_exact hr (-1) 0 (by norm_num) (by norm_num) (by norm_num) (by norm_num)
  have round : ∀ (y z : ℝ) (n e : ℤ), 2 ^ 23 < n → n < 2 ^ 24 → -149 ≤ e → z = n * 2 ^ e → |y - n * 2 ^ e| < 2 ^ e / 2 → r.toFloat y = z :=
    fun y z n e h1 h2 h3 h4 h5 => by rw [h4]; exact (to_float hr n e h1 h2 h3 h5).1
  have k3 : r.toFloat (1 / 1000) = 8589935 / 2 ^ 33 :=
    round _ _ 8589935 (-33) (by norm_num) (by norm_num) (by norm_num) (by norm_num) (by norm_num [abs_lt])
  have k4 : r.toFloat (1 / 10000) = 13743895 / 2 ^ 37 :=
    round _ _ 13743895 (-37) (by norm_num) (by norm_num) (by norm_num) (by norm_num) (by norm_num [abs_lt])
  have s6 : r.toFloat (1 / 6) = 11184811 / 2 ^ 26 :=
    round _ _ 11184811 (-26) (by norm_num) (by norm_num) (by norm_num) (by norm_num) (by norm_num [abs_lt])
  have s6n : r.toFloat (-1 / 6) = -(11184811 / 2 ^ 26) := by
    have := (to_float hr 11184811 (-26) (y := 1 / 6) (by norm_num) (by norm_num) (by norm_num) (by norm_num [abs_lt])).2
    rw [show (-1 : ℝ) / 6 = -(1 / 6) by norm_num, this]
    norm_num
  have s3 : r.toFloat (1 / 3) = 11184811 / 2 ^ 25 :=
    round _ _ 11184811 (-25) (by norm_num) (by norm_num) (by norm_num) (by norm_num) (by norm_num [abs_lt])
  have s23 : r.toFloat (2 / 3) = 11184811 / 2 ^ 24 :=
    round _ _ 11184811 (-24) (by norm_num) (by norm_num) (by norm_num) (by norm_num) (by norm_num [abs_lt])
  have hue : r.toFloat (-(11184811 / 2 ^ 26) + 1) = 13981013 / 2 ^ 24 :=
    round _ _ 13981013 (-24) (by norm_num) (by norm_num) (by norm_num) (by norm_num) (by norm_num [abs_lt])
  -- to HSL
  have hsl : rgbToHslF r.toFloat (12632257 / 2 ^ 30) 0 (12632257 / 2 ^ 30) = .ok (13981013 / 2 ^ 24, 1, 12632257 / 2 ^ 30 / 2) := by
    have hmx : max ((12632257 : ℝ) / 2 ^ 30) (max 0 (12632257 / 2 ^ 30)) = 12632257 / 2 ^ 30 := by
      rw [max_eq_right (by norm_num : (0 : ℝ) ≤ 12632257 / 2 ^ 30), max_self]
    have hmn : min ((12632257 : ℝ) / 2 ^ 30) (min 0 (12632257 / 2 ^ 30)) = 0 := by
      rw [min_eq_left (by norm_num : (0 : ℝ) ≤ 12632257 / 2 ^ 30), min_eq_right (by norm_num)]
    have hsat : rawSatF r.toFloat (12632257 / 2 ^ 30) (12632257 / 2 ^ 30) = .ok 1 := by
      unfold rawSatF divF
      rw [c2, if_pos (by norm_num), if_neg (by norm_num), div_self (by norm_num), one]
    have hraw : rawHueF r.toFloat (12632257 / 2 ^ 30) 0 (12632257 / 2 ^ 30) = .ok (-(11184811 / 2 ^ 26)) := by
      unfold rawHueF
      simp only [hmx, hmn, sub_zero, zero_sub, sub_self, c1, c1n, f0, abs_zero, k4]
      rw [if_pos (by norm_num)]
      unfold divF
      rw [if_neg (by norm_num), neg_div, div_self (by norm_num), mone]
      show Outcome.ok (r.toFloat (-1 / 6)) = _
      rw [s6n]
    unfold rgbToHslF
    simp only [hmx, hmn, sub_zero, add_zero, c1, k3, hsat, hraw, c2]
    rw [if_neg (by norm_num [abs_of_pos])]
    show Outcome.ok (if (-(11184811 / 2 ^ 26) : ℝ) < 0 then r.toFloat (-(11184811 / 2 ^ 26) + 1) else -(11184811 / 2 ^ 26), (1 : ℝ), (12632257 / 2 ^ 30 / 2 : ℝ)) = _
    rw [if_pos (by norm_num), hue]
  -- and back
  have up : r.toFloat (13981013 / 2 ^ 24 + 11184811 / 2 ^ 25) = 9786709 / 2 ^ 23 :=
    round _ _ 9786709 (-23) (by norm_num) (by norm_num) (by norm_num) (by norm_num) (by norm_num [abs_lt])
  have up1 : r.toFloat (9786709 / 2 ^ 23 - 1) = 1398101 / 2 ^ 23 := by
    rw [show (9786709 : ℝ) / 2 ^ 23 - 1 = 1398101 / 2 ^ 23 by norm_num]
    exact toFloat_exact hr 1398101 (-23) (by norm_num) (by norm_num) (by norm_num) (by norm_num)
  have down : r.toFloat (13981013 / 2 ^ 24 - 11184811 / 2 ^ 25) = 16777215 / 2 ^ 25 := by
    rw [show (13981013 : ℝ) / 2 ^ 24 - 11184811 / 2 ^ 25 = 16777215 / 2 ^ 25 by norm_num]
    exact toFloat_exact hr 16777215 (-25) (by norm_num) (by norm_num) (by norm_num) (by norm_num)
  have m1 : r.toFloat (12632257 / 2 ^ 30 * 6) = 9474193 / 2 ^ 27 :=
    round _ _ 9474193 (-27) (by norm_num) (by norm_num) (by norm_num) (by norm_num) (by norm_num [abs_lt])
  have m2 : r.toFloat (9474193 / 2 ^ 27 * (1398101 / 2 ^ 23)) = 12632254 / 2 ^ 30 :=
    round _ _ 12632254 (-30) (by norm_num) (by norm_num) (by norm_num) (by norm_num) (by norm_num [abs_lt])
  have m3 : r.toFloat (12632254 / 2 ^ 30) = 12632254 / 2 ^ 30 :=
    toFloat_exact hr 12632254 (-30) (by norm_num) (by norm_num) (by norm_num) (by norm_num)
  have dbl : r.toDouble (1 / 10000) < 1 := by
    have h := rounds_std (by norm_num) hr.2 (1 / 10000)
    have e1 : (2 : ℝ) ^ (-((53 : ℕ) : ℤ)) ≤ 1 / 2 ^ 20 := by norm_num [zpow_neg]
    have e2 : (2 : ℝ) ^ ((-1074 : ℤ) - 1) ≤ 1 / 2 ^ 64 := by
      rw [show (-1074 : ℤ) - 1 = -(1075 : ℕ) by norm_num, zpow_neg, zpow_natCast, ← one_div]
      exact one_div_le_one_div_of_le (by positivity) (pow_le_pow_right₀ (by norm_num) (by norm_num))
    rw [abs_of_nonneg (by norm_num : (0 : ℝ) ≤ 1 / 10000)] at h
    have h2 : |r.toDouble (1 / 10000) - 1 / 10000| ≤ 1 / 2 ^ 20 * (1 / 10000) + 1 / 2 ^ 64 :=
      h.trans (add_le_add (mul_le_mul_of_nonneg_right e1 (by norm_num)) e2)
    obtain ⟨a1, a2⟩ := abs_le.1 h2
    norm_num at a1 a2
    linarith
  have back : hslToRgbF r (13981013 / 2 ^ 24) 1 (12632257 / 2 ^ 30 / 2) = (12632254 / 2 ^ 30, 0, 12632257 / 2 ^ 30) := by
    have ht1 : r.toFloat (12632257 / 2 ^ 30 / 2 * r.toFloat (1 + 1)) = 12632257 / 2 ^ 30 := by
      rw [show (1 : ℝ) + 1 = 2 by norm_num, two, div_mul_cancel₀ _ (by norm_num), c1]
    have ht2 : r.toFloat (r.toFloat (2 * (12632257 / 2 ^ 30 / 2)) - 12632257 / 2 ^ 30) = 0 := by
      rw [mul_div_cancel₀ _ (by norm_num), c1, sub_self, f0]
    unfold hslToRgbF
    rw [if_neg (by rw [abs_one]; push Not; exact dbl.le)]
    simp only [s3, up, down]
    rw [if_pos (by norm_num : (12632257 : ℝ) / 2 ^ 30 / 2 < 1 / 2), ht1, ht2, if_pos (by norm_num : (9786709 : ℝ) / 2 ^ 23 > 1), up1,
      if_neg (by norm_num : ¬ (16777215 : ℝ) / 2 ^ 25 < 0)]
    refine Prod.ext ?_ (Prod.ext ?_ ?_)
    · show hueRampF _ _ _ _ = _
      unfold hueRampF
      rw [s6, if_pos (by norm_num), sub_zero, c1, m1, m2, zero_add, m3]
    · show hueRampF _ _ _ _ = _
      unfold hueRampF
      rw [s6, s23, if_neg (by norm_num), if_neg (by norm_num), if_neg (by norm_num)]
    · show hueRampF _ _ _ _ = _
      unfold hueRampF
      rw [s6, if_neg (by norm_num), if_pos (by norm_num)]
  refine ⟨_, by rw [p0, p3]; exact hsl, ?_, ?_, ?_⟩
  · simp only [back]
    refine toPixel_of (k := 2) (by norm_num) (y := 12582909 / 2 ^ 22) ?_ (by norm_num) (by norm_num)
    rw [min_eq_right (by norm_num), max_eq_right (by norm_num)]
    exact round _ _ 12582909 (-22) (by norm_num) (by norm_num) (by norm_num) (by norm_num) (by norm_num [abs_lt])
  · simp only [back]
    refine toPixel_of (k := 0) (by norm_num) (y := 0) ?_ (by norm_num) (by norm_num)
    rw [min_eq_right (by norm_num), max_eq_right (by norm_num), zero_mul, f0]
  · simp only [back]
    rw [← p3]
    exact C43_pixels_survive r hr 3

end WB.Props
