import Verif.Proof.ColorMove
import Verif.Model.HslFloat
import Verif.Props.ColorFloat

/-! C104: HSL values that have changed, and pictures that go through the HSL codec with everything computed in `float`. -/

namespace WB.Props

open Spec

theorem pixel_stands {r : Rounding} (hr : r.IEEE) (k1 k2 k3 : UInt8) :
    ∃ d, rgbToHslF r.toFloat (ofPixel r k1) (ofPixel r k2) (ofPixel r k3) = .ok d ∧
      StandsFor (1 / 2 ^ 23) d.1 d.2.1 d.2.2 (ofPixel r k1, ofPixel r k2, ofPixel r k3) := by
  obtain ⟨h, s, l, e, st⟩ := stands_for hr (R := ofPixel r k1) (G := ofPixel r k2) (B := ofPixel r k3)
    ⟨pixel_unit hr k1, pixel_unit hr k2, pixel_unit hr k3⟩ (pixel_clear hr k1 k2 k3).1 (pixel_clear hr k1 k2 k3).2
  exact ⟨_, e, st⟩

theorem rgbToHslOv_of (r : Rounding) {Ω x y z : ℝ} (h : (0 ≤ x ∧ x ≤ 1) ∧ (0 ≤ y ∧ y ≤ 1) ∧ (0 ≤ z ∧ z ≤ 1)) {d : ℝ × ℝ × ℝ}
    (hd : rgbToHslF r.toFloat x y z = .ok d) :
    rgbToHslOv r (Ov.of x : Ov r.toFloat Ω) (Ov.of y) (Ov.of z) = .ok (Ov.triple d) := by
  show (if _ then _ else _) = _
  rw [if_pos h, hd]
  rfl

theorem hslToRgbOv_of (r : Rounding) {Ω x y z : ℝ} (h : |x| ≤ 1024 ∧ |y| ≤ 1024 ∧ |z| ≤ 1024) :
    hslToRgbOv r (Ov.of x : Ov r.toFloat Ω) (Ov.of y) (Ov.of z) = .ok (Ov.triple (hslToRgbF r x y z)) := if_pos h

/-- C104: if the HSL values of a pixel change by at most `ε`, by denoising or compression say, the colour they are converted back to differs from
the pixel by at most `9 ε + 1/10000`, also where the hue leaves [0,1] and where the colour becomes gray. -/
theorem C104_changed_values (r : Rounding) (hr : r.IEEE) (k1 k2 k3 : UInt8) :
    ∃ d, rgbToHslF r.toFloat (ofPixel r k1) (ofPixel r k2) (ofPixel r k3) = .ok d ∧
      ∀ (d' : ℝ × ℝ × ℝ) (ε : ℝ), ε ≤ 1 / 100 → Within ε d' d →
        Within (9 * ε + 1 / 10000) (hslToRgbF r d'.1 d'.2.1 d'.2.2) (ofPixel r k1, ofPixel r k2, ofPixel r k3) := by
  obtain ⟨d, e, st⟩ := pixel_stands hr k1 k2 k3
  exact ⟨d, e, fun d' ε hε ⟨w1, w2, w3⟩ => hsl_move hr st hε w1 w2 w3⟩

/-- C104: a JPEG picture is imported with the HSL codec into an image of its size without denoising and exported again, everything computed in
`float` with any IEEE rounding: pixels, colours and transforms. `E` is the rounding error bound of C87 for samples up to 1, and `d` is a number of
pixel values such that ten times `E` is below `d` steps of 1/255. Then nothing overflows, and every byte that is handed to the JPEG library is at most
`d` below and less than `d` above the byte that came from it. -/
theorem C104_pixels_in_float (r : Rounding) (hr : r.IEEE) (load : Bytes → Outcome CImg) (save : CImg → ℕ → ℤ → Outcome Bytes)
    (quality : ℤ) (b : Buffer (Ov r.toFloat maxFloat)) (hb : WellFormed b)
    (hwt : b.params.wtype ≤ 5) (hK : b.params.steps ≤ 2000) (hn : b.params.signalNumber = 3)
    (blob old : Bytes) (hblob : blob ≠ []) (img : CImg) (hload : load blob = .ok img)
    (hs : 3 ≤ img.spectrum) (hsh : b.params.shape = [img.width, img.height]) (hw : 0 < img.width) (hh : 0 < img.height)
    (hΩ : Real.sqrt ((b.params.shape.map (paddedSide b.params)).prod : ℕ) * 5 ≤ maxFloat) (E : ℝ)
    (hE : Real.sqrt ((b.params.shape.map (paddedSide b.params)).prod : ℕ) *
      (18 * (b.params.wtype + 2) * b.params.steps / 2 ^ 24 + 18 * b.params.wtype * b.params.steps / 2 ^ 150) ≤ E)
    (hE1 : E ≤ 1 / 110) (d : ℕ) (hd : 1 ≤ d) (hEd : 10 * E + 1 / 8000 ≤ d / 255) :
    ∃ decs img', importFromString (overflowKit r) (jpegCodec (hslExt r load save) .hsl quality) b blob nullDenoiser 0 =
        .ok decs .kOk ∧
      img'.width = img.width ∧ img'.height = img.height ∧ img'.spectrum = 3 ∧
      (∀ x < img.width, ∀ y < img.height, ∀ c < 3, ∃ k k', img.at x y c = .ok k ∧ img'.at x y c = .ok k' ∧
        k.toNat ≤ k'.toNat + d ∧ k'.toNat < k.toNat + d) ∧
      ∀ out, save img' ((3 * img.height * img.width + 1000) % 2 ^ 32) quality = .ok out →
        exportToString (overflowKit r) (jpegCodec (hslExt r load save) .hsl quality) ⟨b.params, decs⟩ old 0 = .ok out .kOk := by
  set e := hslExt r load save with he
  -- decode
  choose hl hhl hst using fun a b c => pixel_stands hr a b c
  have hrgb : ∀ a b c, e.rgbHsl (e.ofPx a) (e.ofPx b) (e.ofPx c) = .ok (Ov.triple (hl a b c)) := by
    intro a b c
    exact rgbToHslOv_of r ⟨pixel_unit hr a, pixel_unit hr b, pixel_unit hr c⟩ (hhl a b c)
  set hlf : Ov r.toFloat maxFloat → Ov r.toFloat maxFloat → Ov r.toFloat maxFloat → Ov r.toFloat maxFloat × Ov r.toFloat maxFloat × Ov r.toFloat maxFloat :=
    fun x y z => match e.rgbHsl x y z with | .ok o => o | _ => (x, y, z) with hhlf
  have hhlf' : ∀ a b c, hlf (e.ofPx a) (e.ofPx b) (e.ofPx c) = Ov.triple (hl a b c) := by
    intro a b c
    simp only [hhlf]
    rw [hrgb]
  obtain ⟨im, d1, d2, d3, d4, d5⟩ := C44_decode e hlf (fun a b c => by rw [hhlf' a b c]; exact hrgb a b c) .hsl blob [] 0 (by norm_num) hblob img
    hload hs
  have hcn : CodecKind.hsl.needs = 3 := rfl
  rw [List.length_nil, Nat.zero_max, Nat.zero_add, hcn] at d2
  choose! px hpx using fun x (hx : x < img.width) y (hy : y < img.height) c (hc : c < 3) => at_ok img hx hy (lt_of_lt_of_le hc hs)
  have hent : ∀ i m, im[i]? = some m → m.rows = img.height ∧ m.cols = img.width ∧ i < 3 ∧
      ∀ y < img.height, ∀ x < img.width, m.get y x = Ov.of (comp i (hl (px x y 0) (px x y 1) (px x y 2))) := by
    intro i m hm
    have hi : i < im.length := (List.getElem?_eq_some_iff.1 hm).1
    rw [d2] at hi
    obtain ⟨m', e1, e2, e3, e4⟩ := d5 i hi
    rw [Nat.zero_add, hm] at e1
    cases e1
    refine ⟨e2, e3, hi, ?_⟩
    intro y hy x hx
    obtain ⟨q, q1, q2⟩ := e4 y hy x hx
    have hq : ∀ j < 3, q j = px x y j := fun j hj => by
      have := q1 j hj
      rw [hpx x hx y hy j hj] at this
      exact (Outcome.ok.inj this).symm
    rw [q2]
    show comp i (hlf (e.ofPx (q 0)) (e.ofPx (q 1)) (e.ofPx (q 2))) = _
    rw [hhlf', hq 0 (by norm_num), hq 1 (by norm_num), hq 2 (by norm_num)]
    unfold comp Ov.triple
    split_ifs <;> rfl
  have hshape : ∀ m ∈ im, HasShape b.params.shape m := by
    intro m hm
    obtain ⟨i, hi⟩ := List.getElem?_of_mem hm
    obtain ⟨e1, e2, -⟩ := hent i m hi
    rw [hsh]; exact ⟨e1, e2⟩
  have hsig : IsSignal b.params im := ⟨by rw [d2, hn], hshape⟩
  have hbound : ∀ a b c i, |comp i (hl a b c)| ≤ 1 + 1 / 1000 := by
    intro a b c i
    obtain ⟨b1, b2, b3, -⟩ := (hst a b c).bound (by norm_num) (by norm_num)
    unfold comp
    split_ifs
    · exact b1
    · exact b2
    · exact b3
  -- decompose and compose
  obtain ⟨decs, im', g1, g2, g3, g4⟩ := C87_samples r hr b hb hwt hK (by rw [hn]; omega) im hsig (1 + 1 / 1000) (by norm_num) (by
    intro m hm i hi j hj
    obtain ⟨n, hn'⟩ := List.getElem?_of_mem hm
    obtain ⟨e1, e2, -, e4⟩ := hent n m hn'
    rw [e4 i (e1 ▸ hi) j (e2 ▸ hj)]
    exact ⟨rfl, hbound _ _ _ _⟩) (le_trans (mul_le_mul_of_nonneg_left (by norm_num) (Real.sqrt_nonneg _)) hΩ)
  have hlen : b.params.shape.length = 2 := by rw [hsh]; rfl
  have hview : (View.mk (0 : ℕ) (im.length : ℕ) false).decompose (overflowKit r) b im nullDenoiser = .ok decs true := by
    unfold View.decompose View.checkRange
    have e1 : -2 ^ 31 ≤ ((0 : ℕ) : ℤ) + (im.length : ℤ) ∧ ((0 : ℕ) : ℤ) + (im.length : ℤ) < 2 ^ 31 := by
      rw [d2]; constructor <;> omega
    have e2 : (0 ≤ ((0 : ℕ) : ℤ) + (im.length : ℤ) ∧ ((0 : ℕ) : ℤ) + (im.length : ℤ) ≤ (b.params.signalNumber : ℤ)) := by
      rw [d2, hn]; constructor <;> omega
    simp only [if_pos e1, e2, and_self, decide_true, Run.lift_ok, Run.bind_ok, if_true]
    rw [d2, ← hn]
    exact g1
  -- the error of the transforms
  have herr : Real.sqrt ((b.params.shape.map (paddedSide b.params)).prod : ℕ) *
      (9 * (b.params.wtype + 2) * (b.params.shape.length * b.params.steps) / 2 ^ 24 * (1 + 1 / 1000) +
        9 * b.params.wtype * (b.params.shape.length * b.params.steps) / 2 ^ 150) ≤ (1 + 1 / 1000) * E := by
    rw [hlen]
    refine le_trans ?_ (mul_le_mul_of_nonneg_left hE (by norm_num : (0 : ℝ) ≤ 1 + 1 / 1000))
    rw [mul_left_comm (1 + 1 / 1000 : ℝ)]
    refine mul_le_mul_of_nonneg_left ?_ (Real.sqrt_nonneg _)
    have k : (0 : ℝ) ≤ 18 * b.params.wtype * b.params.steps / 2 ^ 150 := by positivity
    generalize (2 : ℝ) ^ 150 = P at k ⊢
    push_cast
    have e1 : (9 : ℝ) * b.params.wtype * (2 * b.params.steps) / P = 18 * b.params.wtype * b.params.steps / P := by ring
    have e2 : (9 : ℝ) * (b.params.wtype + 2) * (2 * b.params.steps) / 2 ^ 24 * (1 + 1 / 1000) =
      (1 + 1 / 1000) * (18 * (b.params.wtype + 2) * b.params.steps / 2 ^ 24) := by ring
    rw [e1, e2]
    linarith
  have hε0 : 0 ≤ E := le_trans (by positivity) hE
  -- the colours
  have hsample : ∀ x < img.width, ∀ y < img.height, ∀ c < 3, ∃ z, sampleAt im' c y x = Ov.of z ∧
      |z - comp c (hl (px x y 0) (px x y 1) (px x y 2))| ≤ (1 + 1 / 1000) * E := by
    intro x hx y hy c hc
    obtain ⟨m, e1, -⟩ := d5 c hc
    rw [Nat.zero_add] at e1
    obtain ⟨e2, e3, -, e4⟩ := hent c m e1
    obtain ⟨m', f1, f2, f3, f4⟩ := g4 c m e1
    obtain ⟨f5, f6⟩ := f4 y (e2 ▸ hy) x (e3 ▸ hx)
    have hsm : sampleAt im' c y x = m'.get y x := by simp only [sampleAt, List.getD, f1, Option.getD_some]
    rw [hsm]
    rw [e4 y hy x hx] at f6
    match hv : m'.get y x, f5, f6 with
    | some z, _, f6 => exact ⟨z, rfl, f6.trans herr⟩
    | none, f5, _ => exact absurd f5 Bool.false_ne_true
  choose! zz hz1 hz2 using hsample
  have hcol : ∀ x < img.width, ∀ y < img.height,
      e.hslRgb (sampleAt im' 0 y x) (sampleAt im' 1 y x) (sampleAt im' 2 y x) = .ok (Ov.triple (hslToRgbF r (zz x y 0) (zz x y 1) (zz x y 2))) := by
    intro x hx y hy
    rw [hz1 x hx y hy 0 (by norm_num), hz1 x hx y hy 1 (by norm_num), hz1 x hx y hy 2 (by norm_num)]
    have bd : ∀ c < 3, |zz x y c| ≤ 1024 := by
      intro c hc
      have h1 := hz2 x hx y hy c hc
      have h2 := hbound (px x y 0) (px x y 1) (px x y 2) c
      have h3 := abs_sub_abs_le_abs_sub (zz x y c) (comp c (hl (px x y 0) (px x y 1) (px x y 2)))
      linarith
    exact hslToRgbOv_of r ⟨bd 0 (by norm_num), bd 1 (by norm_num), bd 2 (by norm_num)⟩
  set hrf : Ov r.toFloat maxFloat → Ov r.toFloat maxFloat → Ov r.toFloat maxFloat → Ov r.toFloat maxFloat × Ov r.toFloat maxFloat × Ov r.toFloat maxFloat :=
    fun x y z => match e.hslRgb x y z with | .ok o => o | _ => (x, y, z) with hhrf
  have hcs : ∀ x < img.width, ∀ y < img.height, ∀ c, colourSample .hsl hrf im' 0 y x c =
      Ov.of (comp c (hslToRgbF r (zz x y 0) (zz x y 1) (zz x y 2))) := by
    intro x hx y hy c
    unfold colourSample
    simp only [Nat.zero_add, hhrf, hcol x hx y hy]
    unfold comp Ov.triple
    split_ifs <;> rfl
  have hpix : ∀ x < img.width, ∀ y < img.height, ∀ c < 3, ∃ k', toPixelOv r (colourSample .hsl hrf im' 0 y x c) = .ok k' ∧
      (px x y c).toNat ≤ k'.toNat + d ∧ k'.toNat < (px x y c).toNat + d := by
    intro x hx y hy c hc
    rw [hcs x hx y hy c]
    show ∃ k', toPixel r _ = _ ∧ _
    obtain ⟨w1, w2, w3⟩ := hsl_move hr (hst (px x y 0) (px x y 1) (px x y 2)) (ε := (1 + 1 / 1000) * E) (by linarith)
      (hz2 x hx y hy 0 (by norm_num)) (hz2 x hx y hy 1 (by norm_num)) (hz2 x hx y hy 2 (by norm_num))
    refine toPixel_near hr _ hd (le_trans (b := 9 * ((1 + 1 / 1000) * E) + 1 / 10000) ?_ (by norm_num; linarith))
    rcases (by omega : c = 0 ∨ c = 1 ∨ c = 2) with rfl | rfl | rfl
    · exact w1
    · exact w2
    · exact w3
  -- encode
  have hEnc : Encodable .hsl im' 0 img.height img.width := by
    refine ⟨by omega, by omega, ?_⟩
    intro c hc
    obtain ⟨m, e1, e2, e3, -⟩ := d5 c hc
    rw [Nat.zero_add] at e1
    obtain ⟨m', f1, f2, f3, -⟩ := g4 c m e1
    exact ⟨m', by rw [Nat.zero_add]; exact f1, f2.trans e2, f3.trans e3⟩
  obtain ⟨img', i1, i2, i3, i4, i5, -⟩ := C44_encode_accepts e (fun s => match toPixelOv r s with | .ok k => k | _ => 0) hrf .hsl
    quality im' old 0 img.height img.width (by norm_num) hEnc (fun x hx y hy c hc => by
      obtain ⟨k', h2, _⟩ := hpix x hx y hy c hc
      show toPixelOv r _ = _
      rw [h2]) (fun _ y hy x hx => by
        simp only [Nat.zero_add, hhrf, hcol x hx y hy])
  refine ⟨decs, img', ?_, i1, i2, i3, ?_, ?_⟩
  · rw [import_start (overflowKit r) (jpegCodec e .hsl quality) b blob nullDenoiser 0 im d1 (toInt32_nat (by norm_num)) (toInt32_nat (by omega))]
    rw [hview]; rfl
  · intro x hx y hy c hc
    obtain ⟨k', h2, h3⟩ := hpix x hx y hy c hc
    refine ⟨px x y c, k', hpx x hx y hy c hc, ?_, h3⟩
    rw [i4 x hx y hy c hc]
    simp only [h2]
  · intro out hout
    have henc := i5 out (by rw [g3, d2]; exact hout)
    have hexp := (C45_export_to_string (overflowKit r) (jpegCodec e .hsl quality) ⟨b.params, decs⟩ old 0 (by
      show 0 + 3 < _; omega)).2 im' (by show 0 + 3 ≤ b.params.signalNumber; rw [hn]) g2
    apply hexp.1 out
    show codecEncode e .hsl quality ((im'.drop 0).take 3) old 0 = _
    rw [List.drop_zero, ← d2, ← g3, List.take_length]
    exact henc

/-- C104: a factor of six is needed. A change of the hue of 1/128, two steps of 1/255, turns the green of a pure red from 0 to 6/128,
the byte from 0 to 11, whatever the IEEE rounding. -/
theorem C104_amplified (r : Rounding) (hr : r.IEEE) :
    rgbToHslF r.toFloat (ofPixel r 255) (ofPixel r 0) (ofPixel r 0) = .ok (0, 1, 1 / 2) ∧
      (hslToRgbF r (1 / 128) 1 (1 / 2)).2.1 = 6 * (1 / 128) ∧ toPixel r (hslToRgbF r (1 / 128) 1 (1 / 2)).2.1 = .ok 11 := by
  have f : ∀ (n e : ℤ) (y : ℝ), -2 ^ 24 < n → n < 2 ^ 24 → -149 ≤ e → y = n * 2 ^ e → r.toFloat y = y :=
    fun n e y h1 h2 h3 h4 => toFloat_exact hr n e h1 h2 h3 h4
  have f0 : r.toFloat 0 = 0 := f 0 0 _ (by norm_num) (by norm_num) (by norm_num) (by norm_num)
  have f1 : r.toFloat 1 = 1 := f 1 0 _ (by norm_num) (by norm_num) (by norm_num) (by norm_num)
  have f2 : r.toFloat (1 / 2) = 1 / 2 := f 1 (-1) _ (by norm_num) (by norm_num) (by norm_num) (by norm_num)
  have f3 : r.toFloat (3 / 2) = 3 / 2 := f 3 (-1) _ (by norm_num) (by norm_num) (by norm_num) (by norm_num)
  have f6 : r.toFloat 6 = 6 := f 6 0 _ (by norm_num) (by norm_num) (by norm_num) (by norm_num)
  have f7 : r.toFloat (6 * (1 / 128)) = 6 * (1 / 128) := f 6 (-7) _ (by norm_num) (by norm_num) (by norm_num) (by norm_num)
  have fp : r.toFloat (6 * (1 / 128) * 255) = 6 * (1 / 128) * 255 := f 1530 (-7) _ (by norm_num) (by norm_num) (by norm_num) (by norm_num)
  have p0 : ofPixel r 0 = 0 := by
    have d0 : r.toDouble 0 = 0 := rounds_self hr.2 ⟨0, 0, by norm_num, by norm_num, by norm_num⟩
    unfold ofPixel
    rw [show ((0 : UInt8).toNat : ℝ) / 255 = 0 by norm_num, d0, f0]
  have p1 : ofPixel r 255 = 1 := by
    have d1 : r.toDouble 1 = 1 := rounds_self hr.2 ⟨1, 0, by norm_num, by norm_num, by norm_num⟩
    unfold ofPixel
    rw [show ((255 : UInt8).toNat : ℝ) / 255 = 1 by rw [show (255 : UInt8).toNat = 255 from rfl]; norm_num, d1, f1]
  have E := smallErr_of hr
  obtain ⟨a1, a2⟩ := E.near (x := 1 / 1000) (B := 1 / 1000) (by norm_num) (by norm_num) (by norm_num)
  obtain ⟨b1, b2⟩ := E.near (x := 1 / 10000) (B := 1 / 10000) (by norm_num) (by norm_num) (by norm_num)
  obtain ⟨c1, c2⟩ := E.near (x := 1 / 6) (B := 1) (by norm_num) (by norm_num) (by norm_num)
  have green : (hslToRgbF r (1 / 128) 1 (1 / 2)).2.1 = 6 * (1 / 128) := by
    obtain ⟨g1, g2⟩ := abs_le.1 (gray_threshold hr)
    unfold hslToRgbF
    rw [if_neg (by rw [abs_one]; norm_num at g2 ⊢; linarith)]
    simp only
    rw [if_neg (lt_irrefl _), show (1 : ℝ) / 2 + 1 = 3 / 2 by norm_num, mul_one, f3, f2, show (3 : ℝ) / 2 - 1 / 2 = 1 by norm_num, f1,
      show (2 : ℝ) * (1 / 2) = 1 by norm_num, f1, sub_self, f0]
    unfold hueRampF
    rw [if_pos (by norm_num at c1 ⊢; linarith), sub_zero, f1, one_mul, f6, f7, zero_add, f7]
  refine ⟨?_, green, ?_⟩
  · rw [p0, p1]
    have hmx : max (1 : ℝ) (max 0 0) = 1 := by norm_num
    have hmn : min (1 : ℝ) (min 0 0) = 0 := by norm_num
    have hsat : rawSatF r.toFloat 1 1 = .ok 1 := by
      unfold rawSatF divF
      rw [f2, if_neg (lt_irrefl _), show (2 : ℝ) - 1 = 1 by norm_num, f1, if_neg (by norm_num), div_one, f1]
    have hraw : rawHueF r.toFloat 1 0 0 = .ok 0 := by
      unfold rawHueF
      simp only [hmx, hmn, sub_zero, sub_self, f0, f1, abs_zero]
      rw [if_pos (by norm_num at b1 ⊢; linarith)]
      unfold divF
      rw [if_neg (by norm_num), zero_div, f0]
      show Outcome.ok (r.toFloat (0 / 6)) = _
      rw [zero_div, f0]
    unfold rgbToHslF
    simp only [hmx, hmn, sub_zero, add_zero, f1, hsat, hraw, f2, abs_one]
    rw [if_neg (by norm_num at a2 ⊢; linarith)]
    show Outcome.ok (if (0 : ℝ) < 0 then r.toFloat (0 + 1) else 0, (1 : ℝ), (1 / 2 : ℝ)) = _
    rw [if_neg (lt_irrefl _)]
  · rw [green]
    refine toPixel_of (k := 11) (by norm_num) (y := 6 * (1 / 128) * 255) ?_ (by norm_num) (by norm_num)
    rw [min_eq_right (by norm_num), max_eq_right (by norm_num), fp]

/-- The hypotheses of `C104_pixels_in_float` hold for a picture of 64 x 64 pixels, DB1, two steps, with `d = 2`. -/
example : let p : Params := ⟨[64, 64], 3, 2, 1⟩
    let b : Buffer (Ov (fun x => x) maxFloat) := ⟨p, List.replicate 3 (List.replicate 7 Mat.empty)⟩
    WellFormed b ∧ Real.sqrt ((p.shape.map (paddedSide p)).prod : ℕ) * 5 ≤ maxFloat ∧
      Real.sqrt ((p.shape.map (paddedSide p)).prod : ℕ) * (18 * (p.wtype + 2) * p.steps / 2 ^ 24 + 18 * p.wtype * p.steps / 2 ^ 150) ≤
        (1 : ℝ) / 1400 ∧ (10 : ℝ) * (1 / 1400) + 1 / 8000 ≤ (2 : ℕ) / 255 := by
  intro p b
  have hN : Real.sqrt ((p.shape.map (paddedSide p)).prod : ℕ) = 64 := by
    rw [show (p.shape.map (paddedSide p)).prod = 64 * 64 by decide, Nat.cast_mul]
    exact Real.sqrt_mul_self (x := 64) (by norm_num)
  refine ⟨⟨⟨by simp [b, p], by simp [b, p], by simp [b, p]⟩, by simp [b, p], by simp [b, p, subbandCount, detailsPerStep]⟩, ?_, ?_, by norm_num⟩
  · rw [hN]; simp only [maxFloat]; norm_num
  · rw [hN]; simp only [p]; norm_num

end WB.Props
