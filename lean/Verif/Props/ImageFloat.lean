import Verif.Model.FloatCodec
import Verif.Props.RoundingNorm
import Verif.Proof.WhitePicture
import Verif.Props.Image
import Verif.Props.Pixel

/-!
C88: pictures that go through the transforms in `float` arithmetic.
-/

namespace WB.Props

open Finset Spec

theorem ofPixel_near {r : Rounding} (hr : r.IEEE) (k : UInt8) : |ofPixel r k - k.toNat / 255| ≤ 1 / 2 ^ 22 := by
  have hk : (k.toNat : ℝ) ≤ 255 := by exact_mod_cast Nat.le_of_lt_succ k.toNat_lt
  have s1 := rounds_std (by norm_num) hr.2 ((k.toNat : ℝ) / 255)
  have s2 := rounds_std (by norm_num) hr.1 (r.toDouble ((k.toNat : ℝ) / 255))
  have hη : (2 : ℝ) ^ ((-1074 : ℤ) - 1) ≤ 1 / 2 ^ 60 := by
    rw [show (1 : ℝ) / 2 ^ 60 = 2 ^ (-60 : ℤ) by norm_num]
    exact zpow_le_zpow_right₀ (by norm_num) (by norm_num)
  have hη' : (2 : ℝ) ^ ((-149 : ℤ) - 1) ≤ 1 / 2 ^ 60 := by
    rw [show (1 : ℝ) / 2 ^ 60 = 2 ^ (-60 : ℤ) by norm_num]
    exact zpow_le_zpow_right₀ (by norm_num) (by norm_num)
  rw [show (2 : ℝ) ^ (-((53 : ℕ) : ℤ)) = 1 / 2 ^ 53 by norm_num] at s1
  rw [show (2 : ℝ) ^ (-((24 : ℕ) : ℤ)) = 1 / 2 ^ 24 by norm_num] at s2
  have h0 : (0 : ℝ) ≤ (k.toNat : ℝ) / 255 := by positivity
  have h1 : (k.toNat : ℝ) / 255 ≤ 1 := by rw [div_le_one (by norm_num)]; exact hk
  unfold ofPixel
  set a := (k.toNat : ℝ) / 255
  set b := r.toDouble a
  rw [abs_of_nonneg h0] at s1
  have b1 : |b| ≤ 2 := by
    have := abs_sub_abs_le_abs_sub b a
    rw [abs_of_nonneg h0] at this
    have k1 : (1 : ℝ) / 2 ^ 53 * a ≤ 1 / 2 ^ 53 := mul_le_of_le_one_right (by norm_num) h1
    have k3 : (1 : ℝ) + 1 / 2 ^ 53 + 1 / 2 ^ 60 ≤ 2 := by norm_num
    linarith
  refine (abs_sub_le _ b _).trans ?_
  have k1 : (1 : ℝ) / 2 ^ 53 * a ≤ 1 / 2 ^ 53 := mul_le_of_le_one_right (by norm_num) h1
  have k2 : (1 : ℝ) / 2 ^ 24 * |b| ≤ 1 / 2 ^ 24 * 2 := mul_le_mul_of_nonneg_left b1 (by norm_num)
  have k3 : (1 : ℝ) / 2 ^ 24 * 2 + 1 / 2 ^ 60 + (1 / 2 ^ 53 + 1 / 2 ^ 60) ≤ 1 / 2 ^ 22 := by norm_num
  linarith

/-- A sample that is off by less than `d` steps is encoded as one of the `d` pixel values below, the same value or one of the `d - 1` above. -/
theorem toPixel_near {r : Rounding} (hr : r.IEEE) (k : UInt8) {d : ℕ} (hd : 1 ≤ d) {x : ℝ} (hx : |x - ofPixel r k| ≤ d / 255 - 1 / 2 ^ 16) :
    ∃ k', toPixel r x = .ok k' ∧ k.toNat ≤ k'.toNat + d ∧ k'.toNat < k.toNat + d := by
  obtain ⟨c1, c2, _, _⟩ := C43_clamped_and_monotone r hr
  obtain ⟨k', hk'⟩ := c1 x
  have hn := ofPixel_near hr k
  have hx' := abs_le.1 hx
  have hn' := abs_le.1 hn
  have hklt := k.toNat_lt
  have hklt' := k'.toNat_lt
  refine ⟨k', hk', ?_, ?_⟩
  · rcases Nat.lt_or_ge k.toNat d with h | h
    · omega
    have := C61_noise_above_partial r hr (k.toNat - d) (by omega) (((k.toNat - d : ℕ) : ℝ) / 255) le_rfl (by
      rw [add_div]; norm_num; linarith)
    have := c2 _ x _ _ (by
      rw [Nat.cast_sub h, sub_div]
      norm_num at *
      linarith) this hk'
    rw [UInt8.toNat_ofNat_of_lt' (by change _ < 256; omega)] at this
    omega
  · rcases Nat.lt_or_ge (k.toNat + d) 256 with h | h
    · have := C61_noise_below_changes_pixel r hr (k.toNat + d) (by omega) (by omega) (((k.toNat + d : ℕ) : ℝ) / 255 - 1 / 2 ^ 17) (by
        rw [sub_div]; norm_num; linarith) le_rfl
      have := c2 x _ _ _ (by
        push_cast
        rw [add_div]
        norm_num at *
        linarith) hk' this
      rw [UInt8.toNat_ofNat_of_lt' (by change _ < 256; omega)] at this
      omega
    · omega

/-- C88: a JPEG picture (RGB or gray) is imported into an image of its size without denoising and exported again, everything computed in `float` with any
IEEE rounding. `d` is a number of pixel values such that the rounding error bound of C87 is below `d` steps of 1/255. Then nothing overflows, and every pixel
that is handed to the JPEG library is at most `d` below and less than `d` above the pixel that came from it. -/
theorem C88_pixels_in_float (r : Rounding) (hr : r.IEEE) (load : Bytes → Outcome CImg) (save : CImg → ℕ → ℤ → Outcome Bytes)
    (rgbHsl hslRgb : Ov r.toFloat maxFloat → Ov r.toFloat maxFloat → Ov r.toFloat maxFloat →
      Outcome (Ov r.toFloat maxFloat × Ov r.toFloat maxFloat × Ov r.toFloat maxFloat))
    (kind : CodecKind) (hkind : kind ≠ .hsl) (quality : ℤ) (b : Buffer (Ov r.toFloat maxFloat)) (hb : WellFormed b)
    (hwt : b.params.wtype ≤ 5) (hK : b.params.steps ≤ 2000) (hn : b.params.signalNumber = kind.needs)
    (blob old : Bytes) (hblob : blob ≠ []) (img : CImg) (hload : load blob = .ok img)
    (hs : kind.needs ≤ img.spectrum) (hsh : b.params.shape = [img.width, img.height]) (hw : 0 < img.width) (hh : 0 < img.height)
    (hΩ : Real.sqrt ((b.params.shape.map (paddedSide b.params)).prod : ℕ) * 4 ≤ maxFloat) (d : ℕ) (hd : 1 ≤ d)
    (hE : Real.sqrt ((b.params.shape.map (paddedSide b.params)).prod : ℕ) *
      (18 * (b.params.wtype + 2) * b.params.steps / 2 ^ 24 + 18 * b.params.wtype * b.params.steps / 2 ^ 150) ≤ d / 255 - 1 / 2 ^ 16) :
    ∃ decs img', importFromString (overflowKit r) (jpegCodec (floatExt r maxFloat load save rgbHsl hslRgb) kind quality) b blob nullDenoiser 0 =
        .ok decs .kOk ∧
      img'.width = img.width ∧ img'.height = img.height ∧ img'.spectrum = kind.needs ∧
      (∀ x < img.width, ∀ y < img.height, ∀ c < kind.needs, ∃ k k', img.at x y c = .ok k ∧ img'.at x y c = .ok k' ∧
        k.toNat ≤ k'.toNat + d ∧ k'.toNat < k.toNat + d) ∧
      ∀ out, save img' ((kind.needs * img.height * img.width + 1000) % 2 ^ 32) quality = .ok out →
        exportToString (overflowKit r) (jpegCodec (floatExt r maxFloat load save rgbHsl hslRgb) kind quality) ⟨b.params, decs⟩ old 0 = .ok out .kOk := by
  set e := floatExt r maxFloat load save rgbHsl hslRgb with he
  have hneeds : kind.needs = 1 ∨ kind.needs = 3 := by cases kind <;> simp [CodecKind.needs]
  have hcn : kind.channels = kind.needs := by cases kind <;> rfl
  -- decode
  have hdec : ∀ blob im sc, codecDecode e kind blob im sc =
      codecDecode (floatExt r maxFloat load save (fun x y z => .ok (x, y, z)) hslRgb) kind blob im sc := by
    intro blob im sc
    cases kind with
    | hsl => exact absurd rfl hkind
    | rgb => rfl
    | gray => rfl
  obtain ⟨im, d1, d2, d3, d4, d5⟩ := C44_decode (floatExt r maxFloat load save (fun x y z => .ok (x, y, z)) hslRgb) (fun x y z => (x, y, z))
    (fun a b c => rfl) kind blob [] 0 (by norm_num) hblob img hload hs
  rw [← hdec] at d1
  rw [List.length_nil, Nat.zero_max, Nat.zero_add] at d2
  have hent : ∀ i m, im[i]? = some m → m.rows = img.height ∧ m.cols = img.width ∧ i < kind.needs ∧
      ∀ y < img.height, ∀ x < img.width, ∃ p, img.at x y i = .ok p ∧ m.get y x = Ov.of (ofPixel r p) := by
    intro i m hm
    have hi : i < im.length := (List.getElem?_eq_some_iff.1 hm).1
    rw [d2] at hi
    obtain ⟨m', e1, e2, e3, e4⟩ := d5 i hi
    rw [Nat.zero_add, hm] at e1
    cases e1
    refine ⟨e2, e3, hi, ?_⟩
    intro y hy x hx
    obtain ⟨px, p1, p2⟩ := e4 y hy x hx
    refine ⟨px i, p1 i hi, ?_⟩
    rw [p2]
    cases kind with
    | hsl => exact absurd rfl hkind
    | rgb => rfl
    | gray => rfl
  have hshape : ∀ m ∈ im, HasShape b.params.shape m := by
    intro m hm
    obtain ⟨i, hi⟩ := List.getElem?_of_mem hm
    obtain ⟨e1, e2, -⟩ := hent i m hi
    rw [hsh]; exact ⟨e1, e2⟩
  have hsig : IsSignal b.params im := ⟨by rw [d2, hn], hshape⟩
  -- decompose and compose
  obtain ⟨decs, im', g1, g2, g3, g4⟩ := C87_samples r hr b hb hwt hK (by rw [hn]; omega) im hsig 1 (by norm_num) (by
    intro m hm i hi j hj
    obtain ⟨n, hn'⟩ := List.getElem?_of_mem hm
    obtain ⟨e1, e2, -, e4⟩ := hent n m hn'
    obtain ⟨p, -, p2⟩ := e4 i (e1 ▸ hi) j (e2 ▸ hj)
    rw [p2]
    have := pixel_back hr p.toNat p.toNat_lt
    refine ⟨rfl, ?_⟩
    show |ofPixel r p| ≤ 1
    unfold ofPixel
    rw [abs_of_nonneg this.1]
    exact this.2.1) (by norm_num at *; exact hΩ)
  have hlen : b.params.shape.length = 2 := by rw [hsh]; rfl
  have hview : (View.mk (0 : ℕ) (im.length : ℕ) false).decompose (overflowKit r) b im nullDenoiser = .ok decs true := by
    unfold View.decompose View.checkRange
    have e1 : -2 ^ 31 ≤ ((0 : ℕ) : ℤ) + (im.length : ℤ) ∧ ((0 : ℕ) : ℤ) + (im.length : ℤ) < 2 ^ 31 := by
      rw [d2]; constructor <;> omega
    have e2 : (0 ≤ ((0 : ℕ) : ℤ) + (im.length : ℤ) ∧ ((0 : ℕ) : ℤ) + (im.length : ℤ) ≤ (b.params.signalNumber : ℤ)) := by
      rw [d2, hn]; constructor <;> omega
    simp only [if_pos e1, e2, and_self, decide_true, Run.lift_ok, Run.bind_ok, if_true]
    rw [d2, ← hn]
    exact g1
  -- the pixels
  have hpx : ∀ x < img.width, ∀ y < img.height, ∀ c < kind.needs, ∃ k k', img.at x y c = .ok k ∧
      toPixelOv r (colourSample kind (fun x y z => (x, y, z)) im' 0 y x c) = .ok k' ∧ k.toNat ≤ k'.toNat + d ∧ k'.toNat < k.toNat + d := by
    intro x hx y hy c hc
    obtain ⟨m, e1, -⟩ := d5 c hc
    rw [Nat.zero_add] at e1
    obtain ⟨e2, e3, -, e4⟩ := hent c m e1
    obtain ⟨p, p1, p2⟩ := e4 y hy x hx
    obtain ⟨m', f1, f2, f3, f4⟩ := g4 c m e1
    obtain ⟨f5, f6⟩ := f4 y (e2 ▸ hy) x (e3 ▸ hx)
    have hcs : colourSample kind (fun x y z => (x, y, z)) im' 0 y x c = m'.get y x := by
      cases kind with
      | hsl => exact absurd rfl hkind
      | rgb => simp only [colourSample, sampleAt, List.getD, Nat.zero_add, f1, Option.getD_some]
      | gray => simp only [colourSample, sampleAt, List.getD, Nat.zero_add, f1, Option.getD_some]
    rw [hcs]
    have hE' : |(m'.get y x).val - ofPixel r p| ≤ d / 255 - 1 / 2 ^ 16 := by
      refine le_trans ?_ hE
      rw [p2, hlen] at f6
      refine le_trans f6 (le_of_eq ?_)
      push_cast
      ring
    match hv : m'.get y x, f5, hE' with
    | some z, _, hE' =>
      obtain ⟨k', k1, k2⟩ := toPixel_near hr p hd (x := z) hE'
      exact ⟨p, k', p1, k1, k2⟩
    | none, f5, _ => exact absurd f5 Bool.false_ne_true
  -- encode
  have hEnc : Encodable kind im' 0 img.height img.width := by
    refine ⟨by omega, by omega, ?_⟩
    intro c hc
    obtain ⟨m, e1, e2, e3, -⟩ := d5 c hc
    rw [Nat.zero_add] at e1
    obtain ⟨m', f1, f2, f3, -⟩ := g4 c m e1
    exact ⟨m', by rw [Nat.zero_add]; exact f1, f2.trans e2, f3.trans e3⟩
  obtain ⟨img', i1, i2, i3, i4, i5, -⟩ := C44_encode_accepts e (fun s => match toPixelOv r s with | .ok k => k | _ => 0) (fun x y z => (x, y, z)) kind
    quality im' old 0 img.height img.width (by norm_num) hEnc (fun x hx y hy c hc => by
      obtain ⟨_, k', _, h2, _⟩ := hpx x hx y hy c hc
      show toPixelOv r _ = _
      rw [h2]) (fun h => absurd h hkind)
  refine ⟨decs, img', ?_, i1, i2, i3, ?_, ?_⟩
  · rw [import_start (overflowKit r) (jpegCodec e kind quality) b blob nullDenoiser 0 im d1 (toInt32_nat (by norm_num)) (toInt32_nat (by omega))]
    rw [hview]; rfl
  · intro x hx y hy c hc
    obtain ⟨k, k', h1, h2, h3⟩ := hpx x hx y hy c hc
    refine ⟨k, k', h1, ?_, h3⟩
    rw [i4 x hx y hy c hc]
    simp only [h2]
  · intro out hout
    have henc := i5 out (by rw [g3, d2]; exact hout)
    have hexp := (C45_export_to_string (overflowKit r) (jpegCodec e kind quality) ⟨b.params, decs⟩ old 0 (by
      show 0 + kind.channels < _; rw [hcn]; omega)).2 im' (by show 0 + kind.channels ≤ b.params.signalNumber; rw [hcn, hn]; omega) g2
    apply hexp.1 out
    show codecEncode e kind quality ((im'.drop 0).take kind.channels) old 0 = _
    rw [List.drop_zero, hcn, ← d2, ← g3, List.take_length]
    exact henc

/-- C88: pixels do change. A white picture of 2 x 2 pixels, DB1, one step, comes back with the pixel value 254, whatever the IEEE rounding. -/
theorem C88_white_counterexample (r : Rounding) (hr : r.IEEE) :
    ∃ d y, (Buffer.mk ⟨[2, 2], 1, 1, 1⟩ [List.replicate 4 Mat.empty] : Buffer (Ov r.toFloat maxFloat)).decompose (overflowKit r)
        [Mat.ofFn 2 2 (fun _ _ => Ov.of (ofPixel r 255))] nullDenoiser = .ok d true ∧
      (Buffer.mk ⟨[2, 2], 1, 1, 1⟩ d).compose (overflowKit r) 0 = .ok [y] ∧ ∀ i < 2, ∀ j < 2, toPixelOv r (y.get i j) = .ok 254 := by
  set p : Params := ⟨[2, 2], 1, 1, 1⟩ with hp
  have one : ofPixel r 255 = 1 := by
    have e1 : ((255 : UInt8).toNat : ℝ) / 255 = (1 : ℕ) := by
      rw [show (255 : UInt8).toNat = 255 from rfl]; norm_num
    unfold ofPixel
    rw [e1, rounds_self hr.2 (nat_mem 1 (by norm_num) (by norm_num)), rounds_self hr.1 (nat_mem 1 (by norm_num) (by norm_num))]
    norm_num
  rw [one]
  have hb : WellFormed (Buffer.mk p [List.replicate 4 Mat.empty] : Buffer (Ov r.toFloat maxFloat)) :=
    ⟨⟨by simp [p], by simp [p], by simp [p]⟩, by simp [p], by simp [p, subbandCount, detailsPerStep]⟩
  have hd : IsSignal p [(Mat.ofFn 2 2 (fun _ _ => Ov.of 1) : Mat (Ov r.toFloat maxFloat))] := ⟨by simp [p], by simp [p, HasShape]⟩
  have hk := overflowKit_present (r := r) (p := p) (by simp [p])
  have c1 := decompose_ok hb hk (by simp [p]) hd (fun _ => nullDenoiser_sized)
  have c2 := compose_ok (k := overflowKit r) (b := ⟨p, [(Mat.ofFn 2 2 (fun _ _ => Ov.of 1) : Mat (Ov r.toFloat maxFloat))].map
    (chanP p (scaling (overflowKit r) p) nullDenoiser)⟩) (s := 0) hb.1 (by simp [p]) hk (by
      intro c hc
      rw [List.mem_map] at hc
      obtain ⟨m, hm, rfl⟩ := hc
      exact chanP_sized hb.1 nullDenoiser_sized (shaped_of (hd.2 m hm))) (Nat.zero_le _)
  refine ⟨_, _, c1, c2, ?_⟩
  intro i hi j hj
  have := white_value hr i j hi hj
  show toPixelOv r ((cropOf p 0 (reconP p (scaling (overflowKit r) p) 0 (chanP p (scaling (overflowKit r) p) nullDenoiser _))).get i j) = _
  rw [this]
  show toPixel r (16777214 / 2 ^ 24) = _
  have h2 := (to_float hr 16711678 (-16) (y := max 0 (min 1 (16777214 / 2 ^ 24)) * 255) (by norm_num) (by norm_num) (by norm_num) (by
    rw [abs_lt]; norm_num)).1
  have := toPixel_of (r := r) (x := 16777214 / 2 ^ 24) (k := 254) (by norm_num) h2 (by norm_num) (by norm_num)
  rw [this]
  rfl

/-- The hypotheses of C88 hold for a colour picture of 256 x 256 pixels, DB1, four steps, with `d = 1`: every pixel stays or loses one. -/
example : let p : Params := ⟨[256, 256], 3, 4, 1⟩
    let b : Buffer (Ov (fun x => x) maxFloat) := ⟨p, List.replicate 3 (List.replicate 13 Mat.empty)⟩
    WellFormed b ∧ Real.sqrt ((p.shape.map (paddedSide p)).prod : ℕ) * 4 ≤ maxFloat ∧
      Real.sqrt ((p.shape.map (paddedSide p)).prod : ℕ) * (18 * (p.wtype + 2) * p.steps / 2 ^ 24 + 18 * p.wtype * p.steps / 2 ^ 150) ≤
        (1 : ℕ) / 255 - 1 / 2 ^ 16 := by
  intro p b
  have hN : Real.sqrt ((p.shape.map (paddedSide p)).prod : ℕ) = 256 := by
    rw [show (p.shape.map (paddedSide p)).prod = 256 * 256 by decide, Nat.cast_mul]
    exact Real.sqrt_mul_self (x := 256) (by norm_num)
  refine ⟨⟨⟨by simp [b, p], by simp [b, p], by simp [b, p]⟩, by simp [b, p], by simp [b, p, subbandCount, detailsPerStep]⟩, ?_, ?_⟩
  · rw [hN]; simp only [maxFloat]; norm_num
  · rw [hN]; simp only [p]; norm_num

/-- And for a gray picture of 1024 x 1024 pixels, DB5, five steps, with `d = 10`. -/
example : let p : Params := ⟨[1024, 1024], 1, 5, 5⟩
    Real.sqrt ((p.shape.map (paddedSide p)).prod : ℕ) * 4 ≤ maxFloat ∧
      Real.sqrt ((p.shape.map (paddedSide p)).prod : ℕ) * (18 * (p.wtype + 2) * p.steps / 2 ^ 24 + 18 * p.wtype * p.steps / 2 ^ 150) ≤
        (10 : ℕ) / 255 - 1 / 2 ^ 16 := by
  intro p
  have hN : Real.sqrt ((p.shape.map (paddedSide p)).prod : ℕ) = 1024 := by
    rw [show (p.shape.map (paddedSide p)).prod = 1024 * 1024 by decide, Nat.cast_mul]
    exact Real.sqrt_mul_self (x := 1024) (by norm_num)
  refine ⟨?_, ?_⟩
  · rw [hN]; simp only [maxFloat]; norm_num
  · rw [hN]; simp only [p]; norm_num

end WB.Props
