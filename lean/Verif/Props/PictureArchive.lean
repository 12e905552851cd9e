import Verif.Model.BitsCodec
import Verif.Spec.PictureArchive
import Verif.Props.FloatDenoise
import Verif.Props.ImageFloat

/-!
C110: pictures that are imported, stored in an archive and exported again, on the bit patterns the program stores.
-/

namespace WB.Props

open Finset Spec

/-- A JPEG `blob` that the library reads as `img` is imported (RGB or gray) into a buffer of its size with the denoiser `den`, serialized over the bytes
`oldA`, parsed (if the archive fits in `Mem` bytes) and exported over the bytes `oldE`; every step succeeds. The picture `img'` that is handed to the
JPEG library has the size of `img`; in every channel, for every `d`, the number of pixels that are more than `d` below or `d` or more above those of `img` is
at most `N (bound / (d/255 - 2^-16))²`, and the root of the sum of squares of the pixel differences is at most
`255 √N bound + (1 + 1/256) √(pixels)`. `N` is the number of coefficients of a channel. -/
def PictureReturns (r : Rounding) (o : FloatOps) (e : Ext) (Mem level : ℕ) (load : Bytes → Outcome CImg) (save : CImg → ℕ → ℤ → Outcome Bytes)
    (rgbHsl hslRgb : Bits o → Bits o → Bits o → Outcome (Bits o × Bits o × Bits o)) (kind : CodecKind) (quality : ℤ) (b : Buffer F32)
    (den : Denoiser F32) (blob oldA oldE : Bytes) (img : CImg) (bound : ℝ) : Prop :=
  ∃ decs archive decs' img',
    importFromString (α := Bits o) (bitsKit r o) (jpegCodec (bitsExt r o load save rgbHsl hslRgb) kind quality) b blob den 0 = .ok decs .kOk ∧
    serialize e ⟨b.params, decs⟩ oldA level = .ok (true, archive) ∧
    (archive.length ≤ Mem → parse e archive = .ok (some ⟨b.params, decs'⟩)) ∧
    img'.width = img.width ∧ img'.height = img.height ∧ img'.spectrum = kind.needs ∧
    (∀ c < kind.needs,
      (∀ d, 1 ≤ d → farPixels img img' d c * (d / 255 - 1 / 2 ^ 16) ^ 2 ≤ ((b.params.shape.map (paddedSide b.params)).prod : ℕ) * bound ^ 2) ∧
      Real.sqrt (pixelSquares img img' c) ≤ 255 * (Real.sqrt ((b.params.shape.map (paddedSide b.params)).prod : ℕ) * bound) +
        257 / 256 * Real.sqrt (img.width * img.height)) ∧
    ∀ out, save img' ((kind.needs * img.height * img.width + 1000) % 2 ^ 32) quality = .ok out →
      exportToString (α := Bits o) (bitsKit r o) (jpegCodec (bitsExt r o load save rgbHsl hslRgb) kind quality) ⟨b.params, decs'⟩ oldE 0 = .ok out .kOk

theorem gap_le {r : Rounding} (hr : r.IEEE) {k k' : UInt8} {x : ℝ} (h : toPixel r x = .ok k') :
    |(k'.toNat : ℝ) - k.toNat| ≤ 255 * |x - ofPixel r k| + 257 / 256 := by
  obtain ⟨d, hd⟩ : ∃ d : ℕ, (d : ℝ) = |(k'.toNat : ℝ) - k.toNat| ∧ (k'.toNat = k.toNat + d ∨ k.toNat = k'.toNat + d) := by
    rcases Nat.le_total k'.toNat k.toNat with h | h
    · refine ⟨k.toNat - k'.toNat, ?_, by omega⟩
      rw [Nat.cast_sub h, abs_of_nonpos (sub_nonpos.2 (by exact_mod_cast h))]
      ring
    · refine ⟨k'.toNat - k.toNat, ?_, by omega⟩
      rw [Nat.cast_sub h, abs_of_nonneg (sub_nonneg.2 (by exact_mod_cast h))]
  rw [← hd.1]
  rcases Nat.lt_or_ge d 2 with h2 | h2
  · have : (d : ℝ) ≤ 1 := by exact_mod_cast Nat.le_of_lt_succ h2
    have := abs_nonneg (x - ofPixel r k)
    linarith
  · have h3 : ¬ |x - ofPixel r k| ≤ ((d - 1 : ℕ) : ℝ) / 255 - 1 / 2 ^ 16 := by
      intro hx
      obtain ⟨k2, e1, e2, e3⟩ := toPixel_near hr k (by omega) hx
      rw [h] at e1
      cases e1
      omega
    rw [Nat.cast_sub (by omega)] at h3
    push Not at h3
    rw [div_sub' (by norm_num), div_lt_iff₀ (by norm_num)] at h3
    norm_num at h3 ⊢
    linarith

theorem sample_finite {r : Rounding} (hr : r.IEEE) {o : FloatOps} (ho : o.Correct r) (k : UInt8) :
    finiteBits (o.store (r.toDouble (k.toNat / 255))) ∧ ((number (o.store (r.toDouble (k.toNat / 255))) : ℚ) : ℝ) = ofPixel r k ∧ |ofPixel r k| ≤ 1 := by
  have h1 : |ofPixel r k| ≤ 1 := by
    have := pixel_back hr k.toNat k.toNat_lt
    unfold ofPixel
    rw [abs_of_nonneg this.1]
    exact this.2.1
  have h2 := ho.store (r.toDouble (k.toNat / 255)) (le_trans h1 (by simp only [maxFloat]; norm_num))
  exact ⟨h2.1, h2.2, h1⟩

set_option maxHeartbeats 1000000 in
/-- A signal round trip within a bound is a picture round trip within this bound. -/
theorem picture_returns {r : Rounding} (hr : r.IEEE) {o : FloatOps} (ho : o.Correct r) {e : Ext} {Mem level : ℕ}
    (load : Bytes → Outcome CImg) (save : CImg → ℕ → ℤ → Outcome Bytes)
    (rgbHsl hslRgb : Bits o → Bits o → Bits o → Outcome (Bits o × Bits o × Bits o)) (kind : CodecKind) (hkind : kind ≠ .hsl) (quality : ℤ)
    (b : Buffer F32) (hn : b.params.signalNumber = kind.needs) (den : Denoiser F32)
    (blob oldA oldE : Bytes) (hblob : blob ≠ []) (img : CImg) (hload : load blob = .ok img) (hs : kind.needs ≤ img.spectrum)
    (hsh : b.params.shape = [img.width, img.height]) (hw : 0 < img.width) (hh : 0 < img.height) {bound : ℝ} (hb0 : 0 ≤ bound)
    (hret : ∀ data : List (Mat F32), IsSignal b.params data →
      (∀ x ∈ data, ∀ i < x.rows, ∀ j < x.cols, finiteBits (x.get i j) ∧ |((number (x.get i j) : ℚ) : ℝ)| ≤ 1) →
      ReturnsWithin r o e Mem level oldA b den data bound) :
    PictureReturns r o e Mem level load save rgbHsl hslRgb kind quality b den blob oldA oldE img bound := by
  set J := bitsExt r o load save rgbHsl hslRgb with hJ
  have hneeds : kind.needs = 1 ∨ kind.needs = 3 := by cases kind <;> simp [CodecKind.needs]
  have hcn : kind.channels = kind.needs := by cases kind <;> rfl
  -- decode
  have hdec : ∀ blob im sc, codecDecode J kind blob im sc =
      codecDecode (bitsExt r o load save (fun x y z => .ok (x, y, z)) hslRgb) kind blob im sc := by
    intro blob im sc
    cases kind with
    | hsl => exact absurd rfl hkind
    | rgb => rfl
    | gray => rfl
  obtain ⟨im, d1, d2, d3, d4, d5⟩ := C44_decode (bitsExt r o load save (fun x y z => .ok (x, y, z)) hslRgb) (fun x y z => (x, y, z))
    (fun a b c => rfl) kind blob [] 0 (by norm_num) hblob img hload hs
  rw [← hdec] at d1
  rw [List.length_nil, Nat.zero_max, Nat.zero_add] at d2
  have hent : ∀ i m, im[i]? = some m → m.rows = img.height ∧ m.cols = img.width ∧ i < kind.needs ∧
      ∀ y < img.height, ∀ x < img.width, ∃ p : UInt8, img.at x y i = .ok p ∧ m.get y x = o.store (r.toDouble (p.toNat / 255)) := by
    intro i m hm
    have hi : i < im.length := (List.getElem?_eq_some_iff.1 hm).1
    rw [d2] at hi
    obtain ⟨m', e1, e2, e3, e4⟩ := d5 i hi
    rw [Nat.zero_add, hm] at e1
    cases e1
    refine ⟨e2, e3, hi, ?_⟩
    intro y hy x hx
    obtain ⟨px, p1, p2⟩ := e4 y hy x hx
    refine ⟨px i, p1 i hi, ?_⟩
    rw [p2]
    cases kind with
    | hsl => exact absurd rfl hkind
    | rgb => rfl
    | gray => rfl
  have hshape : ∀ m ∈ im, HasShape b.params.shape m := by
    intro m hm
    obtain ⟨i, hi⟩ := List.getElem?_of_mem hm
    obtain ⟨e1, e2, -⟩ := hent i m hi
    rw [hsh]; exact ⟨e1, e2⟩
  have hsig : IsSignal (α := F32) b.params im := ⟨by rw [hn]; exact d2, hshape⟩
  -- the signal
  obtain ⟨decs, archive, decs', im', g1, g2, g3, g4, g5, g6⟩ := hret im hsig (by
    intro m hm i hi j hj
    obtain ⟨n, hn'⟩ := List.getElem?_of_mem hm
    obtain ⟨e1, e2, -, e4⟩ := hent n m hn'
    obtain ⟨p, -, p2⟩ := e4 i (e1 ▸ hi) j (e2 ▸ hj)
    obtain ⟨s1, s2, s3⟩ := sample_finite hr ho p
    have p2' : m.get i j = o.store (r.toDouble (p.toNat / 255)) := p2
    rw [p2']
    exact ⟨s1, by rw [s2]; exact s3⟩)
  have hlen : b.params.shape.length = 2 := by rw [hsh]; rfl
  have hview : (View.mk (0 : ℕ) (im.length : ℕ) false).decompose (α := Bits o) (bitsKit r o) b im den = .ok decs true := by
    unfold View.decompose View.checkRange
    have e1 : -2 ^ 31 ≤ ((0 : ℕ) : ℤ) + (im.length : ℤ) ∧ ((0 : ℕ) : ℤ) + (im.length : ℤ) < 2 ^ 31 := by
      rw [d2]; constructor <;> omega
    have e2 : (0 ≤ ((0 : ℕ) : ℤ) + (im.length : ℤ) ∧ ((0 : ℕ) : ℤ) + (im.length : ℤ) ≤ (b.params.signalNumber : ℤ)) := by
      rw [d2, hn]; constructor <;> omega
    simp only [if_pos e1, e2, and_self, decide_true, Run.lift_ok, Run.bind_ok, if_true]
    rw [d2, ← hn]
    exact g1
  -- the samples of the result
  have hsmp : ∀ c < kind.needs, ∃ (m m' : Mat F32), im[c]? = some m ∧ im'[c]? = some m' ∧ m'.rows = img.height ∧ m'.cols = img.width ∧
      m.rows = img.height ∧ m.cols = img.width ∧
      Real.sqrt (sqDist (matNumbers m') (matNumbers m)) ≤ Real.sqrt ((b.params.shape.map (paddedSide b.params)).prod : ℕ) * bound ∧
      ∀ x < img.width, ∀ y < img.height, ∃ k k' : UInt8, img.at x y c = .ok k ∧ ((number (m.get y x) : ℚ) : ℝ) = ofPixel r k ∧
        toPixelBits r (o := o) (colourSample kind (fun x y z => (x, y, z)) (show List (Mat (Bits o)) from im') 0 y x c) = .ok k' ∧
        toPixel r ((number (m'.get y x) : ℚ) : ℝ) = .ok k' := by
    intro c hc
    obtain ⟨m, e1, -⟩ := d5 c hc
    rw [Nat.zero_add] at e1
    obtain ⟨e2, e3, -, e4⟩ := hent c m e1
    obtain ⟨m', f1, f2, f3, f4, f5⟩ := g6 c m e1
    refine ⟨m, m', e1, f1, f2.trans e2, f3.trans e3, e2, e3, f5, ?_⟩
    intro x hx y hy
    obtain ⟨p, p1, p2⟩ := e4 y hy x hx
    obtain ⟨s1, s2, s3⟩ := sample_finite hr ho p
    have hcs : colourSample kind (fun x y z => (x, y, z)) (show List (Mat (Bits o)) from im') 0 y x c = m'.get y x := by
      have f1' : (show List (Mat (Bits o)) from im')[c]? = some m' := f1
      cases kind with
      | hsl => exact absurd rfl hkind
      | rgb => simp only [colourSample, sampleAt, List.getD, Nat.zero_add, f1']; rfl
      | gray => simp only [colourSample, sampleAt, List.getD, Nat.zero_add, f1']; rfl
    rw [hcs]
    have hf := f4 y (by rw [f2, e2]; exact hy) x (by rw [f3, e3]; exact hx)
    obtain ⟨k', hk'⟩ := (C43_clamped_and_monotone r hr).1 ((number (m'.get y x) : ℚ) : ℝ)
    refine ⟨p, k', p1, ?_, ?_, hk'⟩
    · rw [← s2]
      exact congrArg (fun z : F32 => ((number z : ℚ) : ℝ)) p2
    · exact (congrArg (toPixel r) (if_neg fun h => absurd hf (by unfold finiteBits; rw [h.1]; omega))).trans hk'
  -- encode
  have hEnc : Encodable kind (show List (Mat (Bits o)) from im') 0 img.height img.width := by
    refine ⟨by omega, by omega, ?_⟩
    intro c hc
    obtain ⟨m, m', -, h1, h2, h3, -⟩ := hsmp c hc
    exact ⟨m', by rw [Nat.zero_add]; exact h1, h2, h3⟩
  obtain ⟨img', i1, i2, i3, i4, i5, -⟩ := C44_encode_accepts J (fun s => match toPixelBits r s with | .ok k => k | _ => 0) (fun x y z => (x, y, z)) kind
    quality (show List (Mat (Bits o)) from im') oldE 0 img.height img.width (by norm_num) hEnc (fun x hx y hy c hc => by
      obtain ⟨m, m', -, -, -, -, -, -, -, h⟩ := hsmp c hc
      obtain ⟨_, k', _, _, h2, _⟩ := h x hx y hy
      show toPixelBits r _ = _
      rw [h2]) (fun h => absurd h hkind)
  have him' : List.length im' = kind.needs := g5.trans d2
  refine ⟨decs, archive, decs', img', ?_, g2, g3, i1, i2, i3, ?_, ?_⟩
  · rw [import_start (α := Bits o) (bitsKit r o) (jpegCodec J kind quality) b blob den 0 im d1 (toInt32_nat (by norm_num)) (toInt32_nat (by omega))]
    rw [hview]; rfl
  · intro c hc
    obtain ⟨m, m', -, -, h2, h3, h4, h5, h6, h⟩ := hsmp c hc
    have hN0 : (0 : ℝ) ≤ ((b.params.shape.map (paddedSide b.params)).prod : ℕ) := by positivity
    -- the sum of squares as one sum over the pixels
    have hsq : sqDist (matNumbers m') (matNumbers m) = ∑ q ∈ range img.width ×ˢ range img.height,
        (((number (m'.get q.2 q.1) : ℚ) : ℝ) - ((number (m.get q.2 q.1) : ℚ) : ℝ)) ^ 2 := by
      rw [sum_product_right]
      unfold sqDist
      refine sum_congr (by rw [show (matNumbers m').rows = m'.rows from rfl, h2]) fun y hy => ?_
      refine sum_congr (by rw [show (matNumbers m').cols = m'.cols from rfl, h3]) fun x hx => ?_
      rw [mem_range] at hx hy
      unfold matNumbers
      rw [Mat.get_map _ m' (by rw [h2]; exact hy) (by rw [h3]; exact hx), Mat.get_map _ m (by rw [h4]; exact hy) (by rw [h5]; exact hx)]
    have h6' : sqDist (matNumbers m') (matNumbers m) ≤ ((b.params.shape.map (paddedSide b.params)).prod : ℕ) * bound ^ 2 := by
      have := Real.sqrt_le_left (by positivity) |>.1 h6
      rwa [mul_pow, Real.sq_sqrt hN0] at this
    have hat : ∀ x < img.width, ∀ y < img.height, ∃ k k' : UInt8, img.at x y c = .ok k ∧ img'.at x y c = .ok k' ∧
        ((number (m.get y x) : ℚ) : ℝ) = ofPixel r k ∧ toPixel r ((number (m'.get y x) : ℚ) : ℝ) = .ok k' := by
      intro x hx y hy
      obtain ⟨k, k', j1, j2, j3, j4⟩ := h x hx y hy
      refine ⟨k, k', j1, ?_, j2, j4⟩
      rw [i4 x hx y hy c hc, j3]
    constructor
    · classical
      intro d hd
      refine le_trans ?_ h6'
      rw [hsq]
      unfold farPixels
      rw [← nsmul_eq_mul]
      refine (card_nsmul_le_sum _ (fun q : ℕ × ℕ => (((number (m'.get q.2 q.1) : ℚ) : ℝ) - ((number (m.get q.2 q.1) : ℚ) : ℝ)) ^ 2) _ ?_).trans
        (sum_le_sum_of_subset_of_nonneg (filter_subset _ _) fun _ _ _ => sq_nonneg _)
      intro q hq
      rw [mem_filter, mem_product, mem_range, mem_range] at hq
      obtain ⟨⟨q1, q2⟩, q3⟩ := hq
      obtain ⟨k, k', j1, j2, j3, j4⟩ := hat q.1 q1 q.2 q2
      rw [j3, ← sq_abs (_ - ofPixel r k)]
      have hd' : (1 : ℝ) ≤ d := by exact_mod_cast hd
      refine pow_le_pow_left₀ (by rw [sub_nonneg, le_div_iff₀ (by norm_num)]; norm_num; linarith) (le_of_not_ge fun hle => q3 ?_) 2
      obtain ⟨k2, l1, l2, l3⟩ := toPixel_near hr k hd hle
      rw [j4] at l1
      cases l1
      exact ⟨k, k', j1, j2, l2, l3⟩
    · have e1 : Real.sqrt (pixelSquares img img' c) = len (range img.width ×ˢ range img.height)
          (fun q => pixelGap (img.at q.1 q.2 c) (img'.at q.1 q.2 c)) := by
        unfold pixelSquares len
        exact congrArg Real.sqrt (sum_congr rfl fun _ _ => sq _)
      rw [e1]
      have e2 : len (range img.width ×ˢ range img.height) (fun q => |((number (m'.get q.2 q.1) : ℚ) : ℝ) - ((number (m.get q.2 q.1) : ℚ) : ℝ)|) ≤
          Real.sqrt ((b.params.shape.map (paddedSide b.params)).prod : ℕ) * bound := by
        refine le_trans (le_of_eq ?_) h6
        rw [hsq]
        unfold len
        exact congrArg Real.sqrt (sum_congr rfl fun q _ => by rw [← sq, sq_abs])
      refine (len_mono (g := fun q => 255 * |((number (m'.get q.2 q.1) : ℚ) : ℝ) - ((number (m.get q.2 q.1) : ℚ) : ℝ)| + 257 / 256) ?_).trans
        ((len_add _ _ _).trans ?_)
      · intro q hq
        rw [mem_product, mem_range, mem_range] at hq
        obtain ⟨k, k', j1, j2, j3, j4⟩ := hat q.1 hq.1 q.2 hq.2
        rw [j1, j2, j3]
        exact gap_le hr j4
      · rw [len_smul, len_const _ _ (by norm_num), abs_of_nonneg (by norm_num)]
        exact add_le_add (mul_le_mul_of_nonneg_left e2 (by norm_num)) le_rfl
  · intro out hout
    have henc := i5 out (by
      have : (show List (Mat (Bits o)) from im').length = kind.needs := him'
      rw [this]; exact hout)
    have hexp := (C45_export_to_string (α := Bits o) (bitsKit r o) (jpegCodec J kind quality) ⟨b.params, decs'⟩ oldE 0 (by
      show 0 + kind.channels < _; rw [hcn]; omega)).2 im' (by show 0 + kind.channels ≤ b.params.signalNumber; rw [hcn, hn]; omega) g4
    apply hexp.1 out
    show codecEncode J kind quality ((List.drop 0 im').take kind.channels) oldE 0 = _
    rw [List.drop_zero, hcn, ← him', List.take_length]
    exact henc

/-- A picture of fewer than 2^31 coefficients. -/
theorem picture_sizes {p : Params} (hv : ValidParams p) {w h : ℕ} (hsh : p.shape = [w, h]) (hw : 0 < w) (hh : 0 < h)
    (hN : (p.shape.map (paddedSide p)).prod < 2 ^ 31) :
    p.steps ≤ 2000 ∧ (∀ n ∈ p.shape, 0 < n ∧ n < 2 ^ 64) ∧ Real.sqrt ((p.shape.map (paddedSide p)).prod : ℕ) ≤ 2 ^ 16 := by
  have hR : Real.sqrt ((p.shape.map (paddedSide p)).prod : ℕ) ≤ 2 ^ 16 := by
    refine Real.sqrt_le_iff.2 ⟨by norm_num, ?_⟩
    have : (((p.shape.map (paddedSide p)).prod : ℕ) : ℝ) ≤ 2147483648 := by exact_mod_cast hN.le
    exact this.trans (by norm_num)
  have ge : ∀ n, n ≤ paddedSide p n := by
    intro n
    unfold paddedSide
    split_ifs
    · exact le_rfl
    · have h1 := Nat.div_add_mod (n + 2 ^ p.steps - 1) (2 ^ p.steps)
      have h2 := Nat.mod_lt (n + 2 ^ p.steps - 1) (show 0 < 2 ^ p.steps by positivity)
      rw [mul_comm] at h1
      omega
  rw [hsh] at hN ⊢
  simp only [List.map_cons, List.map_nil, List.prod_cons, List.prod_nil, mul_one] at hN
  have p1 : 0 < paddedSide p w := lt_of_lt_of_le hw (ge w)
  have p2 : 0 < paddedSide p h := lt_of_lt_of_le hh (ge h)
  have l1 : paddedSide p w < 2 ^ 31 := lt_of_le_of_lt (Nat.le_mul_of_pos_right _ p2) hN
  have l2 : paddedSide p h < 2 ^ 31 := lt_of_le_of_lt (Nat.le_mul_of_pos_left _ p1) hN
  have hs := side_pos hv hw (le_refl p.steps)
  have hs := (Nat.div_pos_iff.1 hs).2
  refine ⟨?_, ?_, by rw [← hsh]; exact hR⟩
  · by_contra hlt
    have : 2 ^ 31 ≤ 2 ^ p.steps := Nat.pow_le_pow_right (by norm_num) (by omega)
    omega
  · intro n hn
    have g1 := ge w
    have g2 := ge h
    simp only [List.mem_cons, List.not_mem_nil, or_false] at hn
    rcases hn with rfl | rfl
    · exact ⟨hw, by omega⟩
    · exact ⟨hh, by omega⟩

/-- C110. `Encode` turns every bit pattern into a pixel: 255 for NaN and for +∞ (`0x7f800000`), 0 for -∞ (`0xff800000`), and larger numbers never into
smaller pixels. -/
theorem C110_every_sample (r : Rounding) (hr : r.IEEE) (o : FloatOps) :
    (∀ x : Bits o, ∃ k, toPixelBits r x = .ok k) ∧ (∀ x : Bits o, isNaN x → toPixelBits r x = .ok 255) ∧
    toPixelBits r (o := o) 0x7f800000#32 = .ok 255 ∧ toPixelBits r (o := o) 0xff800000#32 = .ok 0 ∧
    ∀ (x y : Bits o) (j k : UInt8), finiteBits x → finiteBits y → number x ≤ number y → toPixelBits r x = .ok j → toPixelBits r y = .ok k →
      j.toNat ≤ k.toNat := by
  obtain ⟨h1, h2, h3, h4⟩ := C43_clamped_and_monotone r hr
  have hf : ∀ x : Bits o, finiteBits x → toPixelBits r x = toPixel r ((number x : ℚ) : ℝ) := fun x hx =>
    congrArg (toPixel r) (if_neg fun h => absurd hx (by unfold finiteBits; rw [h.1]; omega))
  refine ⟨fun x => h1 _, fun x hx => ?_, ?_, ?_, ?_⟩
  · exact (congrArg (toPixel r) (if_pos hx)).trans (h4 1 le_rfl)
  · refine (congrArg (toPixel r) (if_neg fun h => absurd h.2 (by decide))).trans (h4 _ ?_)
    show (1 : ℝ) ≤ ((number 0x7f800000#32 : ℚ) : ℝ)
    have : (1 : ℚ) ≤ number 0x7f800000#32 := by norm_num [number, magnitude]
    exact_mod_cast this
  · refine (congrArg (toPixel r) (if_neg fun h => absurd h.2 (by decide))).trans (h3 _ ?_)
    show ((number 0xff800000#32 : ℚ) : ℝ) ≤ 0
    have : number 0xff800000#32 ≤ (0 : ℚ) := by norm_num [number, magnitude]
    exact_mod_cast this
  · intro x y j k hx hy hxy hj hk
    rw [hf x hx] at hj
    rw [hf y hy] at hk
    exact h2 _ _ j k (by exact_mod_cast hxy) hj hk


/-- C110 without denoising: a JPEG picture (RGB or gray) is imported, serialized with a level up to 24, parsed and exported, everything on the stored bit
patterns, every operation in IEEE `float`. `PictureReturns` says what is the same and how many pixels differ. -/
theorem C110_no_denoiser (r : Rounding) (hr : r.IEEE) (o : FloatOps) (ho : o.Correct r) (e : Ext) (hcod : CodecsWork e truncBits)
    (Mem : ℕ) (hroom : Room e Mem) (level : ℕ) (h24 : level ≤ 24)
    (load : Bytes → Outcome CImg) (save : CImg → ℕ → ℤ → Outcome Bytes)
    (rgbHsl hslRgb : Bits o → Bits o → Bits o → Outcome (Bits o × Bits o × Bits o)) (kind : CodecKind) (hkind : kind ≠ .hsl) (quality : ℤ)
    (b : Buffer F32) (hb : WellFormed b) (hwt : b.params.wtype ≤ 5) (hn : b.params.signalNumber = kind.needs)
    (hsub : b.params.signalNumber * subbandCount b.params ≤ Mem)
    (hN : (b.params.shape.map (paddedSide b.params)).prod < 2 ^ 31) (hNM : (b.params.shape.map (paddedSide b.params)).prod ≤ Mem)
    (blob oldA oldE : Bytes) (hblob : blob ≠ []) (img : CImg) (hload : load blob = .ok img) (hs : kind.needs ≤ img.spectrum)
    (hsh : b.params.shape = [img.width, img.height]) (hw : 0 < img.width) (hh : 0 < img.height) :
    PictureReturns r o e Mem level load save rgbHsl hslRgb kind quality b nullDenoiser blob oldA oldE img
      (18 * (b.params.wtype + 2) * b.params.steps / 2 ^ 24 + 18 * b.params.wtype * b.params.steps / 2 ^ 150 +
        lossOf level * (103 / 100 + 1 / 2 ^ 124)) := by
  obtain ⟨hK, hside, hR⟩ := picture_sizes hb.1 hsh hw hh hN
  have hL0 := lossOf_nonneg level
  have hneeds : kind.needs = 1 ∨ kind.needs = 3 := by cases kind <;> simp [CodecKind.needs]
  refine picture_returns hr ho load save rgbHsl hslRgb kind hkind quality b hn nullDenoiser blob oldA oldE hblob img hload hs hsh hw hh (by positivity) ?_
  intro data hd hM
  obtain ⟨d, bl, d', out, k1, k2, k3, k4, k5, k6⟩ := C106_archive_in_float r hr o ho e hcod Mem hroom level h24 oldA b hb hwt hK hside (by omega) (by omega)
    hsub hN hNM data hd 1 (by norm_num) hM (by
      refine (mul_le_mul_of_nonneg_right hR (by norm_num)).trans ?_
      simp only [maxFloat]
      norm_num)
  have key : ReturnsWithin r o e Mem level oldA b nullDenoiser data _ := ⟨d, bl, d', out, k1, k2, k3, k4, k5, k6⟩
  refine key.mono (le_of_eq ?_)
  rw [hsh]
  simp only [List.length_cons, List.length_nil]
  push_cast
  ring

/-- C110 for any denoiser that changes a subband by at most a share `A` of its root of the sum of squares and `B` per entry. -/
theorem C110_any_denoiser (r : Rounding) (hr : r.IEEE) (o : FloatOps) (ho : o.Correct r) (e : Ext) (hcod : CodecsWork e truncBits)
    (Mem : ℕ) (hroom : Room e Mem) (level : ℕ) (h24 : level ≤ 24)
    (load : Bytes → Outcome CImg) (save : CImg → ℕ → ℤ → Outcome Bytes)
    (rgbHsl hslRgb : Bits o → Bits o → Bits o → Outcome (Bits o × Bits o × Bits o)) (kind : CodecKind) (hkind : kind ≠ .hsl) (quality : ℤ)
    (b : Buffer F32) (hb : WellFormed b) (hwt : b.params.wtype ≤ 5) (hn : b.params.signalNumber = kind.needs)
    (hsub : b.params.signalNumber * subbandCount b.params ≤ Mem)
    (hN : (b.params.shape.map (paddedSide b.params)).prod < 2 ^ 31) (hNM : (b.params.shape.map (paddedSide b.params)).prod ≤ Mem)
    (den : Denoiser F32) (A B : ℝ) (hA : 0 ≤ A) (hA1 : A ≤ 101 / 100) (hB : 0 ≤ B) (hB1 : B ≤ 2 ^ 100)
    (hden : MovesLittle (b.params.shape.map (paddedSide b.params)).prod b.params.steps A B den)
    (blob oldA oldE : Bytes) (hblob : blob ≠ []) (img : CImg) (hload : load blob = .ok img) (hs : kind.needs ≤ img.spectrum)
    (hsh : b.params.shape = [img.width, img.height]) (hw : 0 < img.width) (hh : 0 < img.height) :
    PictureReturns r o e Mem level load save rgbHsl hslRgb kind quality b den blob oldA oldE img
      (18 * (b.params.wtype + 2) * b.params.steps / 2 ^ 24 + 18 * b.params.wtype * b.params.steps / 2 ^ 150 +
        (A + lossOf level * (1 + A)) * (103 / 100 + 1 / 2 ^ 124) + 103 / 100 * (1 + lossOf level) * B) := by
  obtain ⟨hK, hside, hR⟩ := picture_sizes hb.1 hsh hw hh hN
  have hL0 := lossOf_nonneg level
  have hneeds : kind.needs = 1 ∨ kind.needs = 3 := by cases kind <;> simp [CodecKind.needs]
  refine picture_returns hr ho load save rgbHsl hslRgb kind hkind quality b hn den blob oldA oldE hblob img hload hs hsh hw hh (by positivity) ?_
  intro data hd hM
  refine (C107_any_denoiser r hr o ho e hcod Mem hroom level h24 oldA b hb hwt hK hside (by omega) (by omega) hsub hN hNM den A B hA hA1 hB hden
    data hd 1 (by norm_num) hM (by
      refine (mul_le_mul_of_nonneg_right hR (by positivity)).trans ?_
      simp only [maxFloat]
      linarith)).mono (le_of_eq ?_)
  rw [hsh]
  simp only [List.length_cons, List.length_nil]
  push_cast
  ring

/-- C110 for `ThresholdAbsDenoiseAlgorithm<float>(a, b)`; `T` is the largest threshold. -/
theorem C110_threshold (r : Rounding) (hr : r.IEEE) (o : FloatOps) (ho : o.Correct r) (e : Ext) (hcod : CodecsWork e truncBits)
    (Mem : ℕ) (hroom : Room e Mem) (level : ℕ) (h24 : level ≤ 24)
    (load : Bytes → Outcome CImg) (save : CImg → ℕ → ℤ → Outcome Bytes)
    (rgbHsl hslRgb : Bits o → Bits o → Bits o → Outcome (Bits o × Bits o × Bits o)) (kind : CodecKind) (hkind : kind ≠ .hsl) (quality : ℤ)
    (b : Buffer F32) (hb : WellFormed b) (hwt : b.params.wtype ≤ 5) (hn : b.params.signalNumber = kind.needs)
    (hsub : b.params.signalNumber * subbandCount b.params ≤ Mem)
    (hN : (b.params.shape.map (paddedSide b.params)).prod < 2 ^ 31) (hNM : (b.params.shape.map (paddedSide b.params)).prod ≤ Mem)
    (a c : F32) (ha : finiteBits a) (hc : finiteBits c) (T : ℝ) (hT0 : 0 ≤ T) (hT1 : T ≤ 2 ^ 99)
    (hT : ∀ s < b.params.steps, |((number a : ℚ) : ℝ)| * s + |((number c : ℚ) : ℝ)| ≤ T)
    (blob oldA oldE : Bytes) (hblob : blob ≠ []) (img : CImg) (hload : load blob = .ok img) (hs : kind.needs ≤ img.spectrum)
    (hsh : b.params.shape = [img.width, img.height]) (hw : 0 < img.width) (hh : 0 < img.height) :
    PictureReturns r o e Mem level load save rgbHsl hslRgb kind quality b (bitsThreshold o a c) blob oldA oldE img
      (18 * (b.params.wtype + 2) * b.params.steps / 2 ^ 24 + 18 * b.params.wtype * b.params.steps / 2 ^ 150 +
        lossOf level * (103 / 100 + 1 / 2 ^ 124) + (1 + lossOf level) * (104 / 100 * T + 1 / 2 ^ 147)) := by
  obtain ⟨hK, hside, hR⟩ := picture_sizes hb.1 hsh hw hh hN
  have hL0 := lossOf_nonneg level
  have hneeds : kind.needs = 1 ∨ kind.needs = 3 := by cases kind <;> simp [CodecKind.needs]
  refine picture_returns hr ho load save rgbHsl hslRgb kind hkind quality b hn _ blob oldA oldE hblob img hload hs hsh hw hh (by positivity) ?_
  intro data hd hM
  refine (C107_threshold r hr o ho e hcod Mem hroom level h24 oldA b hb hwt hK hside (by omega) (by omega) hsub hN hNM a c ha hc T hT0 hT
    data hd 1 (by norm_num) hM (by
      refine (mul_le_mul_of_nonneg_right hR (by positivity)).trans ?_
      simp only [maxFloat]
      linarith)).mono (le_of_eq ?_)
  rw [hsh]
  simp only [List.length_cons, List.length_nil]
  push_cast
  ring

/-- C110 for `SimpleDenoiseAlgorithm<float>(l)`. -/
theorem C110_simple (r : Rounding) (hr : r.IEEE) (o : FloatOps) (ho : o.Correct r) (e : Ext) (hcod : CodecsWork e truncBits)
    (Mem : ℕ) (hroom : Room e Mem) (level : ℕ) (h24 : level ≤ 24)
    (load : Bytes → Outcome CImg) (save : CImg → ℕ → ℤ → Outcome Bytes)
    (rgbHsl hslRgb : Bits o → Bits o → Bits o → Outcome (Bits o × Bits o × Bits o)) (kind : CodecKind) (hkind : kind ≠ .hsl) (quality : ℤ)
    (b : Buffer F32) (hb : WellFormed b) (hwt : b.params.wtype ≤ 5) (hn : b.params.signalNumber = kind.needs)
    (hsub : b.params.signalNumber * subbandCount b.params ≤ Mem)
    (hN : (b.params.shape.map (paddedSide b.params)).prod < 2 ^ 31) (hNM : (b.params.shape.map (paddedSide b.params)).prod ≤ Mem)
    (nth1 : List (F32 × ℕ) → ℕ → List (F32 × ℕ)) (nth2 : List (F32 × ℕ × ℕ) → ℕ → List (F32 × ℕ × ℕ)) (hnth : NthOkBits o nth1 nth2)
    (l : F32) (hl : finiteBits l) (h0 : (0 : ℝ) ≤ (number l : ℚ)) (h1 : ((number l : ℚ) : ℝ) ≤ 1) (den : Denoiser F32)
    (hden : IsSimpleBits o (bitsSimple o nth1 nth2) l den)
    (blob oldA oldE : Bytes) (hblob : blob ≠ []) (img : CImg) (hload : load blob = .ok img) (hs : kind.needs ≤ img.spectrum)
    (hsh : b.params.shape = [img.width, img.height]) (hw : 0 < img.width) (hh : 0 < img.height) :
    PictureReturns r o e Mem level load save rgbHsl hslRgb kind quality b den blob oldA oldE img
      (18 * (b.params.wtype + 2) * b.params.steps / 2 ^ 24 + 18 * b.params.wtype * b.params.steps / 2 ^ 150 +
        (Real.sqrt (number l : ℚ) + lossOf level * (1 + Real.sqrt (number l : ℚ))) * (104 / 100 + 1 / 2 ^ 123)) := by
  obtain ⟨hK, hside, hR⟩ := picture_sizes hb.1 hsh hw hh hN
  have hL0 := lossOf_nonneg level
  have hneeds : kind.needs = 1 ∨ kind.needs = 3 := by cases kind <;> simp [CodecKind.needs]
  refine picture_returns hr ho load save rgbHsl hslRgb kind hkind quality b hn _ blob oldA oldE hblob img hload hs hsh hw hh (by positivity) ?_
  intro data hd hM
  refine (C107_simple r hr o ho e hcod Mem hroom level h24 oldA b hb hwt hK hside (by omega) (by omega) hsub hN hNM nth1 nth2 hnth l hl h0 h1 den hden
    data hd 1 (by norm_num) hM (by
      refine (mul_le_mul_of_nonneg_right hR (by positivity)).trans ?_
      simp only [maxFloat]
      norm_num)).mono (le_of_eq ?_)
  rw [hsh]
  simp only [List.length_cons, List.length_nil]
  push_cast
  ring

/-- A gray picture of 1024 × 1024 pixels, DB5, five steps, level 10, no denoiser, the codecs of `exExt` and a JPEG library that reads the picture from any
bytes: at most 700 of the 1048576 pixels become more than one darker or brighter at all, every pixel stays within 27, and the root mean square of the pixel
differences is at most 1.04. -/
example (r : Rounding) (hr : r.IEEE) (o : FloatOps) (ho : o.Correct r) (img : CImg) (hi : img.width = 1024 ∧ img.height = 1024 ∧ img.spectrum = 1)
    (save : CImg → ℕ → ℤ → Outcome Bytes) :
    let p : Params := ⟨[1024, 1024], 1, 5, 5⟩
    let J := jpegCodec (bitsExt r o (fun _ => .ok img) save (fun x y z => .ok (x, y, z)) (fun x y z => .ok (x, y, z))) .gray 100
    ∃ decs archive decs' img', importFromString (α := Bits o) (bitsKit r o) J ⟨p, [List.replicate 16 Mat.empty]⟩ [0] nullDenoiser 0 = .ok decs .kOk ∧
      serialize exExt ⟨p, decs⟩ [] 10 = .ok (true, archive) ∧ (archive.length ≤ 2 ^ 40 → parse exExt archive = .ok (some ⟨p, decs'⟩)) ∧
      farPixels img img' 1 0 ≤ 700 ∧ farPixels img img' 27 0 = 0 ∧ Real.sqrt (pixelSquares img img' 0) ≤ 104 / 100 * 1024 := by
  intro p J
  have hNe : (p.shape.map (paddedSide p)).prod = 1024 * 1024 := by decide
  have hN : Real.sqrt ((p.shape.map (paddedSide p)).prod : ℕ) = 1024 := by
    rw [hNe, Nat.cast_mul]
    exact Real.sqrt_mul_self (x := 1024) (by norm_num)
  have hL : lossOf 10 = 1 / 2 ^ 14 := by
    rw [lossOf, if_neg (by norm_num)]
    norm_num
  obtain ⟨decs, archive, decs', img', k1, k2, k3, -, -, -, k4, -⟩ := C110_no_denoiser r hr o ho exExt (exTrunc_eq ▸ exExt_works) (2 ^ 40) (fun _ _ _ => rfl)
    10 (by norm_num) (fun _ => .ok img) save (fun x y z => .ok (x, y, z)) (fun x y z => .ok (x, y, z)) .gray (by decide) 100
    (Buffer.mk p [List.replicate 16 Mat.empty])
    ⟨⟨by simp [p], by simp [p], by simp [p]⟩, by simp [p], by simp [p, subbandCount, detailsPerStep]⟩ (by simp [p]) rfl
    (by simp [p, subbandCount, detailsPerStep]) (by show (p.shape.map (paddedSide p)).prod < _; rw [hNe]; norm_num)
    (by show (p.shape.map (paddedSide p)).prod ≤ _; rw [hNe]; norm_num) [0] [] [] (by simp) img rfl (by rw [hi.2.2]; exact le_rfl)
    (by rw [hi.1, hi.2.1]) (by rw [hi.1]; norm_num) (by rw [hi.2.1]; norm_num)
  obtain ⟨k5, k6⟩ := k4 0 (by decide)
  have hbd : (18 * ((p.wtype : ℝ) + 2) * p.steps / 2 ^ 24 + 18 * p.wtype * p.steps / 2 ^ 150 + lossOf 10 * (103 / 100 + 1 / 2 ^ 124)) ≤ 101 / 1000000 := by
    rw [hL]
    simp only [p]
    norm_num
  have hbd0 : 0 ≤ (18 * ((p.wtype : ℝ) + 2) * p.steps / 2 ^ 24 + 18 * p.wtype * p.steps / 2 ^ 150 + lossOf 10 * (103 / 100 + 1 / 2 ^ 124)) := by
    rw [hL]
    positivity
  generalize (18 * ((p.wtype : ℝ) + 2) * p.steps / 2 ^ 24 + 18 * p.wtype * p.steps / 2 ^ 150 + lossOf 10 * (103 / 100 + 1 / 2 ^ 124)) = B at k5 k6 hbd hbd0
  have hB2 : B ^ 2 ≤ (101 / 1000000) ^ 2 := pow_le_pow_left₀ hbd0 hbd 2
  refine ⟨decs, archive, decs', img', k1, k2, k3, ?_, ?_, ?_⟩
  · have := k5 1 le_rfl
    rw [hNe] at this
    by_contra hlt
    have h1 : (701 : ℝ) ≤ farPixels img img' 1 0 := by exact_mod_cast not_le.1 hlt
    norm_num at this
    nlinarith
  · have := k5 27 (by norm_num)
    rw [hNe] at this
    by_contra hne
    have h1 : (1 : ℝ) ≤ farPixels img img' 27 0 := by exact_mod_cast Nat.one_le_iff_ne_zero.2 hne
    norm_num at this
    nlinarith
  · refine k6.trans ?_
    rw [hN, hi.1, hi.2.1]
    have : Real.sqrt (((1024 : ℕ) : ℝ) * (1024 : ℕ)) = 1024 := by
      push_cast
      exact Real.sqrt_mul_self (by norm_num)
    rw [this]
    linarith

end WB.Props
