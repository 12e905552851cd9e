import Verif.Proof.FusedColour
import Verif.Props.AnyOrder
import Verif.Props.HslArchive

/-!
C124: colours and HSL pictures when the program fuses products and sums and orders its sums as it likes.
-/

namespace WB.Props

open Finset Spec

variable {r : Rounding} {o : FusedOps} {dv : F32 → F32 → F32}

/-- C124. Where nothing is fused the conversion is that of C113. -/
theorem C124_unfused (h s l : Bits o.toFloatOps) : hslToRgbFused r dv (fun _ => false) h s l = hslToRgbBits r dv h s l := by
  simp only [hslToRgbFused, hslToRgbBits, hueRampFused, hueRampBits, Bool.false_eq_true, and_false, if_false]

/-- Changed colours on bit patterns. -/
theorem fused_back (hr : r.IEEE) (ho : o.Correct r) (hdv : DivCorrect r dv) (w : Fusion → Bool) {k1 k2 k3 : UInt8} {H S L ε : ℝ}
    {h s l : Bits o.toFloatOps} (st : StandsFor (1 / 2 ^ 23) H S L (ofPixel r k1, ofPixel r k2, ofPixel r k3)) (hε : ε ≤ 1 / 100)
    (fh : finiteBits h) (fs : finiteBits s) (fl : finiteBits l) (dh : |h.num - H| ≤ ε) (ds : |s.num - S| ≤ ε) (dl : |l.num - L| ≤ ε) :
    ∀ c < 3, finiteBits (comp c (hslToRgbFused r dv w h s l)) ∧
      |(comp c (hslToRgbFused r dv w h s l)).num - comp c (ofPixel r k1, ofPixel r k2, ofPixel r k3)| ≤ 9 * ε + 1 / 7400 := by
  obtain ⟨b1, b2, b3, -⟩ := st.bound (by norm_num) (by norm_num)
  obtain ⟨w1, w2, w3⟩ := hsl_move_fused hr w st hε dh ds dl
  have key : ∀ {x v : ℝ}, |x - v| ≤ ε → |v| ≤ 1 + 1 / 1000 → |x| ≤ 2 ^ 10 := by
    intro x v h1 h2
    have := abs_sub_abs_le_abs_sub x v
    norm_num
    linarith
  obtain ⟨p1, p2, p3⟩ := rep_hslToRgbW hr ho hdv w (h := h) (s := s) (l := l) ⟨fh, rfl, key dh b1⟩ ⟨fs, rfl, key ds b2⟩ ⟨fl, rfl, key dl b3⟩
  intro c hc
  rcases (by omega : c = 0 ∨ c = 1 ∨ c = 2) with rfl | rfl | rfl
  · exact ⟨p1.1, by show |Bits.num (hslToRgbFused r dv w h s l).1 - _| ≤ _; rw [p1.2.1]; exact w1⟩
  · exact ⟨p2.1, by show |Bits.num (hslToRgbFused r dv w h s l).2.1 - _| ≤ _; rw [p2.2.1]; exact w2⟩
  · exact ⟨p3.1, by show |Bits.num (hslToRgbFused r dv w h s l).2.2 - _| ≤ _; rw [p3.2.1]; exact w3⟩

/-- C124, colours. As C113: if the HSL values of a pixel are changed by at most `ε`, the colour they are converted back to consists of numbers that differ from
the samples of the pixel by at most `9 ε + 1/7400`, wherever the compiler has fused a product with a sum. Without fusing it is `9 ε + 1/10000`. -/
theorem C124_changed_values (r : Rounding) (hr : r.IEEE) (o : FusedOps) (ho : o.Correct r) (dv : F32 → F32 → F32) (hdv : DivCorrect r dv)
    (w : Fusion → Bool) (k1 k2 k3 : UInt8) :
    let hsl := rgbToHslBits dv (pixelBits r o.toFloatOps k1) (pixelBits r o.toFloatOps k2) (pixelBits r o.toFloatOps k3)
    ∀ (hsl' : Bits o.toFloatOps × Bits o.toFloatOps × Bits o.toFloatOps) (ε : ℝ), ε ≤ 1 / 100 →
      (∀ c < 3, finiteBits (comp c hsl') ∧ |(comp c hsl').num - (comp c hsl).num| ≤ ε) →
      ∀ c < 3, finiteBits (comp c (hslToRgbFused r dv w hsl'.1 hsl'.2.1 hsl'.2.2)) ∧
        |(comp c (hslToRgbFused r dv w hsl'.1 hsl'.2.1 hsl'.2.2)).num - comp c (ofPixel r k1, ofPixel r k2, ofPixel r k3)| ≤ 9 * ε + 1 / 7400 := by
  intro hsl
  obtain ⟨d, st, hd⟩ := colour_rep hr ho.toCorrect hdv k1 k2 k3
  refine fun hsl' ε hε h => ?_
  have key : ∀ c < 3, |(comp c hsl').num - comp c d| ≤ ε := fun c hc => by
    have := (h c hc).2
    rwa [(hd c).2.1] at this
  exact fused_back hr ho hdv w st hε (h 0 (by norm_num)).1 (h 1 (by norm_num)).1 (h 2 (by norm_num)).1 (key 0 (by norm_num)) (key 1 (by norm_num))
    (key 2 (by norm_num))

/-- C124, any samples. As C113: `Encode` of any codec accepts every image whose channels are there and have one size that is not empty, whatever the bit patterns of the samples
are (NaN and infinities included) and whatever the operations do with them: a picture of the right size goes to the JPEG library, and the result is
that of the library. Not even the assumption that the operations are correct is needed. -/
theorem C124_every_image (r : Rounding) (hr : r.IEEE) (o : FusedOps) (dv : F32 → F32 → F32) (w : F32 → F32 → F32 → Fusion → Bool) (load : Bytes → Outcome CImg)
    (save : CImg → ℕ → ℤ → Outcome Bytes) (kind : CodecKind) (quality : ℤ) (im : List (Mat (Bits o.toFloatOps))) (blob : Bytes) (sc rows cols : ℕ)
    (hsc : sc + 3 < 2 ^ 64) (h : Encodable kind im sc rows cols) :
    ∃ img : CImg, img.width = cols ∧ img.height = rows ∧ img.spectrum = kind.needs ∧
      (∀ x < cols, ∀ y < rows, ∀ c < kind.needs, ∃ k, img.at x y c = .ok k) ∧
      (∀ out, save img ((im.length * rows * cols + 1000) % 2 ^ 32) quality = .ok out →
        codecEncode (hslFusedExt r o dv w load save) kind quality im blob sc = .ok out true) ∧
      (save img ((im.length * rows * cols + 1000) % 2 ^ 32) quality = .throw →
        ∃ b, codecEncode (hslFusedExt r o dv w load save) kind quality im blob sc = .throw b) := by
  have hp : ∀ s : Bits o.toFloatOps, toPixelBits r s = .ok (match toPixelBits r s with | .ok k => k | _ => 0) := fun s => by
    obtain ⟨k, hk⟩ := (C110_every_sample r hr o.toFloatOps).1 s
    rw [hk]
  obtain ⟨img, i1, i2, i3, i4, i5, i6, -⟩ := C44_encode_accepts (hslFusedExt r o dv w load save) (fun s => match toPixelBits r s with | .ok k => k | _ => 0)
    (fun x y z => hslToRgbFused r dv (w x y z) x y z) kind quality im blob sc rows cols hsc h (fun x _ y _ c _ => hp _) (fun _ _ _ _ _ => rfl)
  exact ⟨img, i1, i2, i3, fun x hx y hy c hc => ⟨_, i4 x hx y hy c hc⟩, i5, i6⟩

set_option maxHeartbeats 1000000 in
/-- C124, pictures. A JPEG `blob` that the library reads as `img` is decoded as HSL, decomposed without denoising and serialized by one program, and parsed, composed
and encoded by another one. The programs order and fuse their sums in any way, `s` and `s'`, and the second one fuses in the colour conversions in any way, `w`,
for each colour in its own way. Every step succeeds, and the picture `img'` that is handed to the JPEG library has the size of `img`. For every `d` and
`ε ≤ 1/100` with `9 ε + 1/6000 ≤ d/255` the number of pixels with a byte that is more than `d` below or `d` or more above that of `img` is at most
`3 N (bound / ε)²` with the `bound` of C113. -/
theorem C124_picture (r : Rounding) (hr : r.IEEE) (o : FusedOps) (ho : o.Correct r) (dv : F32 → F32 → F32) (hdv : DivCorrect r dv) (s s' : SumPlan)
    (w₀ w : F32 → F32 → F32 → Fusion → Bool) (e : Ext) (hcod : CodecsWork e truncBits) (Mem : ℕ) (hroom : Room e Mem) (level : ℕ) (h24 : level ≤ 24)
    (load : Bytes → Outcome CImg) (save : CImg → ℕ → ℤ → Outcome Bytes) (quality : ℤ)
    (b : Buffer F32) (hb : WellFormed b) (hwt : b.params.wtype ≤ 5) (hn : b.params.signalNumber = 3)
    (hsub : b.params.signalNumber * subbandCount b.params ≤ Mem)
    (hN : (b.params.shape.map (paddedSide b.params)).prod < 2 ^ 31) (hNM : (b.params.shape.map (paddedSide b.params)).prod ≤ Mem)
    (blob oldA oldE : Bytes) (hblob : blob ≠ []) (img : CImg) (hload : load blob = .ok img) (hs : 3 ≤ img.spectrum)
    (hsh : b.params.shape = [img.width, img.height]) (hw : 0 < img.width) (hh : 0 < img.height) :
    let bound : ℝ := 18 * (b.params.wtype + 2) * b.params.steps / 2 ^ 24 * (1001 / 1000) + 18 * b.params.wtype * b.params.steps / 2 ^ 150 +
      lossOf level * (103 / 100 * (1001 / 1000) + 1 / 2 ^ 124)
    ∃ im decs archive decs' im' img',
      codecDecode (hslFusedExt r o dv w₀ load save) .hsl blob [] 0 = .ok (true, im) ∧
      b.decomposeBy r o s im = .ok decs true ∧
      serialize e ⟨b.params, decs⟩ oldA level = .ok (true, archive) ∧
      (archive.length ≤ Mem → parse e archive = .ok (some ⟨b.params, decs'⟩)) ∧
      Buffer.composeBy r o s' ⟨b.params, decs'⟩ 0 = .ok im' ∧
      img'.width = img.width ∧ img'.height = img.height ∧ img'.spectrum = 3 ∧
      (∀ (d : ℕ) (ε : ℝ), 0 ≤ ε → ε ≤ 1 / 100 → 9 * ε + 1 / 6000 ≤ d / 255 →
        farColours img img' d * ε ^ 2 ≤ 3 * (((b.params.shape.map (paddedSide b.params)).prod : ℕ) * bound ^ 2)) ∧
      ∀ out, save img' ((3 * img.height * img.width + 1000) % 2 ^ 32) quality = .ok out →
        codecEncode (hslFusedExt r o dv w load save) .hsl quality im' oldE 0 = .ok out true := by
  obtain ⟨hK, hside, hR⟩ := picture_sizes hb.1 hsh hw hh hN
  have hL0 := lossOf_nonneg level
  intro bound
  have hb0 : 0 ≤ bound := by
    show 0 ≤ 18 * ((b.params.wtype : ℝ) + 2) * b.params.steps / 2 ^ 24 * (1001 / 1000) + 18 * b.params.wtype * b.params.steps / 2 ^ 150 +
      lossOf level * (103 / 100 * (1001 / 1000) + 1 / 2 ^ 124)
    positivity
  have harch := fun (data : List (Mat F32)) (hd : IsSignal b.params data) hM => C121_archive r hr o ho s s' e hcod Mem hroom level h24 oldA b hb hwt hK hside
    (by omega) (by omega) hsub hN hNM data hd (1001 / 1000) (by norm_num) hM (by
      refine (mul_le_mul_of_nonneg_right hR (by norm_num)).trans ?_
      simp only [maxFloat]
      norm_num)
  have hbe : 9 * ((b.params.wtype : ℝ) + 2) * (b.params.shape.length * b.params.steps) / 2 ^ 24 * (1001 / 1000) +
      9 * b.params.wtype * (b.params.shape.length * b.params.steps) / 2 ^ 150 + lossOf level * (103 / 100 * (1001 / 1000) + 1 / 2 ^ 124) = bound := by
    rw [hsh]
    simp only [bound, List.length_cons, List.length_nil]
    push_cast
    ring
  rw [hbe] at harch
  clear_value bound
  obtain ⟨im, d1, d2, d3, d4, d5⟩ := C44_decode (hslFusedExt r o dv w₀ load save) (rgbToHslBits dv) (fun a b c => rfl) .hsl blob [] 0 (by norm_num) hblob img
    hload hs
  have hcn : CodecKind.hsl.needs = 3 := rfl
  rw [List.length_nil, Nat.zero_max, Nat.zero_add, hcn] at d2
  choose! px hpx using fun x (hx : x < img.width) y (hy : y < img.height) c (hc : c < 3) => at_ok img hx hy (lt_of_lt_of_le hc hs)
  choose D hst hD using fun a b c => colour_rep hr ho.toCorrect hdv a b c
  have hent : ∀ i m, im[i]? = some m → m.rows = img.height ∧ m.cols = img.width ∧ i < 3 ∧
      ∀ y < img.height, ∀ x < img.width, finiteBits (m.get y x) ∧
        Bits.num (m.get y x) = comp i (D (px x y 0) (px x y 1) (px x y 2)) := by
    intro i m hm
    have hi : i < im.length := (List.getElem?_eq_some_iff.1 hm).1
    rw [d2] at hi
    obtain ⟨m', e1, e2, e3, e4⟩ := d5 i hi
    rw [Nat.zero_add, hm] at e1
    cases e1
    refine ⟨e2, e3, hi, ?_⟩
    intro y hy x hx
    obtain ⟨q, q1, q2⟩ := e4 y hy x hx
    have hq : ∀ j < 3, q j = px x y j := fun j hj => by
      have := q1 j hj
      rw [hpx x hx y hy j hj] at this
      exact (Outcome.ok.inj this).symm
    have q3 : m.get y x = comp i (rgbToHslBits dv (pixelBits r o.toFloatOps (q 0)) (pixelBits r o.toFloatOps (q 1)) (pixelBits r o.toFloatOps (q 2))) := q2
    rw [hq 0 (by norm_num), hq 1 (by norm_num), hq 2 (by norm_num)] at q3
    rw [q3]
    exact ⟨(hD _ _ _ i).1, (hD _ _ _ i).2.1⟩
  have hshape : ∀ m ∈ im, HasShape b.params.shape m := by
    intro m hm
    obtain ⟨i, hi⟩ := List.getElem?_of_mem hm
    obtain ⟨e1, e2, -⟩ := hent i m hi
    rw [hsh]; exact ⟨e1, e2⟩
  have hsig : IsSignal (α := F32) b.params im := ⟨by rw [hn]; exact d2, hshape⟩
  -- the signal
  obtain ⟨decs, archive, decs', im', g1, g2, g3, g4, g5, g6⟩ := harch im hsig (by
    intro m hm i hi j hj
    obtain ⟨n, hn'⟩ := List.getElem?_of_mem hm
    obtain ⟨e1, e2, -, e4⟩ := hent n m hn'
    obtain ⟨s1, s2⟩ := e4 i (e1 ▸ hi) j (e2 ▸ hj)
    have s2' : ((number (m.get i j) : ℚ) : ℝ) = _ := s2
    exact ⟨s1, by rw [s2']; exact (hD _ _ _ n).2.2⟩)
  have hsmp : ∀ c < 3, ∃ (m m' : Mat F32), im[c]? = some m ∧ im'[c]? = some m' ∧ m'.rows = img.height ∧ m'.cols = img.width ∧
      m.rows = img.height ∧ m.cols = img.width ∧
      Real.sqrt (sqDist (matNumbers m') (matNumbers m)) ≤ Real.sqrt ((b.params.shape.map (paddedSide b.params)).prod : ℕ) * bound ∧
      ∀ x < img.width, ∀ y < img.height, finiteBits (m'.get y x) ∧
        ((number (m.get y x) : ℚ) : ℝ) = comp c (D (px x y 0) (px x y 1) (px x y 2)) := by
    intro c hc
    obtain ⟨m, e1, -⟩ := d5 c hc
    rw [Nat.zero_add] at e1
    obtain ⟨e2, e3, -, e4⟩ := hent c m e1
    obtain ⟨m', f1, f2, f3, f4, f5⟩ := g6 c m e1
    refine ⟨m, m', e1, f1, f2.trans e2, f3.trans e3, e2, e3, f5, ?_⟩
    intro x hx y hy
    exact ⟨f4 y (by rw [f2, e2]; exact hy) x (by rw [f3, e3]; exact hx), (e4 y hy x hx).2⟩
  choose! M M' hM1 hM2 hr' hc' hrr hcc hdist hval using hsmp
  -- the squares of the changes of one channel
  have hN0 : (0 : ℝ) ≤ ((b.params.shape.map (paddedSide b.params)).prod : ℕ) := by positivity
  have hsq : ∀ c < 3, ∑ q ∈ range img.width ×ˢ range img.height,
      (((number ((M' c).get q.2 q.1) : ℚ) : ℝ) - comp c (D (px q.1 q.2 0) (px q.1 q.2 1) (px q.1 q.2 2))) ^ 2 ≤
        ((b.params.shape.map (paddedSide b.params)).prod : ℕ) * bound ^ 2 := by
    intro c hc
    have h6 := Real.sqrt_le_left (by positivity) |>.1 (hdist c hc)
    rw [mul_pow, Real.sq_sqrt hN0] at h6
    refine le_trans (le_of_eq ?_) h6
    rw [sum_product_right]
    unfold sqDist
    symm
    refine sum_congr (by rw [show (matNumbers (M' c)).rows = (M' c).rows from rfl, hr' c hc]) fun y hy => ?_
    refine sum_congr (by rw [show (matNumbers (M' c)).cols = (M' c).cols from rfl, hc' c hc]) fun x hx => ?_
    rw [mem_range] at hx hy
    unfold matNumbers
    rw [Mat.get_map _ (M' c) (by rw [hr' c hc]; exact hy) (by rw [hc' c hc]; exact hx), Mat.get_map _ (M c) (by rw [hrr c hc]; exact hy)
      (by rw [hcc c hc]; exact hx), (hval c hc x hx y hy).2]
  -- encode
  have hp : ∀ s : Bits o.toFloatOps, toPixelBits r s = .ok (match toPixelBits r s with | .ok k => k | _ => 0) := fun s => by
    obtain ⟨k, hk⟩ := (C110_every_sample r hr o.toFloatOps).1 s
    rw [hk]
  have hEnc : Encodable .hsl (show List (Mat (Bits o.toFloatOps)) from im') 0 img.height img.width := by
    refine ⟨by omega, by omega, ?_⟩
    intro c hc
    exact ⟨M' c, by rw [Nat.zero_add]; exact hM2 c hc, hr' c hc, hc' c hc⟩
  obtain ⟨img', i1, i2, i3, i4, i5, -⟩ := C44_encode_accepts (hslFusedExt r o dv w load save) (fun s => match toPixelBits r s with | .ok k => k | _ => 0) (fun x y z => hslToRgbFused r dv (w x y z) x y z) .hsl
    quality (show List (Mat (Bits o.toFloatOps)) from im') oldE 0 img.height img.width (by norm_num) hEnc (fun x _ y _ c _ => hp _) (fun _ _ _ _ _ => rfl)
  have him' : List.length im' = 3 := g5.trans d2
  refine ⟨im, decs, archive, decs', im', img', d1, g1, g2, g3, g4, i1, i2, i3, ?_, ?_⟩
  · classical
    intro d ε hε0 hε hd
    have hd1 : 1 ≤ d := by
      by_contra h0
      rw [show d = 0 by omega] at hd
      norm_num at hd
      linarith
    have hsam : ∀ x y c, c < 3 → sampleAt (show List (Mat (Bits o.toFloatOps)) from im') c y x = (M' c).get y x := by
      intro x y c hc
      have f1' : (show List (Mat (Bits o.toFloatOps)) from im')[c]? = some (M' c) := hM2 c hc
      simp only [sampleAt, List.getD, f1']
      rfl
    have h3 : 3 * (((b.params.shape.map (paddedSide b.params)).prod : ℕ) * bound ^ 2) ≥ ∑ q ∈ range img.width ×ˢ range img.height,
        ∑ c ∈ range 3, (((number ((M' c).get q.2 q.1) : ℚ) : ℝ) - comp c (D (px q.1 q.2 0) (px q.1 q.2 1) (px q.1 q.2 2))) ^ 2 := by
      rw [sum_comm]
      refine (sum_le_sum fun c hc => hsq c (mem_range.1 hc)).trans ?_
      rw [sum_const, card_range, nsmul_eq_mul]
      norm_num
    refine le_trans ?_ h3
    unfold farColours
    rw [← nsmul_eq_mul]
    refine (card_nsmul_le_sum _ (fun q : ℕ × ℕ => ∑ c ∈ range 3,
      (((number ((M' c).get q.2 q.1) : ℚ) : ℝ) - comp c (D (px q.1 q.2 0) (px q.1 q.2 1) (px q.1 q.2 2))) ^ 2) _ ?_).trans
        (sum_le_sum_of_subset_of_nonneg (filter_subset _ _) fun _ _ _ => sum_nonneg fun _ _ => sq_nonneg _)
    intro q hq
    rw [mem_filter, mem_product, mem_range, mem_range] at hq
    obtain ⟨⟨q1, q2⟩, q3⟩ := hq
    by_contra hlt
    push Not at hlt
    refine q3 ?_
    have hle : ∀ c < 3, |((number ((M' c).get q.2 q.1) : ℚ) : ℝ) - comp c (D (px q.1 q.2 0) (px q.1 q.2 1) (px q.1 q.2 2))| ≤ ε := by
      intro c hc
      refine abs_le_of_sq_le_sq ?_ hε0
      refine le_trans ?_ hlt.le
      exact single_le_sum (f := fun c => (((number ((M' c).get q.2 q.1) : ℚ) : ℝ) - comp c (D (px q.1 q.2 0) (px q.1 q.2 1) (px q.1 q.2 2))) ^ 2)
        (fun _ _ => sq_nonneg _) (mem_range.2 hc)
    intro c hc
    obtain ⟨w1, w2⟩ := fused_back hr ho hdv (w _ _ _) (hst (px q.1 q.2 0) (px q.1 q.2 1) (px q.1 q.2 2)) (h := (M' 0).get q.2 q.1) (s := (M' 1).get q.2 q.1)
      (l := (M' 2).get q.2 q.1) hε (hval 0 (by norm_num) q.1 q1 q.2 q2).1 (hval 1 (by norm_num) q.1 q1 q.2 q2).1 (hval 2 (by norm_num) q.1 q1 q.2 q2).1
      (hle 0 (by norm_num)) (hle 1 (by norm_num)) (hle 2 (by norm_num)) c hc
    have e2 : comp c (ofPixel r (px q.1 q.2 0), ofPixel r (px q.1 q.2 1), ofPixel r (px q.1 q.2 2)) = ofPixel r (px q.1 q.2 c) := by
      rcases (by omega : c = 0 ∨ c = 1 ∨ c = 2) with rfl | rfl | rfl <;> rfl
    rw [e2] at w2
    obtain ⟨k', n1, n2, n3⟩ := toPixel_near hr (px q.1 q.2 c) hd1 (w2.trans (by norm_num at hd ⊢; linarith))
    refine ⟨px q.1 q.2 c, k', hpx q.1 q1 q.2 q2 c hc, ?_, n2, n3⟩
    rw [i4 q.1 q1 q.2 q2 c hc]
    have e3 : colourSample .hsl (fun x y z => hslToRgbFused r dv (w x y z) x y z) (show List (Mat (Bits o.toFloatOps)) from im') 0 q.2 q.1 c =
        comp c (hslToRgbFused (o := o) r dv (w ((M' 0).get q.2 q.1) ((M' 1).get q.2 q.1) ((M' 2).get q.2 q.1)) ((M' 0).get q.2 q.1) ((M' 1).get q.2 q.1) ((M' 2).get q.2 q.1)) := by
      unfold colourSample
      simp only [Nat.zero_add]
      rw [hsam _ _ 0 (by norm_num), hsam _ _ 1 (by norm_num), hsam _ _ 2 (by norm_num)]
    have e4 : toPixelBits r (comp c (hslToRgbFused (o := o) r dv (w ((M' 0).get q.2 q.1) ((M' 1).get q.2 q.1) ((M' 2).get q.2 q.1)) ((M' 0).get q.2 q.1) ((M' 1).get q.2 q.1) ((M' 2).get q.2 q.1))) = .ok k' :=
      (pixel_finite r w1).trans n1
    rw [e3, e4]
  · intro out hout
    exact i5 out (by
      have : (show List (Mat (Bits o.toFloatOps)) from im').length = 3 := him'
      rw [this]; exact hout)

/-- A picture of 1024 × 1024 pixels, decoded as HSL, DB5, five steps, level 10, the codecs of `exExt` and a JPEG library that reads the picture from any bytes. The
program that writes fuses nothing, the one that reads fuses everything it can: at most 51000 of the 1048576 pixels have a byte that becomes more than two smaller
or two or more larger. -/
example (r : Rounding) (hr : r.IEEE) (o : FusedOps) (ho : o.Correct r) (dv : F32 → F32 → F32) (hdv : DivCorrect r dv) (img : CImg)
    (hi : img.width = 1024 ∧ img.height = 1024 ∧ img.spectrum = 3) (save : CImg → ℕ → ℤ → Outcome Bytes) :
    let p : Params := ⟨[1024, 1024], 3, 5, 5⟩
    let b : Buffer F32 := ⟨p, List.replicate 3 (List.replicate 16 Mat.empty)⟩
    ∃ im decs archive decs' im' img', codecDecode (hslFusedExt r o dv (fun _ _ _ _ => false) (fun _ => .ok img) save) .hsl [0] [] 0 = .ok (true, im) ∧
      b.decomposeBy r o SumPlan.inOrder im = .ok decs true ∧
      serialize exExt ⟨p, decs⟩ [] 10 = .ok (true, archive) ∧ (archive.length ≤ 2 ^ 40 → parse exExt archive = .ok (some ⟨p, decs'⟩)) ∧
      Buffer.composeBy r o SumPlan.fused ⟨p, decs'⟩ 0 = .ok im' ∧
      (∀ out, save img' ((3 * img.height * img.width + 1000) % 2 ^ 32) 100 = .ok out →
        codecEncode (hslFusedExt r o dv (fun _ _ _ _ => true) (fun _ => .ok img) save) .hsl 100 im' [] 0 = .ok out true) ∧
      farColours img img' 2 ≤ 51000 := by
  intro p b
  have hNe : (p.shape.map (paddedSide p)).prod = 1024 * 1024 := by decide
  have hL : lossOf 10 = 1 / 2 ^ 14 := by
    rw [lossOf, if_neg (by norm_num)]
    norm_num
  obtain ⟨im, decs, archive, decs', im', img', k0, k1, k2, k3, k3', -, -, -, k4, k6⟩ := C124_picture r hr o ho dv hdv SumPlan.inOrder SumPlan.fused
    (fun _ _ _ _ => false) (fun _ _ _ _ => true) exExt (exTrunc_eq ▸ exExt_works) (2 ^ 40)
    (fun _ _ _ => rfl) 10 (by norm_num) (fun _ => .ok img) save 100 b
    ⟨⟨by simp [b, p], by simp [b, p], by simp [b, p]⟩, by simp [b, p], by simp [b, p, subbandCount, detailsPerStep]⟩ (by simp [b, p]) rfl
    (by simp [b, p, subbandCount, detailsPerStep]) (by show (p.shape.map (paddedSide p)).prod < _; rw [hNe]; norm_num)
    (by show (p.shape.map (paddedSide p)).prod ≤ _; rw [hNe]; norm_num) [0] [] [] (by simp) img rfl (by rw [hi.2.2])
    (by rw [hi.1, hi.2.1]) (by rw [hi.1]; norm_num) (by rw [hi.2.1]; norm_num)
  have k5 := k4 2 (8 / 10000) (by norm_num) (by norm_num) (by norm_num)
  have hbd : (18 * ((p.wtype : ℝ) + 2) * p.steps / 2 ^ 24 * (1001 / 1000) + 18 * p.wtype * p.steps / 2 ^ 150 +
      lossOf 10 * (103 / 100 * (1001 / 1000) + 1 / 2 ^ 124)) ≤ 101 / 1000000 := by
    rw [hL]
    simp only [p]
    norm_num
  have hbd0 : 0 ≤ (18 * ((p.wtype : ℝ) + 2) * p.steps / 2 ^ 24 * (1001 / 1000) + 18 * p.wtype * p.steps / 2 ^ 150 +
      lossOf 10 * (103 / 100 * (1001 / 1000) + 1 / 2 ^ 124)) := by
    rw [hL]
    positivity
  refine ⟨im, decs, archive, decs', im', img', k0, k1, k2, k3, k3', k6, ?_⟩
  change _ ≤ 3 * ((((p.shape.map (paddedSide p)).prod : ℕ) : ℝ) * (18 * ((p.wtype : ℝ) + 2) * p.steps / 2 ^ 24 * (1001 / 1000) + 18 * p.wtype * p.steps / 2 ^ 150 +
      lossOf 10 * (103 / 100 * (1001 / 1000) + 1 / 2 ^ 124)) ^ 2) at k5
  generalize (18 * ((p.wtype : ℝ) + 2) * p.steps / 2 ^ 24 * (1001 / 1000) + 18 * p.wtype * p.steps / 2 ^ 150 +
      lossOf 10 * (103 / 100 * (1001 / 1000) + 1 / 2 ^ 124)) = B at k5 hbd hbd0
  have hB2 : B ^ 2 ≤ (101 / 1000000) ^ 2 := pow_le_pow_left₀ hbd0 hbd 2
  rw [hNe] at k5
  by_contra hlt
  have h1 : (51001 : ℝ) ≤ farColours img img' 2 := by exact_mod_cast not_le.1 hlt
  norm_num at k5
  nlinarith

/-- There are operations as the theorems suppose, fused multiply-add and divisions included; the colour of every pixel comes back as exactly as C124 says if its
HSL values are not changed. -/
example : ∃ (r : Rounding) (o : FusedOps) (dv : F32 → F32 → F32), r.IEEE ∧ o.Correct r ∧ DivCorrect r dv ∧ ∀ k1 k2 k3 : UInt8,
    let hsl := rgbToHslBits dv (pixelBits r o.toFloatOps k1) (pixelBits r o.toFloatOps k2) (pixelBits r o.toFloatOps k3)
    ∀ c < 3, |(comp c (hslToRgbFused r dv (fun _ => true) hsl.1 hsl.2.1 hsl.2.2)).num - comp c (ofPixel r k1, ofPixel r k2, ofPixel r k3)| ≤ 1 / 7400 := by
  obtain ⟨r, hr, _⟩ := ties_exist
  obtain ⟨o, ho⟩ := fusedOps_exist hr
  have h : ∀ x y : F32, ∃ z : F32, |r.toFloat ((number x : ℝ) / number y)| ≤ maxFloat → finiteBits z ∧ (number z : ℝ) = r.toFloat ((number x : ℝ) / number y) := by
    intro x y
    by_cases hm : |r.toFloat ((number x : ℝ) / number y)| ≤ maxFloat
    · obtain ⟨z, hz⟩ := number_surj (hr.1 _).1 hm
      exact ⟨z, fun _ => hz⟩
    · exact ⟨0, fun h => absurd h hm⟩
  choose dv hdv using h
  have hd : DivCorrect r dv := fun x y _ _ _ hm => hdv x y hm
  refine ⟨r, o, dv, hr, ho, hd, ?_⟩
  intro k1 k2 k3 hsl c hc
  have h1 := (C113_changed_values r hr o.toFloatOps ho.toCorrect dv hd k1 k2 k3).1
  have := (C124_changed_values r hr o ho dv hd (fun _ => true) k1 k2 k3 hsl 0 (by norm_num) (fun c hc => ⟨(h1 c hc).1, by
    show |_ - _| ≤ (0 : ℝ); rw [sub_self, abs_zero]⟩) c hc).2
  rwa [mul_zero, zero_add] at this

end WB.Props
