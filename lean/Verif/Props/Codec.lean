import Verif.Proof.Codec
import Verif.Props.Pixel

/-! Properties C44 and C62: the JPEG codecs. -/

set_option linter.unusedSectionVars false

namespace WB.Props

open WB

variable {α : Type} [Inhabited α]

/-- C44: an image that lacks a needed channel, whose needed channels differ in size, or that has no pixels is refused, and the
output is left as it was. -/
theorem C44_encode_rejects (e : JpegExt α) (kind : CodecKind) (quality : ℤ) (im : List (Mat α)) (blob : Bytes) (sc : ℕ)
    (hsc : sc + 3 < 2 ^ 64) (h : ¬ ∃ rows cols, Encodable kind im sc rows cols) :
    codecEncode e kind quality im blob sc = .ok blob false := by
  unfold codecEncode
  cases kind with
  | rgb =>
    obtain ⟨good, h1, h2⟩ := checkThree_ok im sc hsc
    have : good = false := by
      cases good with
      | false => rfl
      | true => exact absurd (h2.1 rfl) h
    subst this
    simp only [encodeRgb, h1, Run.lift_ok, Run.bind_ok]; rfl
  | hsl =>
    obtain ⟨good, h1, h2⟩ := checkThree_ok im sc hsc
    have : good = false := by
      cases good with
      | false => rfl
      | true => exact absurd (h2.1 rfl) h
    subst this
    simp only [h1, Run.lift_ok, Run.bind_ok]; rfl
  | gray =>
    obtain ⟨good, h1, h2⟩ := checkOne_ok im sc hsc
    have : good = false := by
      cases good with
      | false => rfl
      | true => exact absurd (h2.1 rfl) h
    subst this
    simp only [h1, Run.lift_ok, Run.bind_ok]; rfl

/-- What `saveImage` does, in words. -/
theorem saveImage_spec (e : JpegExt α) (quality : ℤ) (img : CImg) (n : ℕ) (blob : Bytes) :
    (∀ out, e.save img ((n * img.height * img.width + 1000) % 2 ^ 32) quality = .ok out →
      saveImage e quality img n blob = .ok out true) ∧
    (e.save img ((n * img.height * img.width + 1000) % 2 ^ 32) quality = .throw →
      ∃ b, saveImage e quality img n blob = .throw b) ∧
    (e.save img ((n * img.height * img.width + 1000) % 2 ^ 32) quality = .ub → saveImage e quality img n blob = .ub) ∧
    (∀ b, saveImage e quality img n blob ≠ .ok b false) := by
  unfold saveImage
  simp only
  cases e.save img ((n * img.height * img.width + 1000) % 2 ^ 32) quality with
  | ok out =>
    refine ⟨?_, ?_, ?_, ?_⟩
    · intro o h; cases h; rfl
    · intro h; cases h
    · intro h; cases h
    · intro b h; simp at h
  | throw =>
    refine ⟨?_, ?_, ?_, ?_⟩
    · intro o h; cases h
    · intro _; exact ⟨_, rfl⟩
    · intro h; cases h
    · intro b h; simp at h
  | ub =>
    refine ⟨?_, ?_, ?_, ?_⟩
    · intro o h; cases h
    · intro h; cases h
    · intro _; rfl
    · intro b h; simp at h

/-- C44: every other image, if its samples can be converted to pixels, is handed to the JPEG library, each pixel at its place with the right value, and the library's
output becomes the result; `false` is not returned. -/
theorem C44_encode_accepts (e : JpegExt α) (tp : α → UInt8) (hr : α → α → α → α × α × α) (kind : CodecKind) (quality : ℤ)
    (im : List (Mat α)) (blob : Bytes) (sc rows cols : ℕ) (hsc : sc + 3 < 2 ^ 64) (h : Encodable kind im sc rows cols)
    (htp : ∀ x < cols, ∀ y < rows, ∀ c < kind.needs, e.toPx (colourSample kind hr im sc y x c) = .ok (tp (colourSample kind hr im sc y x c)))
    (hhr : kind = .hsl → ∀ y < rows, ∀ x < cols, e.hslRgb (sampleAt im sc y x) (sampleAt im (sc + 1) y x) (sampleAt im (sc + 2) y x) =
      .ok (hr (sampleAt im sc y x) (sampleAt im (sc + 1) y x) (sampleAt im (sc + 2) y x))) :
    ∃ img : CImg, img.width = cols ∧ img.height = rows ∧ img.spectrum = kind.needs ∧
      (∀ x < cols, ∀ y < rows, ∀ c < kind.needs, img.at x y c = .ok (tp (colourSample kind hr im sc y x c))) ∧
      (∀ out, e.save img ((im.length * rows * cols + 1000) % 2 ^ 32) quality = .ok out →
        codecEncode e kind quality im blob sc = .ok out true) ∧
      (e.save img ((im.length * rows * cols + 1000) % 2 ^ 32) quality = .throw →
        ∃ b, codecEncode e kind quality im blob sc = .throw b) ∧
      (e.save img ((im.length * rows * cols + 1000) % 2 ^ 32) quality = .ub → codecEncode e kind quality im blob sc = .ub) ∧
      (∀ b, codecEncode e kind quality im blob sc ≠ .ok b false) := by
  unfold codecEncode
  cases kind with
  | rgb =>
    obtain ⟨good, g1, g2⟩ := checkThree_ok im sc hsc
    have : good = true := g2.2 ⟨rows, cols, h⟩
    subst this
    obtain ⟨img, i1, i2, i3, i4, i5⟩ := toCImg_ok e tp im sc 3 rows cols htp (by decide) h.2.2
    refine ⟨img, i2, i3, i4, i5, ?_⟩
    simp only [encodeRgb, g1, Run.lift_ok, Run.bind_ok, if_true, i1]
    have := saveImage_spec e quality img im.length blob
    rwa [i2, i3] at this
  | gray =>
    obtain ⟨good, g1, g2⟩ := checkOne_ok im sc hsc
    have : good = true := g2.2 ⟨rows, cols, h⟩
    subst this
    obtain ⟨img, i1, i2, i3, i4, i5⟩ := toCImg_ok e tp im sc 1 rows cols htp (by decide) h.2.2
    refine ⟨img, i2, i3, i4, i5, ?_⟩
    simp only [g1, Run.lift_ok, Run.bind_ok, if_true, i1]
    have := saveImage_spec e quality img im.length blob
    rwa [i2, i3] at this
  | hsl =>
    obtain ⟨good, g1, g2⟩ := checkThree_ok im sc hsc
    have : good = true := g2.2 ⟨rows, cols, h⟩
    subst this
    obtain ⟨hr0, hc0, h3⟩ := h
    obtain ⟨M0, m0, r0, c0⟩ := h3 0 (by decide)
    obtain ⟨M1, m1, r1, c1⟩ := h3 1 (by decide)
    obtain ⟨M2, m2, r2, c2⟩ := h3 2 (by decide)
    rw [Nat.add_zero] at m0
    subst r0; subst c0
    have l2 : sc + 2 < im.length := by
      by_contra h; rw [List.getElem?_eq_none (by omega)] at m2; simp at m2
    have s0 : ∀ y x, sampleAt im sc y x = M0.get y x := fun y x => by simp [sampleAt, List.getD, m0]
    have s1 : ∀ y x, sampleAt im (sc + 1) y x = M1.get y x := fun y x => by simp [sampleAt, List.getD, m1]
    have s2 : ∀ y x, sampleAt im (sc + 2) y x = M2.get y x := fun y x => by simp [sampleAt, List.getD, m2]
    have hconv := convertImage_ok e.hslRgb hr im sc M0 M1 M2 m0 m1 m2 r1 c1 r2 c2 (fun i hi j hj => by
      have := hhr rfl i hi j hj
      rwa [s0, s1, s2] at this)
    set cpy := ((im.set sc (Mat.ofFn M0.rows M0.cols fun i j => (hr (M0.get i j) (M1.get i j) (M2.get i j)).1)).set (sc + 1)
        (Mat.ofFn M0.rows M0.cols fun i j => (hr (M0.get i j) (M1.get i j) (M2.get i j)).2.1)).set (sc + 2)
        (Mat.ofFn M0.rows M0.cols fun i j => (hr (M0.get i j) (M1.get i j) (M2.get i j)).2.2) with hcpy
    have q0 : cpy[sc]? = some (Mat.ofFn M0.rows M0.cols fun i j => (hr (M0.get i j) (M1.get i j) (M2.get i j)).1) := by
      rw [hcpy, List.getElem?_set_ne (by omega), List.getElem?_set_ne (by omega), List.getElem?_set_self (by omega)]
    have q1 : cpy[sc + 1]? = some (Mat.ofFn M0.rows M0.cols fun i j => (hr (M0.get i j) (M1.get i j) (M2.get i j)).2.1) := by
      rw [hcpy, List.getElem?_set_ne (by omega), List.getElem?_set_self (by simp; omega)]
    have q2 : cpy[sc + 2]? = some (Mat.ofFn M0.rows M0.cols fun i j => (hr (M0.get i j) (M1.get i j) (M2.get i j)).2.2) := by
      rw [hcpy, List.getElem?_set_self (by simp; omega)]
    have hE : Encodable .rgb cpy sc M0.rows M0.cols := by
      refine ⟨hr0, hc0, ?_⟩
      intro c hc
      have hc' : c < 3 := hc
      interval_cases c
      · exact ⟨_, q0, rfl, rfl⟩
      · exact ⟨_, q1, rfl, rfl⟩
      · exact ⟨_, q2, rfl, rfl⟩
    obtain ⟨good, g3, g4⟩ := checkThree_ok cpy sc hsc
    have : good = true := g4.2 ⟨_, _, hE⟩
    subst this
    have hcol : ∀ x < M0.cols, ∀ y < M0.rows, ∀ c < 3, sampleAt cpy (sc + c) y x = colourSample .hsl hr im sc y x c := by
      intro x hx y hy c hc
      unfold colourSample comp
      simp only [s0, s1, s2]
      interval_cases c
      · simp only [sampleAt, List.getD, Nat.add_zero, q0, Option.getD_some, if_true]
        rw [Mat.get_ofFn hy hx]
      · simp only [sampleAt, List.getD, q1, Option.getD_some]
        rw [Mat.get_ofFn hy hx]; simp
      · simp only [sampleAt, List.getD, q2, Option.getD_some]
        rw [Mat.get_ofFn hy hx]; simp
    obtain ⟨img, i1, i2, i3, i4, i5⟩ := toCImg_ok e tp cpy sc 3 M0.rows M0.cols (fun x hx y hy c hc => by
      rw [hcol x hx y hy c hc]; exact htp x hx y hy c hc) (by decide) hE.2.2
    refine ⟨img, i2, i3, i4, ?_, ?_⟩
    · intro x hx y hy c hc
      rw [i5 x hx y hy c hc, hcol x hx y hy c hc]
    · have hl : cpy.length = im.length := by rw [hcpy]; simp
      clear_value cpy
      simp only [g1, Run.lift_ok, Run.bind_ok, if_true, hconv, encodeRgb, g3, i1]
      have := saveImage_spec e quality img cpy.length blob
      rw [i2, i3] at this
      rwa [hl] at this ⊢

/-- C44: `Decode` of an empty blob, or of one that the library rejects with an exception, returns `false` and leaves the image as
it was. -/
theorem C44_decode_rejects (e : JpegExt α) (kind : CodecKind) (blob : Bytes) (im : List (Mat α)) (sc : ℕ)
    (h : blob = [] ∨ e.load blob = .throw) : codecDecode e kind blob im sc = .ok (false, im) := by
  unfold codecDecode
  by_cases hb : blob = []
  · rw [if_pos hb]
  · rw [if_neg hb, h.resolve_left hb]

/-- C44: decoding an image that has the needed channels succeeds; the channels `sc, sc + 1, ...` hold the image, all others are
what they were (or 0×0 if they did not exist). -/
theorem C44_decode (e : JpegExt α) (hl : α → α → α → α × α × α)
    (hhl : ∀ a b c, e.rgbHsl (e.ofPx a) (e.ofPx b) (e.ofPx c) = .ok (hl (e.ofPx a) (e.ofPx b) (e.ofPx c)))
    (kind : CodecKind) (blob : Bytes) (im : List (Mat α)) (sc : ℕ) (hsc : sc + 3 < 2 ^ 64) (hb : blob ≠ []) (img : CImg)
    (hi : e.load blob = .ok img) (hs : kind.needs ≤ img.spectrum) :
    ∃ im', codecDecode e kind blob im sc = .ok (true, im') ∧ im'.length = max im.length (sc + kind.needs) ∧
      (∀ ch < im.length, (ch < sc ∨ sc + kind.needs ≤ ch) → im'[ch]? = im[ch]?) ∧
      (∀ ch, im.length ≤ ch → ch < sc → im'[ch]? = some Mat.empty) ∧
      ∀ c < kind.needs, ∃ m, im'[sc + c]? = some m ∧ m.rows = img.height ∧ m.cols = img.width ∧
        ∀ y < img.height, ∀ x < img.width, ∃ px : ℕ → UInt8, (∀ k < kind.needs, img.at x y k = .ok (px k)) ∧
          m.get y x = decodedSample kind e.ofPx hl px c := by
  unfold codecDecode
  rw [if_neg hb, hi]
  simp only
  cases kind with
  | gray =>
    have hs' : 0 < img.spectrum := hs
    have hlen : sc < (growTo im (sc + 1)).length := by rw [growTo_length]; omega
    simp only [decodeGray, decodeChannel_ok e img hs', Outcome.bind_ok, putChannel]
    rw [Nat.mod_eq_of_lt (by omega), if_pos hlen]
    refine ⟨_, rfl, by rw [List.length_set, growTo_length]; rfl, ?_, ?_, ?_⟩
    · intro ch h1 h2
      have h2' : ch < sc ∨ sc + 1 ≤ ch := h2
      rw [List.getElem?_set_ne (by omega), growTo_old _ _ h1]
    · intro ch h1 h2
      rw [List.getElem?_set_ne (by omega), growTo_new _ _ h1 (by omega)]
    · intro c hc
      have hc' : c < 1 := hc
      interval_cases c
      refine ⟨_, List.getElem?_set_self hlen, rfl, rfl, ?_⟩
      intro y hy x hx
      refine ⟨fun k => img.px x y k, ?_, ?_⟩
      · intro k hk
        have hk' : k < 1 := hk
        exact at_px img hx hy (by omega)
      · rw [Mat.get_ofFn hy hx]; rfl
  | rgb =>
    have hs' : 3 ≤ img.spectrum := hs
    have hlen : sc + 3 ≤ (growTo im (sc + 3)).length := by rw [growTo_length]; omega
    simp only [decodeRgb_ok e img im sc hs' hsc, Outcome.bind_ok]
    refine ⟨_, rfl, by simp only [List.length_set, growTo_length]; rfl, ?_, ?_, ?_⟩
    · intro ch h1 h2
      have h2' : ch < sc ∨ sc + 3 ≤ ch := h2
      rw [List.getElem?_set_ne (by omega), List.getElem?_set_ne (by omega), List.getElem?_set_ne (by omega), growTo_old _ _ h1]
    · intro ch h1 h2
      rw [List.getElem?_set_ne (by omega), List.getElem?_set_ne (by omega), List.getElem?_set_ne (by omega),
        growTo_new _ _ h1 (by omega)]
    · intro c hc
      have hc' : c < 3 := hc
      have fin : ∀ c, c < 3 → ∀ y < img.height, ∀ x < img.width, ∃ px : ℕ → UInt8, (∀ k < CodecKind.rgb.needs, img.at x y k = .ok (px k)) ∧
          (Mat.ofFn img.height img.width fun y x => e.ofPx (img.px x y c)).get y x = decodedSample .rgb e.ofPx hl px c := by
        intro c hc y hy x hx
        refine ⟨fun k => img.px x y k, ?_, ?_⟩
        · intro k hk
          have hk' : k < 3 := hk
          exact at_px img hx hy (by omega)
        · rw [Mat.get_ofFn hy hx]; rfl
      interval_cases c
      · show ∃ m, (List.set _ _ _)[sc]? = some m ∧ _
        rw [List.getElem?_set_ne (by omega), List.getElem?_set_ne (by omega), List.getElem?_set_self (by omega)]
        exact ⟨_, rfl, rfl, rfl, fin 0 (by omega)⟩
      · rw [List.getElem?_set_ne (by omega), List.getElem?_set_self (by rw [List.length_set]; omega)]
        exact ⟨_, rfl, rfl, rfl, fin 1 (by omega)⟩
      · rw [List.getElem?_set_self (by rw [List.length_set, List.length_set]; omega)]
        exact ⟨_, rfl, rfl, rfl, fin 2 (by omega)⟩
  | hsl =>
    have hs' : 3 ≤ img.spectrum := hs
    have hlen : sc + 3 ≤ (growTo im (sc + 3)).length := by rw [growTo_length]; omega
    have hdec := decodeRgb_ok e img im sc hs' hsc
    set G := growTo im (sc + 3) with hG
    set D : ℕ → Mat α := fun c => Mat.ofFn img.height img.width fun y x => e.ofPx (img.px x y c) with hD
    replace hdec : decodeRgb e img im sc = .ok (((G.set sc (D 0)).set (sc + 1) (D 1)).set (sc + 2) (D 2)) := hdec
    have q0 : (((G.set sc (D 0)).set (sc + 1) (D 1)).set (sc + 2) (D 2))[sc]? = some (D 0) := by
      rw [List.getElem?_set_ne (by omega), List.getElem?_set_ne (by omega), List.getElem?_set_self (by omega)]
    have q1 : (((G.set sc (D 0)).set (sc + 1) (D 1)).set (sc + 2) (D 2))[sc + 1]? = some (D 1) := by
      rw [List.getElem?_set_ne (by omega), List.getElem?_set_self (by rw [List.length_set]; omega)]
    have q2 : (((G.set sc (D 0)).set (sc + 1) (D 1)).set (sc + 2) (D 2))[sc + 2]? = some (D 2) := by
      rw [List.getElem?_set_self (by rw [List.length_set, List.length_set]; omega)]
    have hconv := convertImage_ok e.rgbHsl hl _ sc (D 0) (D 1) (D 2) q0 q1 q2 rfl rfl rfl rfl (by
      intro i hi j hj
      simp only [hD]
      rw [Mat.get_ofFn (show i < img.height from hi) (show j < img.width from hj),
        Mat.get_ofFn (show i < img.height from hi) (show j < img.width from hj),
        Mat.get_ofFn (show i < img.height from hi) (show j < img.width from hj)]
      exact hhl _ _ _)
    simp only [hdec, hconv, Outcome.bind_ok]
    refine ⟨_, rfl, by simp only [List.length_set, hG, growTo_length]; rfl, ?_, ?_, ?_⟩
    · intro ch h1 h2
      have h2' : ch < sc ∨ sc + 3 ≤ ch := h2
      rw [List.getElem?_set_ne (by omega), List.getElem?_set_ne (by omega), List.getElem?_set_ne (by omega),
        List.getElem?_set_ne (by omega), List.getElem?_set_ne (by omega), List.getElem?_set_ne (by omega), hG, growTo_old _ _ h1]
    · intro ch h1 h2
      rw [List.getElem?_set_ne (by omega), List.getElem?_set_ne (by omega), List.getElem?_set_ne (by omega),
        List.getElem?_set_ne (by omega), List.getElem?_set_ne (by omega), List.getElem?_set_ne (by omega), hG,
        growTo_new _ _ h1 (by omega)]
    · have px_ok : ∀ y < img.height, ∀ x < img.width, ∀ k < CodecKind.hsl.needs, img.at x y k = .ok (img.px x y k) := by
        intro y hy x hx k hk
        have hk' : k < 3 := hk
        exact at_px img hx hy (by omega)
      have hDget : ∀ c y x, y < img.height → x < img.width → (D c).get y x = e.ofPx (img.px x y c) := by
        intro c y x hy hx
        simp only [hD]; rw [Mat.get_ofFn hy hx]
      intro c hc
      have hc' : c < 3 := hc
      interval_cases c
      · show ∃ m, (List.set _ _ _)[sc]? = some m ∧ _
        rw [List.getElem?_set_ne (by omega), List.getElem?_set_ne (by omega), List.getElem?_set_self (by simp only [List.length_set]; omega)]
        refine ⟨_, rfl, rfl, rfl, ?_⟩
        intro y hy x hx
        refine ⟨fun k => img.px x y k, px_ok y hy x hx, ?_⟩
        rw [Mat.get_ofFn (show y < (D 0).rows from hy) (show x < (D 0).cols from hx), hDget 0 y x hy hx, hDget 1 y x hy hx, hDget 2 y x hy hx]
        rfl
      · rw [List.getElem?_set_ne (by omega), List.getElem?_set_self (by simp only [List.length_set]; omega)]
        refine ⟨_, rfl, rfl, rfl, ?_⟩
        intro y hy x hx
        refine ⟨fun k => img.px x y k, px_ok y hy x hx, ?_⟩
        rw [Mat.get_ofFn (show y < (D 0).rows from hy) (show x < (D 0).cols from hx), hDget 0 y x hy hx, hDget 1 y x hy hx, hDget 2 y x hy hx]
        rfl
      · rw [List.getElem?_set_self (by simp only [List.length_set]; omega)]
        refine ⟨_, rfl, rfl, rfl, ?_⟩
        intro y hy x hx
        refine ⟨fun k => img.px x y k, px_ok y hy x hx, ?_⟩
        rw [Mat.get_ofFn (show y < (D 0).rows from hy) (show x < (D 0).cols from hx), hDget 0 y x hy hx, hDget 1 y x hy hx, hDget 2 y x hy hx]
        rfl

/-- C62 is false of the code: decoding an image with fewer than three channels, such as a grayscale JPEG, with the RGB or HSL codec
reads outside the decoded image. -/
theorem C62_gray_file_read_as_colour (e : JpegExt α) (kind : CodecKind) (hk : kind ≠ .gray) (blob : Bytes) (im : List (Mat α))
    (sc : ℕ) (hsc : sc + 3 < 2 ^ 64) (hb : blob ≠ []) (img : CImg) (hi : e.load blob = .ok img) (hw : 0 < img.width)
    (hh : 0 < img.height) (hs : img.spectrum < 3) : codecDecode e kind blob im sc = .ub := by
  have hdec : decodeRgb e img im sc = .ub := by
    unfold decodeRgb
    rw [Nat.mod_eq_of_lt hsc, show sc + 3 - sc = 3 by omega]
    have bad : ∀ c, img.spectrum ≤ c → decodeChannel e img c = .ub := by
      intro c hc
      unfold decodeChannel
      apply fillMat_ub _ _ _ hh hw
      unfold CImg.at
      rw [if_neg (by omega)]; rfl
    have hl : sc + 3 ≤ (growTo im (sc + 3)).length := by rw [growTo_length]; omega
    simp only [List.range', List.foldlM_cons, List.foldlM_nil]
    rw [show sc - sc = 0 by omega, show sc + 1 - sc = 1 by omega, show sc + 1 + 1 - sc = 2 by omega, bad 2 (by omega)]
    by_cases h0 : 0 < img.spectrum
    · rw [decodeChannel_ok e img h0, Outcome.bind_ok, putChannel, if_pos (by omega), Outcome.bind_ok]
      by_cases h1 : 1 < img.spectrum
      · rw [decodeChannel_ok e img h1, Outcome.bind_ok, putChannel, if_pos (by rw [List.length_set]; omega), Outcome.bind_ok]; rfl
      · rw [bad 1 (by omega)]; rfl
    · rw [bad 0 (by omega)]; rfl
  unfold codecDecode
  rw [if_neg hb, hi]
  simp only
  cases kind with
  | gray => exact absurd rfl hk
  | rgb => simp only [hdec]; rfl
  | hsl => simp only [hdec]; rfl

/-- C62, part that holds: images with at least the needed channels are decoded without undefined behaviour. Missing: images with fewer
channels (`C62_gray_file_read_as_colour`). -/
theorem C62_enough_channels_partial (e : JpegExt α) (hl : α → α → α → α × α × α)
    (hhl : ∀ a b c, e.rgbHsl (e.ofPx a) (e.ofPx b) (e.ofPx c) = .ok (hl (e.ofPx a) (e.ofPx b) (e.ofPx c)))
    (kind : CodecKind) (blob : Bytes) (im : List (Mat α)) (sc : ℕ) (hsc : sc + 3 < 2 ^ 64) (hlib : e.load blob ≠ .ub)
    (hs : ∀ img, e.load blob = .ok img → kind.needs ≤ img.spectrum) : ∃ r, codecDecode e kind blob im sc = .ok r := by
  by_cases hb : blob = []
  · exact ⟨_, C44_decode_rejects e kind blob im sc (Or.inl hb)⟩
  · cases hload : e.load blob with
    | throw => exact ⟨_, C44_decode_rejects e kind blob im sc (Or.inr hload)⟩
    | ub => exact absurd hload hlib
    | ok img =>
      obtain ⟨im', h, -⟩ := C44_decode e hl hhl kind blob im sc hsc hb img hload (hs img hload)
      exact ⟨_, h⟩

/-- The conversions of the code meet what C44 asks of them, for every IEEE rounding and every JPEG library. -/
example (r : Rounding) (hr : r.IEEE) (load : Bytes → Outcome CImg) (save : CImg → ℕ → ℤ → Outcome Bytes) :
    (∃ tp : ℝ → UInt8, ∀ x, (codeExt r load save).toPx x = .ok (tp x)) ∧
    (∃ hr' : ℝ → ℝ → ℝ → ℝ × ℝ × ℝ, ∀ a b c, (codeExt r load save).hslRgb a b c = .ok (hr' a b c)) ∧
    (∃ hl : ℝ → ℝ → ℝ → ℝ × ℝ × ℝ, ∀ a b c, (codeExt r load save).rgbHsl ((codeExt r load save).ofPx a) ((codeExt r load save).ofPx b)
      ((codeExt r load save).ofPx c) = .ok (hl ((codeExt r load save).ofPx a) ((codeExt r load save).ofPx b)
      ((codeExt r load save).ofPx c))) := by
  refine ⟨?_, ⟨hslToRgb, fun _ _ _ => rfl⟩, ?_⟩
  · choose tp htp using (C43_clamped_and_monotone r hr).1
    exact ⟨tp, htp⟩
  · have unit : ∀ a, 0 ≤ ofPixel r a ∧ ofPixel r a ≤ 1 := fun a =>
      ⟨(pixel_back hr a.toNat a.toNat_lt).1, (pixel_back hr a.toNat a.toNat_lt).2.1⟩
    refine ⟨fun x y z => match rgbToHsl x y z with | .ok d => d | _ => (0, 0, 0), ?_⟩
    intro a b c
    obtain ⟨h, s, l, e, -⟩ := rgb_round_trip (unit a) (unit b) (unit c)
    show rgbToHsl (ofPixel r a) (ofPixel r b) (ofPixel r c) = .ok (match rgbToHsl (ofPixel r a) (ofPixel r b) (ofPixel r c) with
      | .ok d => d | _ => (0, 0, 0))
    rw [e]

/-- An image of two pixels in three channels is encodable. -/
example : Encodable .rgb [Mat.ofFn 1 2 fun _ _ => (1 : ℕ), Mat.ofFn 1 2 fun _ _ => 2, Mat.ofFn 1 2 fun _ _ => 3] 0 1 2 := by
  refine ⟨by decide, by decide, ?_⟩
  intro c hc
  have hc' : c < 3 := hc
  interval_cases c
  · exact ⟨_, rfl, rfl, rfl⟩
  · exact ⟨_, rfl, rfl, rfl⟩
  · exact ⟨_, rfl, rfl, rfl⟩

end WB.Props
