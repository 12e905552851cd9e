import Verif.Spec.Codec
import Verif.Proof.Color

/-! Helper lemmas about the codecs. -/

namespace WB

set_option linter.unusedSectionVars false

variable {α : Type} [Inhabited α]

theorem fillMat_ok (rows cols : ℕ) (f : ℕ → ℕ → Outcome α) (g : ℕ → ℕ → α) (h : ∀ i < rows, ∀ j < cols, f i j = .ok (g i j)) :
    fillMat rows cols f = .ok (Mat.ofFn rows cols g) := by
  unfold fillMat
  have key : ∀ n ∈ List.range (rows * cols), f (n / cols) (n % cols) = .ok (g (n / cols) (n % cols)) := by
    intro n hn
    rw [List.mem_range] at hn
    have hc : 0 < cols := by
      rcases Nat.eq_zero_or_pos cols with h0 | h0
      · rw [h0] at hn; omega
      · exact h0
    exact h _ (Nat.div_lt_of_lt_mul (by rwa [Nat.mul_comm] at hn)) _ (Nat.mod_lt _ hc)
  rw [Outcome.mapM_ok key, Outcome.bind_ok]
  show Outcome.ok _ = _
  congr 1
  apply Mat.ofFn_congr
  intro i hi j hj
  have := Mat.idx_lt hi hj
  simp [List.getD, this, Mat.idx_div hj, Mat.idx_mod hj]

theorem fillMat_ub (rows cols : ℕ) (f : ℕ → ℕ → Outcome α) (hr : 0 < rows) (hc : 0 < cols) (h : f 0 0 = .ub) :
    fillMat rows cols f = .ub := by
  unfold fillMat
  obtain ⟨n, hn⟩ : ∃ n, rows * cols = n + 1 := ⟨rows * cols - 1, by have := Nat.mul_pos hr hc; omega⟩
  rw [hn, List.range_succ_eq_map, List.mapM_cons]
  simp [h]

/-- Reading a pixel of an image that exists. -/
theorem at_ok (im : CImg) {x y c : ℕ} (hx : x < im.width) (hy : y < im.height) (hc : c < im.spectrum) :
    ∃ b, im.at x y c = .ok b := by
  unfold CImg.at
  rw [if_pos ⟨hx, hy, hc⟩]
  have h1 : x + y * im.width < im.width * im.height := by
    have := Mat.idx_lt hy hx
    rw [Nat.mul_comm im.width]; omega
  have h2 := Mat.idx_lt hc h1
  rw [Nat.mul_comm im.spectrum] at h2
  rw [rd_ok (by rw [im.wf]; omega)]
  exact ⟨_, rfl⟩

/-- The byte at a place of an image. -/
def CImg.px (im : CImg) (x y c : ℕ) : UInt8 := im.data.getD (x + y * im.width + c * (im.width * im.height)) 0

theorem at_px (im : CImg) {x y c : ℕ} (hx : x < im.width) (hy : y < im.height) (hc : c < im.spectrum) :
    im.at x y c = .ok (im.px x y c) := by
  obtain ⟨b, hb⟩ := at_ok im hx hy hc
  rw [hb]
  unfold CImg.at at hb
  rw [if_pos ⟨hx, hy, hc⟩] at hb
  unfold rd at hb
  unfold CImg.px
  split at hb
  · rename_i a ha
    cases hb
    simp [List.getD, ha]
  · cases hb

theorem decodeChannel_ok (e : JpegExt α) (img : CImg) {c : ℕ} (hc : c < img.spectrum) :
    decodeChannel e img c = .ok (Mat.ofFn img.height img.width fun y x => e.ofPx (img.px x y c)) := by
  unfold decodeChannel
  apply fillMat_ok
  intro i hi j hj
  rw [at_px img hj hi hc]; rfl

theorem growTo_length (im : List (Mat α)) (n : ℕ) : (growTo im n).length = max im.length n := by
  unfold growTo; split <;> simp <;> omega

theorem growTo_old (im : List (Mat α)) (n : ℕ) {ch : ℕ} (h : ch < im.length) : (growTo im n)[ch]? = im[ch]? := by
  unfold growTo; split
  · rw [List.getElem?_append_left h]
  · rfl

theorem growTo_new (im : List (Mat α)) (n : ℕ) {ch : ℕ} (h : im.length ≤ ch) (h' : ch < n) :
    (growTo im n)[ch]? = some Mat.empty := by
  unfold growTo
  rw [if_pos (by omega), List.getElem?_append_right h, List.getElem?_replicate, if_pos (by omega)]

theorem decodeRgb_ok (e : JpegExt α) (img : CImg) (im : List (Mat α)) (sc : ℕ) (hs : 3 ≤ img.spectrum) (hsc : sc + 3 < 2 ^ 64) :
    decodeRgb e img im sc = .ok ((((growTo im (sc + 3)).set sc
      (Mat.ofFn img.height img.width fun y x => e.ofPx (img.px x y 0))).set (sc + 1)
      (Mat.ofFn img.height img.width fun y x => e.ofPx (img.px x y 1))).set (sc + 2)
      (Mat.ofFn img.height img.width fun y x => e.ofPx (img.px x y 2))) := by
  unfold decodeRgb
  rw [Nat.mod_eq_of_lt hsc, show sc + 3 - sc = 3 by omega]
  have hl : sc + 3 ≤ (growTo im (sc + 3)).length := by rw [growTo_length]; omega
  simp only [List.range', List.foldlM_cons, List.foldlM_nil]
  rw [show sc - sc = 0 by omega, show sc + 1 - sc = 1 by omega, show sc + 1 + 1 - sc = 2 by omega,
    decodeChannel_ok e img (by omega : 0 < img.spectrum), decodeChannel_ok e img (by omega : 1 < img.spectrum),
    decodeChannel_ok e img (by omega : 2 < img.spectrum)]
  simp only [Outcome.bind_ok, putChannel]
  rw [if_pos (by omega)]
  simp only [Outcome.bind_ok, List.length_set]
  rw [if_pos (by omega)]
  simp only [Outcome.bind_ok, List.length_set]
  rw [if_pos (by omega)]
  rfl

theorem checkThree_ok (im : List (Mat α)) (sc : ℕ) (hsc : sc + 3 < 2 ^ 64) :
    ∃ good, checkThree im sc = .ok good ∧ (good = true ↔ ∃ rows cols, Encodable .rgb im sc rows cols) := by
  unfold checkThree
  rw [Nat.add_comm 3 sc, Nat.mod_eq_of_lt hsc]
  by_cases hl : im.length < sc + 3
  · rw [if_pos hl]
    refine ⟨false, rfl, ?_⟩
    constructor
    · intro h; cases h
    · rintro ⟨r, c, -, -, h⟩
      obtain ⟨m, hm, -⟩ := h 2 (by decide)
      rw [List.getElem?_eq_none (by omega)] at hm; cases hm
  · rw [if_neg hl, show sc + 3 - (sc + 1) = 2 by omega]
    have l0 : sc < im.length := by omega
    have l1 : sc + 1 < im.length := by omega
    have l2 : sc + 1 + 1 < im.length := by omega
    rw [rd_ok l0, Outcome.bind_ok]
    simp only [List.range', List.foldlM_cons, List.foldlM_nil, if_true, rd_ok l1, Outcome.bind_ok, Outcome.pure_eq]
    refine ⟨decide (im[sc + 1].rows = im[sc].rows ∧ im[sc + 1].cols = im[sc].cols) &&
      decide (im[sc + 1 + 1].rows = im[sc].rows ∧ im[sc + 1 + 1].cols = im[sc].cols) &&
      decide (im[sc].rows ≠ 0 ∧ im[sc].cols ≠ 0), ?_, ?_⟩
    · by_cases h : im[sc + 1].rows = im[sc].rows ∧ im[sc + 1].cols = im[sc].cols
      · simp [h, rd_ok l2]
      · simp [h]
    · simp only [Bool.and_eq_true, decide_eq_true_eq]
      constructor
      · rintro ⟨⟨h1, h2⟩, h3⟩
        refine ⟨im[sc].rows, im[sc].cols, by omega, by omega, ?_⟩
        intro c hc
        have hc' : c < 3 := hc
        interval_cases c
        · exact ⟨_, List.getElem?_eq_getElem l0, rfl, rfl⟩
        · exact ⟨_, List.getElem?_eq_getElem l1, h1.1, h1.2⟩
        · exact ⟨_, List.getElem?_eq_getElem l2, h2.1, h2.2⟩
      · rintro ⟨r, c, h1, h2, h⟩
        obtain ⟨m0, a0, b0, c0⟩ := h 0 (by decide)
        obtain ⟨m1, a1, b1, c1⟩ := h 1 (by decide)
        obtain ⟨m2, a2, b2, c2⟩ := h 2 (by decide)
        have e0 : im[sc] = m0 := by
          have := List.getElem?_eq_getElem l0; rw [Nat.add_zero] at a0; rw [a0] at this; cases this; rfl
        have e1 : im[sc + 1] = m1 := by
          have := List.getElem?_eq_getElem l1; rw [a1] at this; cases this; rfl
        have e2 : im[sc + 1 + 1] = m2 := by
          have := List.getElem?_eq_getElem l2; rw [a2] at this; cases this; rfl
        rw [e0, e1, e2, b0, b1, b2, c0, c1, c2]
        exact ⟨⟨⟨rfl, rfl⟩, rfl, rfl⟩, by omega, by omega⟩

theorem checkOne_ok (im : List (Mat α)) (sc : ℕ) (hsc : sc + 3 < 2 ^ 64) :
    ∃ good, checkOne im sc = .ok good ∧ (good = true ↔ ∃ rows cols, Encodable .gray im sc rows cols) := by
  unfold checkOne
  rw [Nat.mod_eq_of_lt (by omega)]
  by_cases hl : im.length < sc + 1
  · rw [if_pos hl]
    refine ⟨false, rfl, ?_⟩
    constructor
    · intro h; cases h
    · rintro ⟨r, c, -, -, h⟩
      obtain ⟨m, hm, -⟩ := h 0 (by decide)
      rw [List.getElem?_eq_none (by omega)] at hm; cases hm
  · rw [if_neg hl]
    have l0 : sc < im.length := by omega
    rw [rd_ok l0, Outcome.bind_ok]
    refine ⟨_, rfl, ?_⟩
    simp only [decide_eq_true_eq]
    constructor
    · intro h
      have h1 : im[sc].cols ≠ 0 := by intro h0; rw [h0] at h; simp at h
      have h2 : im[sc].rows ≠ 0 := by intro h0; rw [h0] at h; simp at h
      refine ⟨im[sc].rows, im[sc].cols, by omega, by omega, ?_⟩
      intro c hc
      have hc' : c < 1 := hc
      interval_cases c
      exact ⟨_, List.getElem?_eq_getElem l0, rfl, rfl⟩
    · rintro ⟨r, c, h1, h2, h⟩
      obtain ⟨m0, a0, b0, c0⟩ := h 0 (by decide)
      have e0 : im[sc] = m0 := by
        have := List.getElem?_eq_getElem l0; rw [Nat.add_zero] at a0; rw [a0] at this; cases this; rfl
      rw [e0, b0, c0]
      have := Nat.mul_pos h2 h1
      omega

/-- The image that the library gets. -/
theorem toCImg_ok (e : JpegExt α) (tp : α → UInt8) (im : List (Mat α)) (sc n rows cols : ℕ)
    (htp : ∀ x < cols, ∀ y < rows, ∀ c < n, e.toPx (sampleAt im (sc + c) y x) = .ok (tp (sampleAt im (sc + c) y x)))
    (hn : 0 < n) (h : ∀ c < n, ∃ m, im[sc + c]? = some m ∧ m.rows = rows ∧ m.cols = cols) :
    ∃ img, toCImg e im sc n = .ok img ∧ img.width = cols ∧ img.height = rows ∧ img.spectrum = n ∧
      ∀ x < cols, ∀ y < rows, ∀ c < n, img.at x y c = .ok (tp (sampleAt im (sc + c) y x)) := by
  obtain ⟨m0, a0, rfl, rfl⟩ := h 0 hn
  have hget : ∀ c < n, ∀ y < m0.rows, ∀ x < m0.cols, imgAt im (sc + c) y x = .ok (sampleAt im (sc + c) y x) := by
    intro c hc y hy x hx
    obtain ⟨m, a, b, d⟩ := h c hc
    unfold imgAt matAt sampleAt
    have : rd im (sc + c) = .ok m := by simp [rd, a]
    rw [this, Outcome.bind_ok, if_pos (by omega)]
    simp [List.getD, a]
  have hrd : rd im sc = .ok m0 := by rw [Nat.add_zero] at a0; simp [rd, a0]
  set g : ℕ → UInt8 := fun k => tp (sampleAt im (sc + k / (m0.cols * m0.rows)) (k % (m0.cols * m0.rows) / m0.cols) (k % m0.cols)) with hg
  have key : ∀ k ∈ List.range (m0.cols * m0.rows * n),
      (imgAt im (sc + k / (m0.cols * m0.rows)) (k % (m0.cols * m0.rows) / m0.cols) (k % m0.cols) >>= fun x => e.toPx x) =
        .ok (g k) := by
    intro k hk
    rw [List.mem_range] at hk
    have hpos : 0 < m0.cols * m0.rows := by
      rcases Nat.eq_zero_or_pos (m0.cols * m0.rows) with h0 | h0
      · rw [h0] at hk; omega
      · exact h0
    have hc0 : 0 < m0.cols := Nat.pos_of_mul_pos_right hpos
    rw [hget _ (Nat.div_lt_of_lt_mul hk) _ (Nat.div_lt_of_lt_mul (Nat.mod_lt _ hpos)) _ (Nat.mod_lt _ hc0), Outcome.bind_ok,
      htp _ (Nat.mod_lt _ hc0) _ (Nat.div_lt_of_lt_mul (Nat.mod_lt _ hpos)) _ (Nat.div_lt_of_lt_mul hk)]
  unfold toCImg
  rw [hrd, Outcome.bind_ok, Outcome.mapM_ok key, Outcome.bind_ok, dif_pos (by simp)]
  refine ⟨_, rfl, rfl, rfl, rfl, ?_⟩
  intro x hx y hy c hc
  unfold CImg.at
  simp only
  rw [if_pos ⟨hx, hy, hc⟩]
  have h1 : x + y * m0.cols < m0.cols * m0.rows := by
    have := Mat.idx_lt hy hx
    rw [Nat.mul_comm m0.cols]; omega
  have h2 : x + y * m0.cols + c * (m0.cols * m0.rows) < m0.cols * m0.rows * n := by
    have := Mat.idx_lt hc h1
    rw [Nat.mul_comm _ n]; omega
  rw [rd_ok (by simpa using h2)]
  simp only [List.getElem_map, List.getElem_range, hg]
  have e1 : (x + y * m0.cols + c * (m0.cols * m0.rows)) / (m0.cols * m0.rows) = c := by
    rw [Nat.add_comm]; exact Mat.idx_div h1
  have e2 : (x + y * m0.cols + c * (m0.cols * m0.rows)) % (m0.cols * m0.rows) = x + y * m0.cols := by
    rw [Nat.add_comm]; exact Mat.idx_mod h1
  have e3 : (x + y * m0.cols) / m0.cols = y := by rw [Nat.add_comm]; exact Mat.idx_div hx
  have e4 : (x + y * m0.cols + c * (m0.cols * m0.rows)) % m0.cols = x := by
    have : x + y * m0.cols + c * (m0.cols * m0.rows) = (y + c * m0.rows) * m0.cols + x := by ring
    rw [this]; exact Mat.idx_mod hx
  rw [e1, e2, e3, e4]

end WB
