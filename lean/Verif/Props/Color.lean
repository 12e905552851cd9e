import Verif.Proof.Color
import Verif.Spec.Color

/-! Properties C41 and C42: colour conversion. -/

namespace WB.Props

open WB

/-- C41: converting a colour of the unit cube to HSL and back succeeds and changes no component by more than 0.001. -/
theorem C41_round_trip (c : ℝ × ℝ × ℝ) (hc : UnitColour c) :
    ∃ d, rgbToHsl c.1 c.2.1 c.2.2 = .ok d ∧ Within (1 / 1000) (hslToRgb d.1 d.2.1 d.2.2) c := by
  obtain ⟨h, s, l, e, -, -, -, r', g', b', e', h1, h2, h3, -⟩ := rgb_round_trip hc.1 hc.2.1 hc.2.2
  refine ⟨(h, s, l), e, ?_⟩
  show Within _ (hslToRgb h s l) c
  rw [e']; exact ⟨h1, h2, h3⟩

/-- C41: a colour that is not nearly gray comes back within 0.0001, and exactly if its largest component is clear. -/
theorem C41_exact (c : ℝ × ℝ × ℝ) (hc : UnitColour c) (hg : 1 / 1000 ≤ brightest c - darkest c) :
    ∃ d, rgbToHsl c.1 c.2.1 c.2.2 = .ok d ∧ Within (1 / 10000) (hslToRgb d.1 d.2.1 d.2.2) c ∧
      (ClearMaximum c → hslToRgb d.1 d.2.1 d.2.2 = c) := by
  obtain ⟨h, s, l, e, -, -, -, r', g', b', e', -, -, -, hh⟩ := rgb_round_trip hc.1 hc.2.1 hc.2.2
  obtain ⟨h1, h2, h3, h4⟩ := hh hg
  refine ⟨(h, s, l), e, ?_, ?_⟩
  · show Within _ (hslToRgb h s l) c
    rw [e']; exact ⟨h1, h2, h3⟩
  · intro hm
    show hslToRgb h s l = c
    obtain ⟨a1, a2, a3⟩ := h4 hm
    rw [e', a1, a2, a3]

/-- C42: `RGBToHSL` maps the unit cube into the unit cube, never dividing by zero. -/
theorem C42_rgb_to_hsl (c : ℝ × ℝ × ℝ) (hc : UnitColour c) :
    ∃ d, rgbToHsl c.1 c.2.1 c.2.2 = .ok d ∧ UnitColour d := by
  obtain ⟨h, s, l, e, h1, h2, h3, -⟩ := rgb_round_trip hc.1 hc.2.1 hc.2.2
  exact ⟨(h, s, l), e, h1, h2, h3⟩

/-- C42: `HSLToRGB` maps the unit cube into the unit cube. -/
theorem C42_hsl_to_rgb (d : ℝ × ℝ × ℝ) (hd : UnitColour d) : UnitColour (hslToRgb d.1 d.2.1 d.2.2) := by
  obtain ⟨r, g, b, e, h⟩ := hsl_range hd.1 hd.2.1 hd.2.2
  rw [e]; exact h

/-- C41 and C42 for whole images: converting three channels of unit values to HSL and back succeeds, touches no other
channel, keeps all sizes, stays in range in between, and changes no sample by more than 0.001. -/
theorem C41_image (img : List (Mat ℝ)) (sc rows cols : ℕ) (h3 : ThreeChannels img sc rows cols)
    (hu : ∀ y < rows, ∀ x < cols, UnitColour (pixel img sc y x)) :
    ∃ mid out, convertRgbToHsl img sc = .ok mid ∧ convertHslToRgb mid sc = .ok out ∧
      ThreeChannels mid sc rows cols ∧ ThreeChannels out sc rows cols ∧
      mid.length = img.length ∧ out.length = img.length ∧
      (∀ ch, ch < sc ∨ sc + 3 ≤ ch → mid[ch]? = img[ch]? ∧ out[ch]? = img[ch]?) ∧
      ∀ y < rows, ∀ x < cols, rgbToHsl (pixel img sc y x).1 (pixel img sc y x).2.1 (pixel img sc y x).2.2 = .ok (pixel mid sc y x) ∧
        UnitColour (pixel mid sc y x) ∧ UnitColour (pixel out sc y x) ∧
        Within (1 / 1000) (pixel out sc y x) (pixel img sc y x) := by
  classical
  have hx : ∀ a b c : ℝ, ∃ d, UnitColour (a, b, c) → rgbToHsl a b c = .ok d := by
    intro a b c
    by_cases h : UnitColour (a, b, c)
    · obtain ⟨d, hd, -⟩ := C42_rgb_to_hsl _ h
      exact ⟨d, fun _ => hd⟩
    · exact ⟨(0, 0, 0), fun h' => absurd h' h⟩
  choose g hg using hx
  obtain ⟨mid, e1, l1, t1, o1, p1⟩ := convert_spec rgbToHsl img sc rows cols h3 g
    (fun y hy x hx => hg _ _ _ (hu y hy x hx))
  obtain ⟨out, e2, l2, t2, o2, p2⟩ := convert_spec (fun h s l => .ok (hslToRgb h s l)) mid sc rows cols t1 hslToRgb
    (fun y hy x hx => rfl)
  refine ⟨mid, out, e1, e2, t1, t2, l1, l2.trans l1, fun ch hch => ⟨o1 ch hch, (o2 ch hch).trans (o1 ch hch)⟩, ?_⟩
  intro y hy x hx
  have hgp := hg (pixel img sc y x).1 (pixel img sc y x).2.1 (pixel img sc y x).2.2 (hu y hy x hx)
  rw [← p1 y hy x hx] at hgp
  obtain ⟨d, hd, hd'⟩ := C42_rgb_to_hsl _ (hu y hy x hx)
  obtain ⟨d2, hd2, hd2'⟩ := C41_round_trip _ (hu y hy x hx)
  rw [hgp] at hd hd2
  cases hd; cases hd2
  refine ⟨hgp, hd', ?_, ?_⟩
  · rw [p2 y hy x hx]; exact C42_hsl_to_rgb _ hd'
  · rw [p2 y hy x hx]; exact hd2'

/-- The hypotheses of C41 are met by an orange; it comes back exactly. -/
example : UnitColour (9 / 10, 1 / 2, 1 / 10) ∧ ClearMaximum (9 / 10, 1 / 2, 1 / 10) ∧
    (1 : ℝ) / 1000 ≤ brightest (9 / 10, 1 / 2, 1 / 10) - darkest (9 / 10, 1 / 2, 1 / 10) := by
  have hb : brightest (9 / 10, 1 / 2, 1 / 10) = 9 / 10 := by
    unfold brightest; rw [max_eq_left (by norm_num : (1 : ℝ) / 10 ≤ 1 / 2), max_eq_left (by norm_num)]
  have hd : darkest (9 / 10, 1 / 2, 1 / 10) = 1 / 10 := by
    unfold darkest; rw [min_eq_right (by norm_num : (1 : ℝ) / 10 ≤ 1 / 2), min_eq_right (by norm_num)]
  refine ⟨⟨⟨by norm_num, by norm_num⟩, ⟨by norm_num, by norm_num⟩, ⟨by norm_num, by norm_num⟩⟩, ?_, ?_⟩
  · intro x hx h
    rw [hb] at h ⊢
    simp only [List.mem_cons, List.not_mem_nil, or_false] at hx
    rcases hx with rfl | rfl | rfl
    · rfl
    · norm_num at h
    · norm_num at h
  · rw [hb, hd]; norm_num

/-- An image of one pixel in three channels behind an unrelated channel. -/
example : ThreeChannels [Mat.ofFn 2 5 fun _ _ => 7, Mat.ofFn 1 1 fun _ _ => 9 / 10, Mat.ofFn 1 1 fun _ _ => 1 / 2,
    Mat.ofFn 1 1 fun _ _ => 1 / 10] 1 1 1 := by
  intro k hk
  interval_cases k
  · exact ⟨_, rfl, rfl, rfl⟩
  · exact ⟨_, rfl, rfl, rfl⟩
  · exact ⟨_, rfl, rfl, rfl⟩

end WB.Props
