import Verif.Model.Color
import Verif.Proof.Denoise
import Verif.Spec.Color
import Mathlib.Tactic.IntervalCases
import Mathlib.Tactic.Linarith
import Mathlib.Tactic.FieldSimp
import Mathlib.Tactic.NormNum

/-! Helper lemmas about the colour conversions. -/

namespace WB

theorem divBy_ok {x y : ℝ} (h : y ≠ 0) : divBy x y = .ok (x / y) := by simp [divBy, h]

/-- Saturation and what `HSLToRGB` recovers from it. -/
theorem sat_ok {mn mx : ℝ} (h0 : 0 ≤ mn) (h1 : mx ≤ 1) (hd : 1 / 1000 ≤ mx - mn) :
    ∃ s, (if (mx + mn) / 2 < 1 / 2 then divBy (mx - mn) (mx + mn) else divBy (mx - mn) (2 - (mx + mn))) = .ok s ∧
      1 / 1000 ≤ s ∧ s ≤ 1 ∧
      (if (mx + mn) / 2 < 1 / 2 then (mx + mn) / 2 * (1 + s) else ((mx + mn) / 2 + s) - (mx + mn) / 2 * s) = mx := by
  by_cases h : (mx + mn) / 2 < 1 / 2
  · have hp : 0 < mx + mn := by linarith
    refine ⟨(mx - mn) / (mx + mn), ?_, ?_, ?_, ?_⟩
    · rw [if_pos h, divBy_ok hp.ne']
    · rw [le_div_iff₀ hp]; nlinarith
    · rw [div_le_one hp]; linarith
    · rw [if_pos h]; field_simp; ring
  · have hp : 0 < 2 - (mx + mn) := by linarith
    refine ⟨(mx - mn) / (2 - (mx + mn)), ?_, ?_, ?_, ?_⟩
    · rw [if_neg h, divBy_ok hp.ne']
    · rw [le_div_iff₀ hp]; nlinarith
    · rw [div_le_one hp]; linarith
    · rw [if_neg h]; field_simp; ring

/-- The three ramps of `HSLToRGB` at hue `h`. -/
noncomputable def ramps (t1 t2 h : ℝ) : ℝ × ℝ × ℝ :=
  (hueRamp t1 t2 (if h + 1 / 3 > 1 then h + 1 / 3 - 1 else h + 1 / 3), hueRamp t1 t2 h,
    hueRamp t1 t2 (if h - 1 / 3 < 0 then h - 1 / 3 + 1 else h - 1 / 3))

/-- The hue after wrapping. -/
noncomputable def wrapHue (h : ℝ) : ℝ := if h < 0 then h + 1 else h

theorem ramps_red {t1 t2 q : ℝ} (h1 : -1 ≤ q) (h2 : q ≤ 1) :
    ramps t1 t2 (wrapHue (q / 6)) = (t1, t2 + (t1 - t2) * max q 0, t2 + (t1 - t2) * max (-q) 0) := by
  unfold ramps wrapHue
  by_cases h : q / 6 < 0
  · have hq : q < 0 := by linarith
    rw [if_pos h, max_eq_right hq.le, max_eq_left (by linarith)]
    rw [if_pos (by linarith : q / 6 + 1 + 1 / 3 > 1), if_neg (by linarith : ¬ q / 6 + 1 - 1 / 3 < 0)]
    refine Prod.ext ?_ (Prod.ext ?_ ?_)
    · simp only [hueRamp]; rw [if_neg (by linarith), if_pos (by linarith)]
    · simp only [hueRamp]; rw [if_neg (by linarith), if_neg (by linarith), if_neg (by linarith)]; ring
    · simp only [hueRamp]; rw [if_neg (by linarith), if_neg (by linarith), if_pos (by linarith)]; ring
  · have hq : 0 ≤ q := by linarith
    rw [if_neg h, max_eq_left hq, max_eq_right (by linarith)]
    rw [if_neg (by linarith : ¬ q / 6 + 1 / 3 > 1), if_pos (by linarith : q / 6 - 1 / 3 < 0)]
    refine Prod.ext ?_ (Prod.ext ?_ ?_)
    · simp only [hueRamp]; rw [if_neg (by linarith)]
      split
      · rfl
      · have : q = 1 := by linarith
        subst this
        rw [if_pos (by norm_num)]; ring
    · simp only [hueRamp]
      split
      · ring
      · have : q = 1 := by linarith
        subst this
        rw [if_pos (by norm_num)]; ring
    · simp only [hueRamp]; rw [if_neg (by linarith), if_neg (by linarith), if_neg (by linarith)]; ring

theorem ramps_green {t1 t2 q : ℝ} (h1 : -1 ≤ q) (h2 : q ≤ 1) :
    ramps t1 t2 (wrapHue ((2 + q) / 6)) = (t2 + (t1 - t2) * max (-q) 0, t1, t2 + (t1 - t2) * max q 0) := by
  unfold ramps wrapHue
  rw [if_neg (by linarith : ¬ (2 + q) / 6 < 0), if_neg (by linarith : ¬ (2 + q) / 6 + 1 / 3 > 1)]
  refine Prod.ext ?_ (Prod.ext ?_ ?_)
  · simp only [hueRamp]
    rw [if_neg (by linarith), if_neg (by linarith)]
    split
    · rw [max_eq_left (by linarith)]; ring
    · rw [max_eq_right (by linarith)]; ring
  · simp only [hueRamp]
    rw [if_neg (by linarith)]
    split
    · rfl
    · have : q = 1 := by linarith
      subst this
      rw [if_pos (by norm_num)]; ring
  · simp only [hueRamp]
    by_cases h : q < 0
    · rw [if_pos (by linarith : (2 + q) / 6 - 1 / 3 < 0), if_neg (by linarith), if_neg (by linarith), if_neg (by linarith),
        max_eq_right h.le]
      ring
    · rw [if_neg (by linarith : ¬ (2 + q) / 6 - 1 / 3 < 0), max_eq_left (by linarith)]
      split
      · ring
      · have : q = 1 := by linarith
        subst this
        rw [if_pos (by norm_num)]; ring

theorem ramps_blue {t1 t2 q : ℝ} (h1 : -1 ≤ q) (h2 : q ≤ 1) :
    ramps t1 t2 (wrapHue ((4 + q) / 6)) = (t2 + (t1 - t2) * max q 0, t2 + (t1 - t2) * max (-q) 0, t1) := by
  unfold ramps wrapHue
  rw [if_neg (by linarith : ¬ (4 + q) / 6 < 0), if_neg (by linarith : ¬ (4 + q) / 6 - 1 / 3 < 0)]
  refine Prod.ext ?_ (Prod.ext ?_ ?_)
  · simp only [hueRamp]
    by_cases h : 0 < q
    · rw [if_pos (by linarith : (4 + q) / 6 + 1 / 3 > 1), max_eq_left h.le]
      split
      · ring
      · have : q = 1 := by linarith
        subst this
        rw [if_pos (by norm_num)]; ring
    · rw [if_neg (by linarith : ¬ (4 + q) / 6 + 1 / 3 > 1), if_neg (by linarith), if_neg (by linarith), if_neg (by linarith),
        max_eq_right (by linarith)]
      ring
  · simp only [hueRamp]
    rw [if_neg (by linarith), if_neg (by linarith)]
    split
    · rw [max_eq_left (by linarith)]; ring
    · rw [max_eq_right (by linarith)]; ring
  · simp only [hueRamp]
    rw [if_neg (by linarith)]
    split
    · rfl
    · have : q = 1 := by linarith
      subst this
      rw [if_pos (by norm_num)]; ring

/-- The hue, its range, and the colour that the ramps give back. -/
theorem hue_ok {r g b : ℝ} (hd : 1 / 1000 ≤ max r (max g b) - min r (min g b)) :
    ∃ h, rawHue r g b = .ok h ∧ 0 ≤ wrapHue h ∧ wrapHue h ≤ 1 ∧
      ∃ r' g' b', ramps (max r (max g b)) (min r (min g b)) (wrapHue h) = (r', g', b') ∧
        |r' - r| ≤ 1 / 10000 ∧ |g' - g| ≤ 1 / 10000 ∧ |b' - b| ≤ 1 / 10000 ∧
        ((∀ c ∈ [r, g, b], max r (max g b) - c < 1 / 10000 → c = max r (max g b)) → r' = r ∧ g' = g ∧ b' = b) := by
  set mx := max r (max g b) with hmx
  set mn := min r (min g b) with hmn
  have hD : 0 < mx - mn := by linarith
  have hr : r ≤ mx := le_max_left _ _
  have hg : g ≤ mx := le_trans (le_max_left _ _) (le_max_right _ _)
  have hb : b ≤ mx := le_trans (le_max_right _ _) (le_max_right _ _)
  have hr' : mn ≤ r := min_le_left _ _
  have hg' : mn ≤ g := le_trans (min_le_right _ _) (min_le_left _ _)
  have hb' : mn ≤ b := le_trans (min_le_right _ _) (min_le_right _ _)
  have hmxc : mx = r ∨ mx = g ∨ mx = b := by
    rcases max_choice r (max g b) with h | h
    · exact Or.inl h
    · rcases max_choice g b with h' | h'
      · exact Or.inr (Or.inl (h.trans h'))
      · exact Or.inr (Or.inr (h.trans h'))
  have hmnc : mn = r ∨ mn = g ∨ mn = b := by
    rcases min_choice r (min g b) with h | h
    · exact Or.inl h
    · rcases min_choice g b with h' | h'
      · exact Or.inr (Or.inl (h.trans h'))
      · exact Or.inr (Or.inr (h.trans h'))
  have hmxc' : mx ≤ r ∨ mx ≤ g ∨ mx ≤ b := by
    rcases hmxc with h | h | h
    · exact Or.inl h.le
    · exact Or.inr (Or.inl h.le)
    · exact Or.inr (Or.inr h.le)
  have hmnc' : r ≤ mn ∨ g ≤ mn ∨ b ≤ mn := by
    rcases hmnc with h | h | h
    · exact Or.inl h.ge
    · exact Or.inr (Or.inl h.ge)
    · exact Or.inr (Or.inr h.ge)
  clear_value mx mn
  have qb : ∀ x y : ℝ, mn ≤ x → x ≤ mx → mn ≤ y → y ≤ mx → -1 ≤ (x - y) / (mx - mn) ∧ (x - y) / (mx - mn) ≤ 1 := by
    intro x y _ _ _ _
    constructor
    · rw [le_div_iff₀ hD]; linarith
    · rw [div_le_iff₀ hD]; linarith
  have mul1 : ∀ x y : ℝ, (mx - mn) * max ((x - y) / (mx - mn)) 0 = max (x - y) 0 := by
    intro x y
    rw [mul_max_of_nonneg _ _ hD.le, mul_div_cancel₀ _ hD.ne', mul_zero]
  have mul2 : ∀ x y : ℝ, (mx - mn) * max (-((x - y) / (mx - mn))) 0 = max (y - x) 0 := by
    intro x y
    have : -((x - y) / (mx - mn)) = (y - x) / (mx - mn) := by ring
    rw [this, mul1]
  have wrap : ∀ q : ℝ, -1 ≤ q → q ≤ 1 → ∀ k : ℝ, (k = 0 ∨ k = 2 ∨ k = 4) → 0 ≤ wrapHue ((k + q) / 6) ∧
      wrapHue ((k + q) / 6) ≤ 1 := by
    intro q h1 h2 k hk
    unfold wrapHue
    split <;> rcases hk with rfl | rfl | rfl <;> constructor <;> linarith
  -- the difference to the result, given where the components end up
  by_cases c1 : |mx - r| < 1 / 10000
  · have a := abs_lt.1 c1
    obtain ⟨q1, q2⟩ := qb g b hg' hg hb' hb
    refine ⟨(g - b) / (mx - mn) / 6, ?_, ?_⟩
    · unfold rawHue
      simp only [← hmx, ← hmn]
      rw [if_pos c1, divBy_ok hD.ne']; rfl
    obtain ⟨w1, w2⟩ := wrap _ q1 q2 0 (Or.inl rfl)
    rw [zero_add] at w1 w2
    refine ⟨w1, w2, _, _, _, ramps_red q1 q2, ?_⟩
    rw [mul1, mul2]
    have hmn2 : g ≤ mn ∨ b ≤ mn := by
      rcases hmnc' with h | h | h
      · exfalso; linarith
      · exact Or.inl h
      · exact Or.inr h
    rcases le_total g b with hgb | hgb
    · rw [max_eq_right (by linarith : g - b ≤ 0), max_eq_left (by linarith : 0 ≤ b - g)]
      have hgm : g = mn := by rcases hmn2 with h | h <;> linarith
      refine ⟨by rw [abs_le]; constructor <;> linarith, by rw [abs_le]; constructor <;> linarith,
        by rw [abs_le]; constructor <;> linarith, fun hu => ?_⟩
      have := hu r (by simp) (by linarith)
      exact ⟨this.symm, by linarith, by linarith⟩
    · rw [max_eq_left (by linarith : 0 ≤ g - b), max_eq_right (by linarith : b - g ≤ 0)]
      have hbm : b = mn := by rcases hmn2 with h | h <;> linarith
      refine ⟨by rw [abs_le]; constructor <;> linarith, by rw [abs_le]; constructor <;> linarith,
        by rw [abs_le]; constructor <;> linarith, fun hu => ?_⟩
      have := hu r (by simp) (by linarith)
      exact ⟨this.symm, by linarith, by linarith⟩
  · have cr : 1 / 10000 ≤ mx - r := by
      rw [not_lt, abs_of_nonneg (by linarith)] at c1; exact c1
    by_cases c2 : |mx - g| < 1 / 10000
    · have a := abs_lt.1 c2
      obtain ⟨q1, q2⟩ := qb b r hb' hb hr' hr
      refine ⟨(2 + (b - r) / (mx - mn)) / 6, ?_, ?_⟩
      · unfold rawHue
        simp only [← hmx, ← hmn]
        rw [if_neg c1, if_pos c2, divBy_ok hD.ne']; rfl
      obtain ⟨w1, w2⟩ := wrap _ q1 q2 2 (Or.inr (Or.inl rfl))
      refine ⟨w1, w2, _, _, _, ramps_green q1 q2, ?_⟩
      rw [mul1, mul2]
      have hmn2 : r ≤ mn ∨ b ≤ mn := by
        rcases hmnc' with h | h | h
        · exact Or.inl h
        · exfalso; linarith
        · exact Or.inr h
      rcases le_total b r with hbr | hbr
      · rw [max_eq_right (by linarith : b - r ≤ 0), max_eq_left (by linarith : 0 ≤ r - b)]
        have hbm : b = mn := by rcases hmn2 with h | h <;> linarith
        refine ⟨by rw [abs_le]; constructor <;> linarith, by rw [abs_le]; constructor <;> linarith,
          by rw [abs_le]; constructor <;> linarith, fun hu => ?_⟩
        have := hu g (by simp) (by linarith)
        exact ⟨by linarith, this.symm, by linarith⟩
      · rw [max_eq_left (by linarith : 0 ≤ b - r), max_eq_right (by linarith : r - b ≤ 0)]
        have hrm : r = mn := by rcases hmn2 with h | h <;> linarith
        refine ⟨by rw [abs_le]; constructor <;> linarith, by rw [abs_le]; constructor <;> linarith,
          by rw [abs_le]; constructor <;> linarith, fun hu => ?_⟩
        have := hu g (by simp) (by linarith)
        exact ⟨by linarith, this.symm, by linarith⟩
    · have cg : 1 / 10000 ≤ mx - g := by
        rw [not_lt, abs_of_nonneg (by linarith)] at c2; exact c2
      have hbx : b = mx := by
        rcases hmxc' with h | h | h
        · exfalso; linarith
        · exfalso; linarith
        · linarith
      obtain ⟨q1, q2⟩ := qb r g hr' hr hg' hg
      refine ⟨(4 + (r - g) / (mx - mn)) / 6, ?_, ?_⟩
      · unfold rawHue
        simp only [← hmx, ← hmn]
        rw [if_neg c1, if_neg c2, divBy_ok hD.ne']; rfl
      obtain ⟨w1, w2⟩ := wrap _ q1 q2 4 (Or.inr (Or.inr rfl))
      refine ⟨w1, w2, _, _, _, ramps_blue q1 q2, ?_⟩
      rw [mul1, mul2]
      have hmn2 : r ≤ mn ∨ g ≤ mn := by
        rcases hmnc' with h | h | h
        · exact Or.inl h
        · exact Or.inr h
        · exfalso; linarith
      rcases le_total r g with hrg | hrg
      · rw [max_eq_right (by linarith : r - g ≤ 0), max_eq_left (by linarith : 0 ≤ g - r)]
        have hrm : r = mn := by rcases hmn2 with h | h <;> linarith
        exact ⟨by rw [abs_le]; constructor <;> linarith, by rw [abs_le]; constructor <;> linarith,
          by rw [abs_le]; constructor <;> linarith, fun _ => ⟨by linarith, by linarith, by linarith⟩⟩
      · rw [max_eq_left (by linarith : 0 ≤ r - g), max_eq_right (by linarith : g - r ≤ 0)]
        have hgm : g = mn := by rcases hmn2 with h | h <;> linarith
        exact ⟨by rw [abs_le]; constructor <;> linarith, by rw [abs_le]; constructor <;> linarith,
          by rw [abs_le]; constructor <;> linarith, fun _ => ⟨by linarith, by linarith, by linarith⟩⟩

/-- One colour: conversion succeeds, stays in range, and the way back is close. -/
theorem rgb_round_trip {r g b : ℝ} (hr : 0 ≤ r ∧ r ≤ 1) (hg : 0 ≤ g ∧ g ≤ 1) (hb : 0 ≤ b ∧ b ≤ 1) :
    ∃ h s l, rgbToHsl r g b = .ok (h, s, l) ∧ (0 ≤ h ∧ h ≤ 1) ∧ (0 ≤ s ∧ s ≤ 1) ∧ (0 ≤ l ∧ l ≤ 1) ∧
      ∃ r' g' b', hslToRgb h s l = (r', g', b') ∧ |r' - r| ≤ 1 / 1000 ∧ |g' - g| ≤ 1 / 1000 ∧ |b' - b| ≤ 1 / 1000 ∧
        (1 / 1000 ≤ max r (max g b) - min r (min g b) →
          |r' - r| ≤ 1 / 10000 ∧ |g' - g| ≤ 1 / 10000 ∧ |b' - b| ≤ 1 / 10000 ∧
          ((∀ c ∈ [r, g, b], max r (max g b) - c < 1 / 10000 → c = max r (max g b)) → r' = r ∧ g' = g ∧ b' = b)) := by
  have m1 : max r (max g b) ≤ 1 := max_le hr.2 (max_le hg.2 hb.2)
  have m0 : 0 ≤ min r (min g b) := le_min hr.1 (le_min hg.1 hb.1)
  have mm : min r (min g b) ≤ max r (max g b) := le_trans (min_le_left _ _) (le_max_left _ _)
  by_cases hgray : |max r (max g b) - min r (min g b)| < 1 / 1000
  · have hgray' := (abs_lt.1 hgray).2
    refine ⟨0, 0, r, ?_, by norm_num, by norm_num, hr, r, r, r, ?_, by norm_num, ?_, ?_, ?_⟩
    · unfold rgbToHsl; simp only; rw [if_pos hgray]
    · unfold hslToRgb; rw [if_pos (by norm_num)]
    · have h1 : r ≤ max r (max g b) := le_max_left _ _
      have h2 : g ≤ max r (max g b) := le_trans (le_max_left _ _) (le_max_right _ _)
      have h3 : min r (min g b) ≤ r := min_le_left _ _
      have h4 : min r (min g b) ≤ g := le_trans (min_le_right _ _) (min_le_left _ _)
      rw [abs_le]; constructor <;> linarith
    · have h1 : r ≤ max r (max g b) := le_max_left _ _
      have h2 : b ≤ max r (max g b) := le_trans (le_max_right _ _) (le_max_right _ _)
      have h3 : min r (min g b) ≤ r := min_le_left _ _
      have h4 : min r (min g b) ≤ b := le_trans (min_le_right _ _) (min_le_right _ _)
      rw [abs_le]; constructor <;> linarith
    · intro h; exfalso; linarith
  · have hd : 1 / 1000 ≤ max r (max g b) - min r (min g b) := by
      rw [not_lt, abs_of_nonneg (by linarith)] at hgray; exact hgray
    obtain ⟨s, s1, s2, s3, s4⟩ := sat_ok m0 m1 hd
    obtain ⟨h, h1, h2, h3, r', g', b', e, e1, e2, e3, e4⟩ := hue_ok hd
    refine ⟨wrapHue h, s, (max r (max g b) + min r (min g b)) / 2, ?_, ⟨h2, h3⟩, ⟨by linarith, s3⟩,
      ⟨by linarith, by linarith⟩, r', g', b', ?_, by linarith, by linarith, by linarith, fun _ => ⟨e1, e2, e3, e4⟩⟩
    · unfold rgbToHsl
      simp only
      rw [if_neg hgray, rawSat, s1, Outcome.bind_ok, h1]; rfl
    · unfold hslToRgb
      simp only
      rw [if_neg (by rw [abs_of_nonneg (by linarith)]; linarith), s4, ← e]
      have : 2 * ((max r (max g b) + min r (min g b)) / 2) - max r (max g b) = min r (min g b) := by ring
      rw [this]; rfl

theorem ramp_between {t1 t2 t : ℝ} (h : t2 ≤ t1) (h0 : 0 ≤ t) : t2 ≤ hueRamp t1 t2 t ∧ hueRamp t1 t2 t ≤ t1 := by
  unfold hueRamp
  have hd : 0 ≤ t1 - t2 := by linarith
  split
  · constructor <;> nlinarith
  split
  · constructor <;> linarith
  split
  · constructor <;> nlinarith
  · constructor <;> linarith

/-- `HSLToRGB` stays in the unit cube. -/
theorem hsl_range {h s l : ℝ} (hh : 0 ≤ h ∧ h ≤ 1) (hs : 0 ≤ s ∧ s ≤ 1) (hl : 0 ≤ l ∧ l ≤ 1) :
    ∃ r g b, hslToRgb h s l = (r, g, b) ∧ (0 ≤ r ∧ r ≤ 1) ∧ (0 ≤ g ∧ g ≤ 1) ∧ (0 ≤ b ∧ b ≤ 1) := by
  unfold hslToRgb
  split
  · exact ⟨l, l, l, rfl, hl, hl, hl⟩
  · simp only
    set t1 := if l < 1 / 2 then l * (1 + s) else (l + s) - l * s with ht
    have a1 : t1 ≤ 1 ∧ 0 ≤ 2 * l - t1 ∧ l ≤ t1 := by
      rw [ht]
      split
      · refine ⟨by nlinarith, by nlinarith, by nlinarith⟩
      · refine ⟨by nlinarith, by nlinarith, by nlinarith⟩
    have key : ∀ t, 0 ≤ t → 0 ≤ hueRamp t1 (2 * l - t1) t ∧ hueRamp t1 (2 * l - t1) t ≤ 1 := by
      intro t h0
      have := ramp_between (by linarith : 2 * l - t1 ≤ t1) h0
      constructor <;> linarith
    refine ⟨_, _, _, rfl, key _ ?_, key _ hh.1, key _ ?_⟩
    · split <;> linarith
    · split <;> linarith

/-! ### Whole images -/

section Image
variable {α : Type} [Inhabited α]

/-- Channel `k` when the pixels in `D` are converted. -/
def partDone (M : Mat α) (g : ℕ → ℕ → α) (D : List (ℕ × ℕ)) : Mat α :=
  Mat.ofFn M.rows M.cols fun i j => if (i, j) ∈ D then g i j else M.get i j

theorem matPut_partDone (M : Mat α) (g : ℕ → ℕ → α) (D : List (ℕ × ℕ)) {y x : ℕ} (hy : y < M.rows) (hx : x < M.cols) :
    matPut (partDone M g D) y x (g y x) = .ok (partDone M g ((y, x) :: D)) := by
  unfold matPut
  rw [if_pos (show y < (partDone M g D).rows ∧ x < (partDone M g D).cols from ⟨hy, hx⟩)]
  congr 1
  unfold partDone
  apply Mat.ofFn_congr
  intro i hi j hj
  by_cases h : i = y ∧ j = x
  · obtain ⟨rfl, rfl⟩ := h; simp
  · rw [if_neg h, Mat.get_ofFn (show i < M.rows from hi) (show j < M.cols from hj)]
    have : ((i, j) ∈ (y, x) :: D) ↔ ((i, j) ∈ D) := by
      simp only [List.mem_cons, Prod.mk.injEq, or_iff_right_iff_imp]; intro h'; exact absurd h' h
    by_cases h2 : (i, j) ∈ D
    · rw [if_pos h2, if_pos (this.2 h2)]
    · rw [if_neg h2, if_neg (fun h3 => h2 (this.1 h3))]

/-- The image when the pixels in `D` are converted. -/
def imgDone (img : List (Mat α)) (sc : ℕ) (M0 M1 M2 : Mat α) (g0 g1 g2 : ℕ → ℕ → α) (D0 D1 D2 : List (ℕ × ℕ)) : List (Mat α) :=
  ((img.set sc (partDone M0 g0 D0)).set (sc + 1) (partDone M1 g1 D1)).set (sc + 2) (partDone M2 g2 D2)

theorem convertImage_ok (f : α → α → α → Outcome (α × α × α)) (g : α → α → α → α × α × α) (img : List (Mat α)) (sc : ℕ)
    (M0 M1 M2 : Mat α) (h0 : img[sc]? = some M0) (h1 : img[sc + 1]? = some M1) (h2 : img[sc + 2]? = some M2)
    (hr1 : M1.rows = M0.rows) (hc1 : M1.cols = M0.cols) (hr2 : M2.rows = M0.rows) (hc2 : M2.cols = M0.cols)
    (hf : ∀ i < M0.rows, ∀ j < M0.cols, f (M0.get i j) (M1.get i j) (M2.get i j) =
      .ok (g (M0.get i j) (M1.get i j) (M2.get i j))) :
    convertImage f img sc = .ok
      (((img.set sc (Mat.ofFn M0.rows M0.cols fun i j => (g (M0.get i j) (M1.get i j) (M2.get i j)).1)).set (sc + 1)
        (Mat.ofFn M0.rows M0.cols fun i j => (g (M0.get i j) (M1.get i j) (M2.get i j)).2.1)).set (sc + 2)
        (Mat.ofFn M0.rows M0.cols fun i j => (g (M0.get i j) (M1.get i j) (M2.get i j)).2.2)) := by
  set G : ℕ → ℕ → α × α × α := fun i j => g (M0.get i j) (M1.get i j) (M2.get i j) with hG
  set S : List (ℕ × ℕ) → List (ℕ × ℕ) → List (ℕ × ℕ) → List (Mat α) := fun D0 D1 D2 =>
    imgDone img sc M0 M1 M2 (fun i j => (G i j).1) (fun i j => (G i j).2.1) (fun i j => (G i j).2.2) D0 D1 D2 with hS
  have l0 : sc < img.length := by
    by_contra h; rw [List.getElem?_eq_none (by omega)] at h0; simp at h0
  have l1 : sc + 1 < img.length := by
    by_contra h; rw [List.getElem?_eq_none (by omega)] at h1; simp at h1
  have l2 : sc + 2 < img.length := by
    by_contra h; rw [List.getElem?_eq_none (by omega)] at h2; simp at h2
  have r0 : ∀ D0 D1 D2, rd (S D0 D1 D2) sc = .ok (partDone M0 (fun i j => (G i j).1) D0) := by
    intro D0 D1 D2
    simp only [hS, imgDone, rd]
    rw [List.getElem?_set_ne (by omega), List.getElem?_set_ne (by omega), List.getElem?_set_self (by omega)]
  have r1 : ∀ D0 D1 D2, rd (S D0 D1 D2) (sc + 1) = .ok (partDone M1 (fun i j => (G i j).2.1) D1) := by
    intro D0 D1 D2
    simp only [hS, imgDone, rd]
    rw [List.getElem?_set_ne (by omega), List.getElem?_set_self (by simpa using l1)]
  have r2 : ∀ D0 D1 D2, rd (S D0 D1 D2) (sc + 2) = .ok (partDone M2 (fun i j => (G i j).2.2) D2) := by
    intro D0 D1 D2
    simp only [hS, imgDone, rd]
    rw [List.getElem?_set_self (by simpa using l2)]
  have hstep : ∀ D y x, y < M0.rows → x < M0.cols → (y, x) ∉ D →
      convertPixel f sc (S D D D) y x = .ok (S ((y, x) :: D) ((y, x) :: D) ((y, x) :: D)) := by
    intro D y x hy hx hD
    have e0 : imgAt (S D D D) sc y x = .ok (M0.get y x) := by
      unfold imgAt matAt
      rw [r0, Outcome.bind_ok, if_pos (by exact ⟨hy, hx⟩)]
      unfold partDone; rw [Mat.get_ofFn hy hx, if_neg hD]
    have e1 : imgAt (S D D D) (sc + 1) y x = .ok (M1.get y x) := by
      unfold imgAt matAt
      rw [r1, Outcome.bind_ok, if_pos (by show y < M1.rows ∧ x < M1.cols; omega)]
      unfold partDone; rw [Mat.get_ofFn (by omega) (by omega), if_neg hD]
    have e2 : imgAt (S D D D) (sc + 2) y x = .ok (M2.get y x) := by
      unfold imgAt matAt
      rw [r2, Outcome.bind_ok, if_pos (by show y < M2.rows ∧ x < M2.cols; omega)]
      unfold partDone; rw [Mat.get_ofFn (by omega) (by omega), if_neg hD]
    have p0 : imgPut (S D D D) sc y x (G y x).1 = .ok (S ((y, x) :: D) D D) := by
      unfold imgPut
      rw [r0, Outcome.bind_ok, matPut_partDone M0 (fun i j => (G i j).1) D hy hx, Outcome.bind_ok]
      simp only [hS, imgDone, Outcome.pure_eq]
      congr 1
      rw [List.set_comm _ _ (by omega : sc + 2 ≠ sc), List.set_comm _ _ (by omega : sc + 1 ≠ sc), List.set_set]
    have p1 : imgPut (S ((y, x) :: D) D D) (sc + 1) y x (G y x).2.1 = .ok (S ((y, x) :: D) ((y, x) :: D) D) := by
      unfold imgPut
      rw [r1, Outcome.bind_ok, matPut_partDone M1 (fun i j => (G i j).2.1) D (by omega) (by omega), Outcome.bind_ok]
      simp only [hS, imgDone, Outcome.pure_eq]
      congr 1
      rw [List.set_comm _ _ (by omega : sc + 2 ≠ sc + 1), List.set_set]
    have p2 : imgPut (S ((y, x) :: D) ((y, x) :: D) D) (sc + 2) y x (G y x).2.2 =
        .ok (S ((y, x) :: D) ((y, x) :: D) ((y, x) :: D)) := by
      unfold imgPut
      rw [r2, Outcome.bind_ok, matPut_partDone M2 (fun i j => (G i j).2.2) D (by omega) (by omega), Outcome.bind_ok]
      simp only [hS, imgDone, Outcome.pure_eq]
      rw [List.set_set]
    unfold convertPixel
    rw [e0, Outcome.bind_ok, e1, Outcome.bind_ok, e2, Outcome.bind_ok, hf y hy x hx, Outcome.bind_ok]
    show (imgPut (S D D D) sc y x (G y x).1 >>= _) = _
    rw [p0, Outcome.bind_ok]
    show (imgPut (S ((y, x) :: D) D D) (sc + 1) y x (G y x).2.1 >>= _) = _
    rw [p1, Outcome.bind_ok]
    exact p2
  have hfold : ∀ (P D : List (ℕ × ℕ)), (∀ p ∈ P, p.1 < M0.rows ∧ p.2 < M0.cols ∧ p ∉ D) → P.Nodup →
      P.foldlM (fun im p => convertPixel f sc im p.1 p.2) (S D D D) =
        .ok (S (P.reverse ++ D) (P.reverse ++ D) (P.reverse ++ D)) := by
    intro P
    induction P with
    | nil => intro D _ _; rfl
    | cons p P ih =>
      intro D hP hn
      have hp := hP p (by simp)
      rw [List.foldlM_cons, hstep D p.1 p.2 hp.1 hp.2.1 hp.2.2, Outcome.bind_ok, ih]
      · simp
      · intro q hq
        have hq' := hP q (by simp [hq])
        refine ⟨hq'.1, hq'.2.1, ?_⟩
        simp only [List.mem_cons, not_or]
        refine ⟨?_, hq'.2.2⟩
        rintro rfl
        exact (List.nodup_cons.1 hn).1 hq
      · exact (List.nodup_cons.1 hn).2
  have hS0 : S [] [] [] = img := by
    simp only [hS, imgDone, partDone, List.not_mem_nil, if_false, Mat.ofFn_get]
    have : ∀ (l : List (Mat α)) (i : ℕ) (M : Mat α), l[i]? = some M → l.set i M = l := by
      intro l i M h
      apply List.ext_getElem?
      intro j
      rw [List.getElem?_set]
      split
      · rename_i e; subst e
        split
        · exact h.symm
        · rename_i hh; rw [List.getElem?_eq_none (by omega)] at h; simp at h
      · rfl
    rw [this img sc M0 h0, this img _ M1 h1, this img _ M2 h2]
  unfold convertImage
  have hrd : rd img sc = .ok M0 := by simp [rd, h0]
  rw [hrd, Outcome.bind_ok]
  rw [foldlM_nested (List.range M0.rows) (fun _ => List.range M0.cols) (fun im y x => convertPixel f sc im y x) img]
  set P := (List.range M0.rows).flatMap fun i => (List.range M0.cols).map fun j => (i, j) with hPdef
  have hmem : ∀ i j, (i, j) ∈ P ↔ i < M0.rows ∧ j < M0.cols := by
    intro i j; simp [hPdef]
  have hnd : P.Nodup := by
    have : P = (List.range M0.rows).product (List.range M0.cols) := rfl
    rw [this]
    exact List.nodup_range.product List.nodup_range
  have := hfold P [] (fun p hp => ⟨((hmem p.1 p.2).1 hp).1, ((hmem p.1 p.2).1 hp).2, by simp⟩) hnd
  rw [hS0] at this
  rw [this]
  have hfin : ∀ (M : Mat α) (q : ℕ → ℕ → α), M.rows = M0.rows → M.cols = M0.cols →
      partDone M q (P.reverse ++ []) = Mat.ofFn M0.rows M0.cols q := by
    intro M q e1 e2
    unfold partDone
    rw [e1, e2]
    apply Mat.ofFn_congr
    intro i hi j hj
    rw [if_pos (by simp only [List.append_nil, List.mem_reverse]; exact (hmem i j).2 ⟨hi, hj⟩)]
  simp only [hS, imgDone]
  rw [hfin M0 _ rfl rfl, hfin M1 _ hr1 hc1, hfin M2 _ hr2 hc2]

end Image

/-- What both conversions do to an image with three channels of one size: those channels are replaced pixel by pixel. -/
theorem convert_spec (f : ℝ → ℝ → ℝ → Outcome (ℝ × ℝ × ℝ)) (img : List (Mat ℝ)) (sc rows cols : ℕ)
    (h3 : ThreeChannels img sc rows cols) (g : ℝ → ℝ → ℝ → ℝ × ℝ × ℝ)
    (hf : ∀ y < rows, ∀ x < cols, f (pixel img sc y x).1 (pixel img sc y x).2.1 (pixel img sc y x).2.2 =
      .ok (g (pixel img sc y x).1 (pixel img sc y x).2.1 (pixel img sc y x).2.2)) :
    ∃ out, convertImage f img sc = .ok out ∧ out.length = img.length ∧ ThreeChannels out sc rows cols ∧
      (∀ ch, ch < sc ∨ sc + 3 ≤ ch → out[ch]? = img[ch]?) ∧
      ∀ y < rows, ∀ x < cols, pixel out sc y x =
        g (pixel img sc y x).1 (pixel img sc y x).2.1 (pixel img sc y x).2.2 := by
  obtain ⟨M0, m0, r0, c0⟩ := h3 0 (by omega)
  obtain ⟨M1, m1, r1, c1⟩ := h3 1 (by omega)
  obtain ⟨M2, m2, r2, c2⟩ := h3 2 (by omega)
  rw [Nat.add_zero] at m0
  subst r0; subst c0
  have pe : ∀ y x, pixel img sc y x = (M0.get y x, M1.get y x, M2.get y x) := by
    intro y x; unfold pixel; simp [List.getD, m0, m1, m2]
  simp only [pe] at hf ⊢
  have l2 : sc + 2 < img.length := by
    by_contra h; rw [List.getElem?_eq_none (by omega)] at m2; simp at m2
  refine ⟨_, convertImage_ok f g img sc M0 M1 M2 m0 m1 m2 r1 c1 r2 c2 hf, by simp, ?_, ?_, ?_⟩
  · intro k hk
    interval_cases k
    · show ∃ m, (List.set _ _ _)[sc]? = some m ∧ _
      rw [List.getElem?_set_ne (by omega), List.getElem?_set_ne (by omega), List.getElem?_set_self (by omega)]
      exact ⟨_, rfl, rfl, rfl⟩
    · rw [List.getElem?_set_ne (by omega), List.getElem?_set_self (by simp; omega)]
      exact ⟨_, rfl, rfl, rfl⟩
    · rw [List.getElem?_set_self (by simp; omega)]
      exact ⟨_, rfl, rfl, rfl⟩
  · intro ch hch
    rw [List.getElem?_set_ne (by omega), List.getElem?_set_ne (by omega), List.getElem?_set_ne (by omega)]
  · intro y hy x hx
    unfold pixel
    simp only [List.getD]
    rw [List.getElem?_set_ne (by omega), List.getElem?_set_ne (by omega), List.getElem?_set_self (by omega),
      List.getElem?_set_ne (by omega), List.getElem?_set_self (by simp; omega), List.getElem?_set_self (by simp; omega)]
    simp only [Option.getD_some]
    rw [Mat.get_ofFn hy hx, Mat.get_ofFn hy hx, Mat.get_ofFn hy hx]

end WB
