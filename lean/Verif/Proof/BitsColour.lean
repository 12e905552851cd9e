import Verif.Model.BitsColour
import Verif.Proof.FloatDenoise
import Verif.Proof.ColorMove
import Verif.Props.ColorFloat

/-! The colour conversions on bit patterns are those of `Model/ColorFloat` where nothing overflows. -/

namespace WB

open Spec Bits Props

/-- The pattern stands for the number `v`, which is at most `2^k`. -/
def Rep {o : FloatOps} (k : ℕ) (x : Bits o) (v : ℝ) : Prop := finiteBits x ∧ x.num = v ∧ |v| ≤ 2 ^ k

section
variable {r : Rounding} (hr : r.IEEE) {o : FloatOps} (ho : o.Correct r) {dv : F32 → F32 → F32} (hdv : DivCorrect r dv) {k l m : ℕ} {x y : Bits o} {a b : ℝ}

theorem Rep.mono (h : Rep k x a) (hk : k ≤ l) : Rep l x a := ⟨h.1, h.2.1, h.2.2.trans (pow_le_pow_right₀ (by norm_num) hk)⟩

theorem pow_le_maxFloat (hk : k ≤ 100) : (2 : ℝ) ^ k ≤ maxFloat := by
  refine (pow_le_pow_right₀ (by norm_num) hk).trans ?_
  simp only [maxFloat]
  norm_num

theorem Rep.not_nan (h : Rep k x a) : ¬ isNaN x := fun hn => absurd h.1 (by unfold finiteBits; rw [hn.1]; omega)

theorem Rep.ite {c d : Prop} [Decidable c] [Decidable d] (h : c ↔ d) (hx : d → Rep k x a) (hy : ¬ d → Rep k y b) :
    Rep k (if c then x else y) (if d then a else b) := by
  by_cases hd : d
  · rw [if_pos hd, if_pos (h.2 hd)]; exact hx hd
  · rw [if_neg hd, if_neg fun hc => hd (h.1 hc)]; exact hy hd

theorem Rep.lt (hx : Rep k x a) (hy : Rep l y b) : x < y ↔ a < b := by
  have e : x < y ↔ ¬ isNaN x ∧ ¬ isNaN y ∧ number x < number y := Iff.rfl
  rw [e, ← hx.2.1, ← hy.2.1]
  unfold Bits.num
  constructor
  · rintro ⟨-, -, h⟩
    exact_mod_cast h
  · intro h
    exact ⟨hx.not_nan, hy.not_nan, by exact_mod_cast h⟩

theorem Rep.below (hx : Rep k x a) : x.Below b ↔ a < b := by
  rw [← hx.2.1]
  exact ⟨fun h => h.2, fun h => ⟨hx.not_nan, h⟩⟩

theorem Rep.abs (hx : Rep k x a) : Rep k x.abs |a| := by
  refine ⟨finite_abs hx.1, ?_, by rw [abs_abs]; exact hx.2.2⟩
  rw [← hx.2.1]
  have h : ∀ z : F32, ((number (absBits z) : ℚ) : ℝ) = |((number z : ℚ) : ℝ)| := fun z => by
    rw [number_abs]
    push_cast
    rfl
  exact h x

theorem Rep.zero : Rep k (0 : Bits o) 0 := by
  refine ⟨?_, ?_, by rw [abs_zero]; positivity⟩
  · show finiteBits 0#32
    unfold finiteBits
    decide
  · show ((number 0#32 : ℚ) : ℝ) = 0
    norm_num [number, magnitude]

include hr in
theorem toFloat_pow (k : ℕ) {v : ℝ} (h : |v| ≤ 2 ^ k) : |r.toFloat v| ≤ 2 ^ k := by
  have e : ∀ s : ℤ, |s| = 1 → r.toFloat (s * 2 ^ k) = s * 2 ^ k := fun s hs =>
    rounds_self hr.1 ⟨s, k, by rw [hs]; norm_num, by omega, by rw [zpow_natCast]⟩
  have e1 := e 1 rfl
  have e2 := e (-1) rfl
  push_cast at e1 e2
  rw [one_mul] at e1
  rw [neg_one_mul] at e2
  obtain ⟨h1, h2⟩ := abs_le.1 h
  refine abs_le.2 ⟨?_, ?_⟩
  · rw [← e2]; exact rounds_mono hr.1 h1
  · rw [← e1]; exact rounds_mono hr.1 h2

include ho in
theorem Rep.neg (hx : Rep k x a) : Rep k (-x) (-a) := by
  obtain ⟨h1, h2⟩ := ho.neg x hx.1
  refine ⟨h1, ?_, by rw [abs_neg]; exact hx.2.2⟩
  rw [← hx.2.1]
  show ((number (o.neg x) : ℚ) : ℝ) = -((number x : ℚ) : ℝ)
  rw [h2]
  push_cast
  rfl

include hr ho

theorem Rep.add (hx : Rep k x a) (hy : Rep k y b) (hk : k ≤ 99) : Rep (k + 1) (x + y) (r.toFloat (a + b)) := by
  have h := toFloat_pow hr (k + 1) (v := a + b) ((abs_add_le a b).trans (by rw [pow_succ]; linarith [hx.2.2, hy.2.2]))
  obtain ⟨f1, e1, -⟩ := hx
  obtain ⟨f2, e2, -⟩ := hy
  unfold Bits.num at e1 e2
  obtain ⟨g1, g2⟩ := ho.add x y f1 f2 (by rw [e1, e2]; exact h.trans (pow_le_maxFloat (by omega)))
  rw [e1, e2] at g2
  exact ⟨g1, g2, h⟩

theorem Rep.sub (hx : Rep k x a) (hy : Rep k y b) (hk : k ≤ 99) : Rep (k + 1) (Bits.sub x y) (r.toFloat (a - b)) :=
  sub_eq_add_neg a b ▸ hx.add hr ho (hy.neg ho) hk

theorem Rep.mul (hx : Rep k x a) (hy : Rep l y b) (hk : k + l ≤ 100) : Rep (k + l) (x * y) (r.toFloat (a * b)) := by
  have h := toFloat_pow hr (k + l) (v := a * b) (by
    rw [abs_mul, pow_add]
    exact mul_le_mul hx.2.2 hy.2.2 (abs_nonneg _) (by positivity))
  obtain ⟨f1, e1, -⟩ := hx
  obtain ⟨f2, e2, -⟩ := hy
  unfold Bits.num at e1 e2
  obtain ⟨g1, g2⟩ := ho.mul x y f1 f2 (by rw [e1, e2]; exact h.trans (pow_le_maxFloat hk))
  rw [e1, e2] at g2
  exact ⟨g1, g2, h⟩

theorem rep_lit {v : ℝ} (h : |v| ≤ 2 ^ k) (hk : k ≤ 100) : Rep k (lit o v) (r.toFloat v) := by
  have h := toFloat_pow hr k h
  obtain ⟨g1, g2⟩ := ho.store v (h.trans (pow_le_maxFloat hk))
  exact ⟨g1, g2, h⟩

theorem rep_nat (n : ℕ) (hn : n ≤ 8) : Rep 3 (lit o n) n := by
  have hn' : (n : ℝ) ≤ 8 := by exact_mod_cast hn
  have h := rep_lit hr ho (k := 3) (v := n) (by rw [abs_of_nonneg (by positivity)]; norm_num only; linarith) (by norm_num)
  rwa [toFloat_exact hr (y := n) n 0 (by omega) (by omega) (by norm_num) (by simp)] at h

omit hr ho in
include hdv in
theorem Rep.div (hx : Rep k x a) (hy : Rep l y b) (hb : b ≠ 0) (hm : |r.toFloat (a / b)| ≤ 2 ^ m) (hm1 : m ≤ 100) :
    Rep m (divide dv x y) (r.toFloat (a / b)) := by
  obtain ⟨f1, e1, -⟩ := hx
  obtain ⟨f2, e2, -⟩ := hy
  unfold Bits.num at e1 e2
  obtain ⟨g1, g2⟩ := hdv x y f1 f2 (by
    intro h0
    rw [h0] at e2
    exact hb (by rw [← e2]; simp)) (by rw [e1, e2]; exact hm.trans (pow_le_maxFloat hm1))
  rw [e1, e2] at g2
  exact ⟨g1, g2, hm⟩

include hdv

theorem rep_frac (n d : ℕ) (hn : n ≤ 8) (hd : d ≤ 8) (hd0 : 0 < d) (hle : n ≤ d) : Rep 0 (divide dv (lit o n) (lit o d)) (r.toFloat (n / d)) := by
  have hd' : (0 : ℝ) < d := by exact_mod_cast hd0
  refine Rep.div hdv (rep_nat hr ho n hn) (rep_nat hr ho d hd) hd'.ne' (toFloat_pow hr 0 ?_) (by norm_num)
  rw [abs_of_nonneg (by positivity), pow_zero, div_le_one hd']
  exact_mod_cast hle

theorem rep_ramp {t1 t2 t : Bits o} {T1 T2 T : ℝ} (h1 : Rep 30 t1 T1) (h2 : Rep 30 t2 T2) (h3 : Rep 20 t T) :
    Rep 60 (hueRampBits dv t1 t2 t) (hueRampF r.toFloat T1 T2 T) := by
  have l6 := rep_nat hr ho 6 (by norm_num)
  have f1 := rep_frac hr ho hdv 1 6 (by norm_num) (by norm_num) (by norm_num) (by norm_num)
  have f2 := rep_frac hr ho hdv 2 3 (by norm_num) (by norm_num) (by norm_num) (by norm_num)
  have hh := rep_lit hr ho (k := 0) (v := 1 / 2) (by norm_num [abs_of_pos]) (by norm_num)
  rw [toFloat_exact hr (y := 1 / 2) 1 (-1) (by norm_num) (by norm_num) (by norm_num) (by norm_num)] at hh
  push_cast at l6 f1 f2
  have d := h1.sub hr ho h2 (by norm_num)
  unfold hueRampBits hueRampF
  refine Rep.ite (h3.lt f1) (fun _ => ?_) fun _ => Rep.ite (h3.lt hh) (fun _ => h1.mono (by norm_num)) fun _ =>
    Rep.ite (h3.lt f2) (fun _ => ?_) fun _ => h2.mono (by norm_num)
  · exact ((h2.mono (by norm_num)).add hr ho ((d.mul hr ho l6 (by norm_num)).mul hr ho h3 (by norm_num)) (by norm_num)).mono (by norm_num)
  · exact ((h2.mono (by norm_num)).add hr ho ((d.mul hr ho ((f2.mono (by norm_num)).sub hr ho h3 (by norm_num)) (by norm_num)).mul hr ho l6 (by norm_num))
      (by norm_num)).mono (by norm_num)

/-- `HSLToRGB` for samples up to 1024. -/
theorem rep_hslToRgb {h s l : Bits o} {H S L : ℝ} (hh : Rep 10 h H) (hs : Rep 10 s S) (hl : Rep 10 l L) :
    Rep 60 (hslToRgbBits r dv h s l).1 (hslToRgbF r H S L).1 ∧ Rep 60 (hslToRgbBits r dv h s l).2.1 (hslToRgbF r H S L).2.1 ∧
      Rep 60 (hslToRgbBits r dv h s l).2.2 (hslToRgbF r H S L).2.2 := by
  have l1 := rep_nat hr ho 1 (by norm_num)
  have l2 := rep_nat hr ho 2 (by norm_num)
  have f := rep_frac hr ho hdv 1 3 (by norm_num) (by norm_num) (by norm_num) (by norm_num)
  push_cast at l1 l2 f
  unfold hslToRgbBits hslToRgbF
  by_cases hg : |S| < r.toDouble (1 / 10000)
  · rw [if_pos hg, if_pos (hs.abs.below.2 hg)]
    exact ⟨hl.mono (by norm_num), hl.mono (by norm_num), hl.mono (by norm_num)⟩
  · rw [if_neg hg, if_neg (fun hc => hg (hs.abs.below.1 hc))]
    have t1 : Rep 22 (if l.Below (1 / 2) then l * (lit o 1 + s) else Bits.sub (l + s) (l * s))
        (if L < 1 / 2 then r.toFloat (L * r.toFloat (1 + S)) else r.toFloat (r.toFloat (L + S) - r.toFloat (L * S))) := by
      refine Rep.ite hl.below (fun _ => ?_) fun _ => ?_
      · exact (hl.mul hr ho ((l1.mono (by norm_num)).add hr ho hs (by norm_num)) (by norm_num)).mono (by norm_num)
      · exact (((hl.add hr ho hs (by norm_num)).mono (by norm_num)).sub hr ho (hl.mul hr ho hs (by norm_num)) (by norm_num)).mono (by norm_num)
    have t2 := ((l2.mul hr ho hl (by norm_num)).mono (by norm_num)).sub hr ho t1 (by norm_num)
    have tr := hh.add hr ho (f.mono (by norm_num)) (by norm_num)
    have tb := hh.sub hr ho (f.mono (by norm_num)) (by norm_num)
    have t1' := t1.mono (l := 30) (by norm_num)
    have t2' := t2.mono (l := 30) (by norm_num)
    refine ⟨rep_ramp hr ho hdv t1' t2' ((Rep.ite (l1.lt tr) (fun _ => ?_) fun _ => ?_)),
      rep_ramp hr ho hdv t1' t2' (hh.mono (by norm_num)), rep_ramp hr ho hdv t1' t2' (Rep.ite (tb.lt Rep.zero (l := 0)) (fun _ => ?_) fun _ => ?_)⟩
    · exact (tr.sub hr ho (l1.mono (by norm_num)) (by norm_num)).mono (by norm_num)
    · exact tr.mono (by norm_num)
    · exact (tb.add hr ho (l1.mono (by norm_num)) (by norm_num)).mono (by norm_num)
    · exact tb.mono (by norm_num)

omit hr ho hdv in
theorem Rep.mn (hx : Rep k x a) (hy : Rep k y b) : Rep k (Bits.mn x y) (min a b) := by
  have h := Rep.ite (hy.lt hx) (fun _ => hy) fun _ => hx
  have e : min a b = if b < a then b else a := by
    by_cases c : a ≤ b
    · rw [min_eq_left c, if_neg (not_lt.2 c)]
    · rw [min_eq_right (not_le.1 c).le, if_pos (not_le.1 c)]
  rw [e]
  exact h

omit hr ho hdv in
theorem Rep.mx (hx : Rep k x a) (hy : Rep k y b) : Rep k (Bits.mx x y) (max a b) := by
  have h := Rep.ite (hx.lt hy) (fun _ => hy) fun _ => hx
  have e : max a b = if a < b then b else a := by
    by_cases c : b ≤ a
    · rw [max_eq_left c, if_neg (not_lt.2 c)]
    · rw [max_eq_right (not_le.1 c).le, if_pos (not_le.1 c)]
  rw [e]
  exact h

/-- `RGBToHSL` for samples between 0 and 1. -/
theorem rep_rgbToHsl {x y z : Bits o} {R G B : ℝ} (hx : Rep 0 x R) (hy : Rep 0 y G) (hz : Rep 0 z B) {d : ℝ × ℝ × ℝ}
    (hd : rgbToHslF r.toFloat R G B = .ok d) (hS : |d.2.1| ≤ 2) :
    Rep 4 (rgbToHslBits dv x y z).1 d.1 ∧ Rep 4 (rgbToHslBits dv x y z).2.1 d.2.1 ∧ Rep 4 (rgbToHslBits dv x y z).2.2 d.2.2 := by
  have l1 := rep_nat hr ho 1 (by norm_num)
  have l2 := rep_nat hr ho 2 (by norm_num)
  have l4 := rep_nat hr ho 4 (by norm_num)
  have l6 := rep_nat hr ho 6 (by norm_num)
  push_cast at l1 l2 l4 l6
  have c1 := rep_lit hr ho (k := 0) (v := 1 / 1000) (by norm_num [abs_of_pos]) (by norm_num)
  have c2 := rep_lit hr ho (k := 0) (v := 1 / 10000) (by norm_num [abs_of_pos]) (by norm_num)
  have hmn := (hx.mn hy).mn hz
  have hmx := (hx.mx hy).mx hz
  rw [min_assoc] at hmn
  rw [max_assoc] at hmx
  have hdiff := hmx.sub hr ho hmn (by norm_num)
  have hsum := hmx.add hr ho hmn (by norm_num)
  unfold rgbToHslF at hd
  unfold rgbToHslBits
  simp only at hd ⊢
  set DIFF := r.toFloat (max R (max G B) - min R (min G B)) with hD
  set SUM := r.toFloat (max R (max G B) + min R (min G B)) with hU
  by_cases hg : |DIFF| < r.toFloat (1 / 1000)
  · rw [if_pos hg] at hd
    rw [if_pos ((hdiff.abs.lt c1).2 hg)]
    cases hd
    exact ⟨Rep.zero, Rep.zero, hx.mono (by norm_num)⟩
  · rw [if_neg hg] at hd
    rw [if_neg fun hc => hg ((hdiff.abs.lt c1).1 hc)]
    -- the parts of the program that succeeded
    have E := smallErr_of hr
    have hW : 1 / 2000 ≤ max R (max G B) - min R (min G B) := by
      by_contra hlt
      push Not at hlt
      have h0 : min R (min G B) ≤ max R (max G B) := (min_le_left _ _).trans (le_max_left _ _)
      obtain ⟨e1, e2⟩ := E.near (x := max R (max G B) - min R (min G B)) (B := 1 / 2000) (by linarith) hlt.le (by norm_num)
      obtain ⟨e3, e4⟩ := E.near (x := 1 / 1000) (B := 1 / 1000) (by norm_num) (by norm_num) (by norm_num)
      rw [← hD] at e1 e2
      refine hg (abs_lt.2 ⟨?_, ?_⟩) <;> linarith
    have hDW : |DIFF - (max R (max G B) - min R (min G B))| ≤ (max R (max G B) - min R (min G B)) * (1 / 2 ^ 23) :=
      E.err _ _ (le_of_eq (abs_of_pos (by linarith))) (by linarith)
    have hDp : (max R (max G B) - min R (min G B)) * (1 - 1 / 2 ^ 23) ≤ DIFF := by
      have := (abs_le.1 hDW).1
      linarith
    have hD0 : 0 < DIFF := lt_of_lt_of_le (mul_pos (by linarith) (by norm_num)) hDp
    obtain ⟨s, hs, hd⟩ : ∃ s, rawSatF r.toFloat DIFF SUM = .ok s ∧ (rawHueF r.toFloat R G B >>= fun h =>
        pure (if h < 0 then r.toFloat (h + 1) else h, s, r.toFloat (SUM / 2))) = Outcome.ok d := by
      cases hsat : rawSatF r.toFloat DIFF SUM with
      | ok s => exact ⟨s, rfl, by rw [hsat] at hd; exact hd⟩
      | throw => rw [hsat] at hd; cases hd
      | ub => rw [hsat] at hd; cases hd
    obtain ⟨h, hh, hd⟩ : ∃ h, rawHueF r.toFloat R G B = .ok h ∧ (if h < 0 then r.toFloat (h + 1) else h, s, r.toFloat (SUM / 2)) = d := by
      cases hhue : rawHueF r.toFloat R G B with
      | ok h => refine ⟨h, rfl, ?_⟩; rw [hhue] at hd; exact Outcome.ok.inj hd
      | throw => rw [hhue] at hd; cases hd
      | ub => rw [hhue] at hd; cases hd
    subst hd
    have hl : Rep 1 (divide dv _ (lit o 2)) (r.toFloat (SUM / 2)) := hsum.div hdv l2 (by norm_num) (toFloat_pow hr 1 (by
      rw [abs_div, abs_of_pos (by norm_num : (0 : ℝ) < 2)]
      have := hsum.2.2
      have := abs_nonneg SUM
      norm_num at *
      linarith)) (by norm_num)
    have hq : ∀ {u v : Bits o} {U V : ℝ}, Rep 0 u U → Rep 0 v V → U ≤ max R (max G B) → min R (min G B) ≤ U → V ≤ max R (max G B) →
        min R (min G B) ≤ V → Rep 3 (divide dv (Bits.sub u v) (Bits.sub (Bits.mx (Bits.mx x y) z) (Bits.mn (Bits.mn x y) z)))
          (r.toFloat (r.toFloat (U - V) / DIFF)) := by
      intro u v U V hu hv a1 a2 a3 a4
      refine ((hu.sub hr ho hv (by norm_num)).div (m := 1) hdv hdiff hD0.ne' (toFloat_pow hr 1 ?_) (by norm_num)).mono (by norm_num)
      rw [abs_div, abs_of_pos hD0, pow_one, div_le_iff₀ hD0]
      have e1 := E.err (U - V) (max R (max G B) - min R (min G B)) (abs_le.2 ⟨by linarith, by linarith⟩) (by linarith)
      obtain ⟨e2, e3⟩ := abs_le.1 e1
      refine abs_le.2 ⟨?_, ?_⟩ <;> linarith
    have hR1 : R ≤ max R (max G B) := le_max_left _ _
    have hG1 : G ≤ max R (max G B) := le_trans (le_max_left _ _) (le_max_right _ _)
    have hB1 : B ≤ max R (max G B) := le_trans (le_max_right _ _) (le_max_right _ _)
    have hR0 : min R (min G B) ≤ R := min_le_left _ _
    have hG0 : min R (min G B) ≤ G := le_trans (min_le_right _ _) (min_le_left _ _)
    have hB0 : min R (min G B) ≤ B := le_trans (min_le_right _ _) (min_le_right _ _)
    refine ⟨?_, ?_, hl.mono (by norm_num)⟩
    · have hraw : Rep 2 (divide dv (if (Bits.sub (Bits.mx (Bits.mx x y) z) x).abs < lit o (1 / 10000) then
            divide dv (Bits.sub y z) (Bits.sub (Bits.mx (Bits.mx x y) z) (Bits.mn (Bits.mn x y) z))
          else if (Bits.sub (Bits.mx (Bits.mx x y) z) y).abs < lit o (1 / 10000) then
            lit o 2 + divide dv (Bits.sub z x) (Bits.sub (Bits.mx (Bits.mx x y) z) (Bits.mn (Bits.mn x y) z))
          else lit o 4 + divide dv (Bits.sub x y) (Bits.sub (Bits.mx (Bits.mx x y) z) (Bits.mn (Bits.mn x y) z))) (lit o 6)) h := by
        have key : ∀ {q : Bits o} {Q : ℝ}, Rep 4 q Q → Rep 2 (divide dv q (lit o 6)) (r.toFloat (Q / 6)) := by
          intro q Q hQ
          refine hQ.div hdv l6 (by norm_num) (toFloat_pow hr 2 ?_) (by norm_num)
          rw [abs_div, abs_of_pos (by norm_num : (0 : ℝ) < 6), div_le_iff₀ (by norm_num)]
          refine hQ.2.2.trans (by norm_num)
        have m1 := (hmx.sub hr ho hx (by norm_num)).abs.lt c2
        have m2 := (hmx.sub hr ho hy (by norm_num)).abs.lt c2
        unfold rawHueF at hh
        simp only [← hD] at hh
        by_cases g1 : |r.toFloat (max R (max G B) - R)| < r.toFloat (1 / 10000)
        · rw [if_pos g1] at hh
          rw [if_pos (m1.2 g1)]
          unfold divF at hh
          rw [if_neg hD0.ne'] at hh
          rw [← Outcome.ok.inj hh]
          exact key ((hq hy hz hG1 hG0 hB1 hB0).mono (by norm_num))
        · rw [if_neg g1] at hh
          rw [if_neg fun hc => g1 (m1.1 hc)]
          by_cases g2 : |r.toFloat (max R (max G B) - G)| < r.toFloat (1 / 10000)
          · rw [if_pos g2] at hh
            rw [if_pos (m2.2 g2)]
            unfold divF at hh
            rw [if_neg hD0.ne'] at hh
            rw [← Outcome.ok.inj hh]
            exact key (l2.add hr ho (hq hz hx hB1 hB0 hR1 hR0) (by norm_num))
          · rw [if_neg g2] at hh
            rw [if_neg fun hc => g2 (m2.1 hc)]
            unfold divF at hh
            rw [if_neg hD0.ne'] at hh
            rw [← Outcome.ok.inj hh]
            exact key (l4.add hr ho (hq hx hy hR1 hR0 hG1 hG0) (by norm_num))
      unfold hueBits
      refine Rep.ite (hraw.lt Rep.zero (l := 0)) (fun _ => ?_) fun _ => hraw.mono (by norm_num)
      exact (hraw.mono (by norm_num)).add hr ho l1 (by norm_num)
    · unfold rawSatF at hs
      by_cases g1 : r.toFloat (SUM / 2) < 1 / 2
      · rw [if_pos g1] at hs
        rw [if_pos (hl.below.2 g1)]
        unfold divF at hs
        by_cases h0 : SUM = 0
        · rw [if_pos h0] at hs; cases hs
        · rw [if_neg h0] at hs
          cases hs
          exact (hdiff.div (m := 1) hdv hsum h0 (by rw [pow_one]; exact hS) (by norm_num)).mono (by norm_num)
      · rw [if_neg g1] at hs
        rw [if_neg fun hc => g1 (hl.below.1 hc)]
        unfold divF at hs
        by_cases h0 : r.toFloat (2 - SUM) = 0
        · rw [if_pos h0] at hs; cases hs
        · rw [if_neg h0] at hs
          cases hs
          exact (hdiff.div (m := 1) hdv (l2.sub hr ho (hsum.mono (by norm_num)) (by norm_num)) h0 (by rw [pow_one]; exact hS) (by norm_num)).mono (by norm_num)

end

end WB
