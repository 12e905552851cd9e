import Verif.Model.FusedColour
import Verif.Proof.BitsColour

/-! Fused multiply-add in `HSLToRGB` changes the colour by rounding errors only. -/

set_option linter.unusedVariables false
set_option linter.unusedSectionVars false

namespace WB

open Spec Bits Props

/-! ### the conversion on numbers -/

/-- A product that is rounded, or not. -/
noncomputable def roundUnless (fl : ℝ → ℝ) (fused : Bool) (x : ℝ) : ℝ := if fused then x else fl x

/-- `hueRampFused` on numbers. -/
noncomputable def hueRampW (fl : ℝ → ℝ) (fused : Bool) (g t1 t2 t : ℝ) : ℝ :=
  if t < fl (1 / 6) then fl (t2 + roundUnless fl fused (fl (g * 6) * t))
  else if t < 1 / 2 then t1
  else if t < fl (2 / 3) then fl (t2 + roundUnless fl fused (fl (g * fl (fl (2 / 3) - t)) * 6))
  else t2

/-- `temp1` of `hslToRgbFused` on numbers. -/
noncomputable def topW (fl : ℝ → ℝ) (w : Fusion → Bool) (s l : ℝ) : ℝ :=
  if l < 1 / 2 then fl (l * fl (1 + s)) else fl (fl (l + s) - roundUnless fl (w .lumSat) (l * s))

/-- `temp1` where it is subtracted. -/
noncomputable def topFused (fl : ℝ → ℝ) (w : Fusion → Bool) (f : Fusion) (s l : ℝ) : ℝ :=
  if l < 1 / 2 ∧ w f = true then l * fl (1 + s) else topW fl w s l

/-- `temp2` of `hslToRgbFused` on numbers. -/
noncomputable def lowW (fl : ℝ → ℝ) (w : Fusion → Bool) (s l : ℝ) : ℝ :=
  fl (roundUnless fl (!(decide (l < 1 / 2) && w .first) && w .twice) (2 * l) - topFused fl w .first s l)

/-- `hslToRgbFused` on numbers. -/
noncomputable def hslToRgbW (r : Rounding) (w : Fusion → Bool) (h s l : ℝ) : ℝ × ℝ × ℝ :=
  let fl := r.toFloat
  if |s| < r.toDouble (1 / 10000) then (l, l, l)
  else
    let t1 := topW fl w s l
    let t2 := lowW fl w s l
    let g := fun c => fl (topFused fl w (.gap c) s l - t2)
    let tr := fl (h + fl (1 / 3))
    let tb := fl (h - fl (1 / 3))
    (hueRampW fl (w (.ramp 0)) (g 0) t1 t2 (if tr > 1 then fl (tr - 1) else tr), hueRampW fl (w (.ramp 1)) (g 1) t1 t2 h,
      hueRampW fl (w (.ramp 2)) (g 2) t1 t2 (if tb < 0 then fl (tb + 1) else tb))

/-! ### bit patterns -/

section
variable {r : Rounding} (hr : r.IEEE) {o : FusedOps} (ho : o.Correct r) {dv : F32 → F32 → F32} (hdv : DivCorrect r dv) {k l m : ℕ}
  {x y z : Bits o.toFloatOps} {a b c : ℝ}
include hr ho

theorem Rep.fma (hx : Rep k x a) (hy : Rep l y b) (hz : Rep (k + l) z c) (hk : k + l ≤ 99) : Rep (k + l + 1) (fmaBits x y z) (r.toFloat (c + a * b)) := by
  have hab : |a * b| ≤ 2 ^ (k + l) := by
    rw [abs_mul, pow_add]
    exact mul_le_mul hx.2.2 hy.2.2 (abs_nonneg _) (by positivity)
  have h := toFloat_pow hr (k + l + 1) (v := a * b + c) ((abs_add_le _ _).trans (by rw [pow_succ]; linarith [hz.2.2]))
  obtain ⟨f1, e1, -⟩ := hx
  obtain ⟨f2, e2, -⟩ := hy
  obtain ⟨f3, e3, -⟩ := hz
  unfold Bits.num at e1 e2 e3
  obtain ⟨g1, g2⟩ := ho.fma x y z f1 f2 f3 (by rw [e1, e2, e3]; exact h.trans (pow_le_maxFloat (by omega)))
  rw [e1, e2, e3] at g2
  rw [add_comm c]
  exact ⟨g1, g2, h⟩

/-- A product that is added, fused or not. -/
theorem Rep.addMul (fused : Bool) (hx : Rep k x a) (hy : Rep l y b) (hz : Rep (k + l) z c) (hk : k + l ≤ 99) :
    Rep (k + l + 1) (if fused then fmaBits x y z else z + x * y) (r.toFloat (c + roundUnless r.toFloat fused (a * b))) := by
  cases fused
  · exact hz.add hr ho.toCorrect (hx.mul hr ho.toCorrect hy (by omega)) hk
  · exact hx.fma hr ho hy hz hk

/-- A product that is subtracted, fused or not. -/
theorem Rep.subMul (fused : Bool) (hx : Rep k x a) (hy : Rep l y b) (hz : Rep (k + l) z c) (hk : k + l ≤ 99) :
    Rep (k + l + 1) (if fused then fmaBits (-x) y z else Bits.sub z (x * y)) (r.toFloat (c - roundUnless r.toFloat fused (a * b))) := by
  cases fused
  · exact hz.sub hr ho.toCorrect (hx.mul hr ho.toCorrect hy (by omega)) hk
  · have h := (hx.neg ho.toCorrect).fma hr ho hy hz hk
    rw [neg_mul, ← sub_eq_add_neg] at h
    exact h

/-- Something subtracted from a product, fused or not. -/
theorem Rep.mulSub (fused : Bool) (hx : Rep k x a) (hy : Rep l y b) (hz : Rep (k + l) z c) (hk : k + l ≤ 99) :
    Rep (k + l + 1) (if fused then fmaBits x y (-z) else Bits.sub (x * y) z) (r.toFloat (roundUnless r.toFloat fused (a * b) - c)) := by
  cases fused
  · exact (hx.mul hr ho.toCorrect hy (by omega)).sub hr ho.toCorrect hz hk
  · have h := hx.fma hr ho hy (hz.neg ho.toCorrect) hk
    rw [add_comm (-c), ← sub_eq_add_neg] at h
    exact h

include hdv

theorem rep_rampW (fused : Bool) {g t1 t2 t : Bits o.toFloatOps} {G T1 T2 T : ℝ} (h0 : Rep 31 g G) (h1 : Rep 30 t1 T1) (h2 : Rep 30 t2 T2) (h3 : Rep 20 t T) :
    Rep 60 (hueRampFused dv fused g t1 t2 t) (hueRampW r.toFloat fused G T1 T2 T) := by
  have l6 := rep_nat hr ho.toCorrect 6 (by norm_num)
  have f1 := rep_frac hr ho.toCorrect hdv 1 6 (by norm_num) (by norm_num) (by norm_num) (by norm_num)
  have f2 := rep_frac hr ho.toCorrect hdv 2 3 (by norm_num) (by norm_num) (by norm_num) (by norm_num)
  have hh := rep_lit hr ho.toCorrect (k := 0) (v := 1 / 2) (by norm_num [abs_of_pos]) (by norm_num)
  rw [toFloat_exact hr (y := 1 / 2) 1 (-1) (by norm_num) (by norm_num) (by norm_num) (by norm_num)] at hh
  push_cast at l6 f1 f2
  unfold hueRampFused hueRampW
  refine Rep.ite (h3.lt f1) (fun _ => ?_) fun _ => Rep.ite (h3.lt hh) (fun _ => h1.mono (by norm_num)) fun _ =>
    Rep.ite (h3.lt f2) (fun _ => ?_) fun _ => h2.mono (by norm_num)
  · exact ((h0.mul hr ho.toCorrect l6 (by norm_num)).addMul hr ho fused h3 (h2.mono (by norm_num)) (by norm_num)).mono (by norm_num)
  · exact ((h0.mul hr ho.toCorrect ((f2.mono (by norm_num)).sub hr ho.toCorrect h3 (by norm_num)) (by norm_num)).addMul hr ho fused l6
      (h2.mono (by norm_num)) (by norm_num)).mono (by norm_num)

/-- `HSLToRGB` for samples up to 1024. -/
theorem rep_hslToRgbW (w : Fusion → Bool) {h s l : Bits o.toFloatOps} {H S L : ℝ} (hh : Rep 10 h H) (hs : Rep 10 s S) (hl : Rep 10 l L) :
    Rep 60 (hslToRgbFused r dv w h s l).1 (hslToRgbW r w H S L).1 ∧ Rep 60 (hslToRgbFused r dv w h s l).2.1 (hslToRgbW r w H S L).2.1 ∧
      Rep 60 (hslToRgbFused r dv w h s l).2.2 (hslToRgbW r w H S L).2.2 := by
  have l1 := rep_nat hr ho.toCorrect 1 (by norm_num)
  have l2 := rep_nat hr ho.toCorrect 2 (by norm_num)
  have f := rep_frac hr ho.toCorrect hdv 1 3 (by norm_num) (by norm_num) (by norm_num) (by norm_num)
  push_cast at l1 l2 f
  unfold hslToRgbFused hslToRgbW
  by_cases hg : |S| < r.toDouble (1 / 10000)
  · rw [if_pos hg, if_pos (hs.abs.below.2 hg)]
    exact ⟨hl.mono (by norm_num), hl.mono (by norm_num), hl.mono (by norm_num)⟩
  · rw [if_neg hg, if_neg (fun hc => hg (hs.abs.below.1 hc))]
    have p := (l1.mono (by norm_num)).add hr ho.toCorrect hs (by norm_num)
    have t1 : Rep 22 (if l.Below (1 / 2) then l * (lit _ 1 + s) else if w .lumSat then fmaBits (-l) s (l + s) else sub (l + s) (l * s))
        (topW r.toFloat w S L) := by
      refine Rep.ite hl.below (fun _ => ?_) fun _ => ?_
      · exact (hl.mul hr ho.toCorrect p (by norm_num)).mono (by norm_num)
      · exact (hl.subMul hr ho (w .lumSat) hs ((hl.add hr ho.toCorrect hs (by norm_num)).mono (by norm_num)) (by norm_num)).mono (by norm_num)
    have t2 : Rep 30 (if l.Below (1 / 2) ∧ w .first = true then fmaBits (-l) (lit _ 1 + s) (lit _ 2 * l)
        else if w .twice then fmaBits (lit _ 2) l
          (-(if l.Below (1 / 2) then l * (lit _ 1 + s) else if w .lumSat then fmaBits (-l) s (l + s) else sub (l + s) (l * s)))
        else sub (lit _ 2 * l) (if l.Below (1 / 2) then l * (lit _ 1 + s) else if w .lumSat then fmaBits (-l) s (l + s) else sub (l + s) (l * s)))
        (lowW r.toFloat w S L) := by
      have iff : (l.Below (1 / 2) ∧ w .first = true) ↔ (L < 1 / 2 ∧ w .first = true) := and_congr hl.below Iff.rfl
      unfold lowW topFused
      by_cases hc : L < 1 / 2 ∧ w .first = true
      · rw [if_pos (iff.2 hc), if_pos hc, decide_eq_true hc.1, hc.2]
        exact (hl.subMul hr ho true p ((l2.mul hr ho.toCorrect hl (by norm_num)).mono (by norm_num)) (by norm_num)).mono (by norm_num)
      · rw [if_neg (fun h => hc (iff.1 h)), if_neg hc]
        have e : (!(decide (L < 1 / 2) && w .first) && w .twice) = w .twice := by
          have : (decide (L < 1 / 2) && w .first) = false := by
            rw [Bool.and_eq_false_iff]
            by_contra hn
            push Not at hn
            exact hc ⟨by simpa using hn.1, by simpa using hn.2⟩
          rw [this]; rfl
        rw [e]
        exact ((l2.mono (l := 12) (by norm_num)).mulSub hr ho (w .twice) hl t1 (by norm_num)).mono (by norm_num)
    have g : ∀ c : Fin 3, Rep 31 (if l.Below (1 / 2) ∧ w (.gap c) = true then fmaBits l (lit _ 1 + s) (-(if l.Below (1 / 2) ∧ w .first = true then fmaBits (-l) (lit _ 1 + s) (lit _ 2 * l)
        else if w .twice then fmaBits (lit _ 2) l
          (-(if l.Below (1 / 2) then l * (lit _ 1 + s) else if w .lumSat then fmaBits (-l) s (l + s) else sub (l + s) (l * s)))
        else sub (lit _ 2 * l) (if l.Below (1 / 2) then l * (lit _ 1 + s) else if w .lumSat then fmaBits (-l) s (l + s) else sub (l + s) (l * s))))
        else sub (if l.Below (1 / 2) then l * (lit _ 1 + s) else if w .lumSat then fmaBits (-l) s (l + s) else sub (l + s) (l * s))
          (if l.Below (1 / 2) ∧ w .first = true then fmaBits (-l) (lit _ 1 + s) (lit _ 2 * l)
        else if w .twice then fmaBits (lit _ 2) l
          (-(if l.Below (1 / 2) then l * (lit _ 1 + s) else if w .lumSat then fmaBits (-l) s (l + s) else sub (l + s) (l * s)))
        else sub (lit _ 2 * l) (if l.Below (1 / 2) then l * (lit _ 1 + s) else if w .lumSat then fmaBits (-l) s (l + s) else sub (l + s) (l * s))))
        (r.toFloat (topFused r.toFloat w (.gap c) S L - lowW r.toFloat w S L)) := by
      intro c
      have iff : (l.Below (1 / 2) ∧ w (.gap c) = true) ↔ (L < 1 / 2 ∧ w (.gap c) = true) := and_congr hl.below Iff.rfl
      unfold topFused
      by_cases hc : L < 1 / 2 ∧ w (.gap c) = true
      · rw [if_pos (iff.2 hc), if_pos hc]
        have := (hl.mono (l := 19) (by norm_num)).mulSub hr ho true p t2 (by norm_num)
        exact this.mono (by norm_num)
      · rw [if_neg (fun h => hc (iff.1 h)), if_neg hc]
        exact (t1.mono (by norm_num)).sub hr ho.toCorrect t2 (by norm_num)
    have tr := hh.add hr ho.toCorrect (f.mono (by norm_num)) (by norm_num)
    have tb := hh.sub hr ho.toCorrect (f.mono (by norm_num)) (by norm_num)
    have t1' := t1.mono (l := 30) (by norm_num)
    refine ⟨rep_rampW hr ho hdv _ (g 0) t1' t2 ((Rep.ite (l1.lt tr) (fun _ => ?_) fun _ => ?_)),
      rep_rampW hr ho hdv _ (g 1) t1' t2 (hh.mono (by norm_num)), rep_rampW hr ho hdv _ (g 2) t1' t2 (Rep.ite (tb.lt Rep.zero (l := 0)) (fun _ => ?_) fun _ => ?_)⟩
    · exact (tr.sub hr ho.toCorrect (l1.mono (by norm_num)) (by norm_num)).mono (by norm_num)
    · exact tr.mono (by norm_num)
    · exact (tb.add hr ho.toCorrect (l1.mono (by norm_num)) (by norm_num)).mono (by norm_num)
    · exact tb.mono (by norm_num)

end

/-! ### errors -/

section
variable {fl : ℝ → ℝ} {u : ℝ} (E : SmallErr fl u)
include E

theorem SmallErr.unless (fused : Bool) {x B : ℝ} (h1 : -B ≤ x) (h2 : x ≤ B) (hB : 1 / 2 ^ 40 ≤ B) :
    -(B * u) ≤ roundUnless fl fused x - x ∧ roundUnless fl fused x - x ≤ B * u := by
  cases fused
  · exact E.near h1 h2 hB
  · have h : 0 ≤ B * u := mul_nonneg (le_trans (by norm_num) hB) E.pos.le
    show -(B * u) ≤ x - x ∧ x - x ≤ B * u
    rw [sub_self]
    exact ⟨by linarith, h⟩

/-- The largest and the smallest component from luminance and saturation. -/
theorem top_fused (w : Fusion → Bool) {L S : ℝ} (hL : |L| ≤ 11 / 10) (hS : |S| ≤ 11 / 10) :
    |topW fl w S L - (L + S * spread L)| ≤ 10 * u ∧ (∀ f, |topFused fl w f S L - topW fl w S L| ≤ 3 * u) ∧
      |lowW fl w S L - (L - S * spread L)| ≤ 25 * u := by
  have hu := E.pos
  have hs := E.small
  obtain ⟨l1, l2⟩ := abs_le.1 hL
  obtain ⟨s1, s2⟩ := abs_le.1 hS
  have hLS : |L * S| ≤ 11 / 10 * (11 / 10) := by
    rw [abs_mul]; exact mul_le_mul hL hS (abs_nonneg _) (by norm_num)
  obtain ⟨m1, m2⟩ := abs_le.1 hLS
  have second : ∀ X, |X| ≤ 7 / 2 → |topW fl w S L - X| ≤ 10 * u → (∀ f, |topFused fl w f S L - topW fl w S L| ≤ 3 * u) →
      |lowW fl w S L - (2 * L - X)| ≤ 25 * u := by
    intro X hX h h'
    obtain ⟨t1, t2⟩ := abs_le.1 h
    obtain ⟨r1, r2⟩ := abs_le.1 (h' .first)
    obtain ⟨x1, x2⟩ := abs_le.1 hX
    unfold lowW
    set q := !(decide (L < 1 / 2) && w .first) && w .twice
    obtain ⟨a1, a2⟩ := E.unless q (x := 2 * L) (B := 11 / 5) (by linarith) (by linarith) (by norm_num)
    obtain ⟨b1, b2⟩ := E.near (x := roundUnless fl q (2 * L) - topFused fl w .first S L) (B := 6) (by linarith) (by linarith) (by norm_num)
    rw [abs_le]
    constructor <;> linarith
  have e2 : L - S * spread L = 2 * L - (L + S * spread L) := by ring
  rw [e2]
  by_cases hc : L < 1 / 2
  · have e : L + S * spread L = L * (1 + S) := by
      unfold spread; rw [min_eq_left (by linarith)]; ring
    rw [e]
    have hT : topW fl w S L = fl (L * fl (1 + S)) := if_pos hc
    obtain ⟨p1, p2⟩ := E.near (x := 1 + S) (B := 11 / 5) (by linarith) (by linarith) (by norm_num)
    have hp : |L * fl (1 + S) - L * (1 + S)| ≤ 11 / 10 * (11 / 5 * u) := by
      rw [← mul_sub, abs_mul]
      exact mul_le_mul hL (abs_le.2 ⟨by linarith, by linarith⟩) (abs_nonneg _) (by norm_num)
    obtain ⟨q1, q2⟩ := abs_le.1 hp
    obtain ⟨w1, w2⟩ := E.near (x := L * fl (1 + S)) (B := 3) (by linarith) (by linarith) (by norm_num)
    rw [← hT] at w1 w2
    have first : |topW fl w S L - L * (1 + S)| ≤ 10 * u := by rw [abs_le]; constructor <;> linarith
    have gaps : ∀ f, |topFused fl w f S L - topW fl w S L| ≤ 3 * u := by
      intro f
      unfold topFused
      split_ifs
      · rw [abs_le]; constructor <;> linarith
      · rw [sub_self, abs_zero]; linarith
    exact ⟨first, gaps, second _ (abs_le.2 ⟨by linarith, by linarith⟩) first gaps⟩
  · have e : L + S * spread L = L + S - L * S := by
      unfold spread; rw [min_eq_right (by linarith)]; ring
    rw [e]
    have hT : topW fl w S L = fl (fl (L + S) - roundUnless fl (w .lumSat) (L * S)) := if_neg hc
    obtain ⟨p1, p2⟩ := E.near (x := L + S) (B := 11 / 5) (by linarith) (by linarith) (by norm_num)
    obtain ⟨q1, q2⟩ := E.unless (w .lumSat) (x := L * S) (B := 2) (by linarith) (by linarith) (by norm_num)
    obtain ⟨w1, w2⟩ := E.near (x := fl (L + S) - roundUnless fl (w .lumSat) (L * S)) (B := 4) (by linarith) (by linarith) (by norm_num)
    rw [← hT] at w1 w2
    have first : |topW fl w S L - (L + S - L * S)| ≤ 10 * u := by rw [abs_le]; constructor <;> linarith
    have gaps : ∀ f, |topFused fl w f S L - topW fl w S L| ≤ 3 * u := by
      intro f
      unfold topFused
      rw [if_neg fun h => hc h.1, sub_self, abs_zero]
      linarith
    exact ⟨first, gaps, second _ (abs_le.2 ⟨by linarith, by linarith⟩) first gaps⟩

/-- The ramp, fused and not. -/
theorem ramp_fused (fused : Bool) {T T1 T2 t : ℝ} (hT2 : |T2| ≤ 1 + 1 / 10) (hd : |T1 - T2| ≤ 1 + 1 / 10) (hT : |T - T1| ≤ 3 * u) (t0 : -1 / 10 ≤ t)
    (t1 : t ≤ 11 / 10) : |hueRampW fl fused (fl (T - T2)) T1 T2 t - hueRampF fl T1 T2 t| ≤ 40 * u := by
  have hu := E.pos
  have hs := E.small
  obtain ⟨a1, a2⟩ := abs_le.1 hT
  obtain ⟨b1, b2⟩ := abs_le.1 hT2
  obtain ⟨c1, c2⟩ := abs_le.1 hd
  obtain ⟨s1, s2⟩ := E.near (x := 1 / 6) (B := 1) (by norm_num) (by norm_num) (by norm_num)
  obtain ⟨w1, w2⟩ := E.near (x := 2 / 3) (B := 1) (by norm_num) (by norm_num) (by norm_num)
  obtain ⟨d1, d2⟩ := E.near (x := T1 - T2) (B := 6 / 5) (by linarith) (by linarith) (by norm_num)
  obtain ⟨e1, e2⟩ := E.near (x := T - T2) (B := 6 / 5) (by linarith) (by linarith) (by norm_num)
  set d := fl (T1 - T2)
  set g := fl (T - T2)
  have hgd : |g - d| ≤ 27 / 5 * u := by rw [abs_le]; constructor <;> linarith
  -- products that are close, added
  have key : ∀ {x y : ℝ}, |x - y| ≤ 20 * u → |y| ≤ 8 / 5 → |fl (T2 + roundUnless fl fused x) - fl (T2 + fl y)| ≤ 40 * u := by
    intro x y h hQ
    obtain ⟨h1, h2⟩ := abs_le.1 h
    obtain ⟨q1, q2⟩ := abs_le.1 hQ
    obtain ⟨f1, f2⟩ := E.unless fused (x := x) (B := 2) (by linarith) (by linarith) (by norm_num)
    obtain ⟨g1, g2⟩ := E.near (x := y) (B := 2) (by linarith) (by linarith) (by norm_num)
    obtain ⟨k1, k2⟩ := E.near (x := T2 + roundUnless fl fused x) (B := 4) (by linarith) (by linarith) (by norm_num)
    obtain ⟨l1, l2⟩ := E.near (x := T2 + fl y) (B := 4) (by linarith) (by linarith) (by norm_num)
    rw [abs_le]
    constructor <;> linarith
  unfold hueRampW hueRampF
  split_ifs with h1 h2 h3
  · obtain ⟨p1, p2⟩ := E.near (x := d * 6) (B := 8) (by linarith) (by linarith) (by norm_num)
    obtain ⟨q1, q2⟩ := E.near (x := g * 6) (B := 8) (by linarith) (by linarith) (by norm_num)
    have hpq : |fl (g * 6) - fl (d * 6)| ≤ 49 * u := by rw [abs_le]; constructor <;> linarith [abs_le.1 hgd]
    have ht : |t| ≤ 1 / 5 := abs_le.2 ⟨by linarith, by linarith⟩
    refine key ?_ ?_
    · rw [← sub_mul, abs_mul]
      exact (mul_le_mul hpq ht (abs_nonneg _) (by linarith)).trans (by linarith)
    · rw [abs_mul]
      exact (mul_le_mul (a := |fl (d * 6)|) (b := 8) (abs_le.2 ⟨by linarith, by linarith⟩) ht (abs_nonneg _) (by norm_num)).trans (by norm_num)
  · rw [sub_self, abs_zero]; linarith
  · push Not at h2
    obtain ⟨k1, k2⟩ := E.near (x := fl (2 / 3) - t) (B := 1) (by linarith) (by linarith) (by norm_num)
    set k := fl (fl (2 / 3) - t)
    have hk : |k| ≤ 1 / 5 := abs_le.2 ⟨by linarith, by linarith⟩
    have hdk : |d * k| ≤ 6 / 5 * (1 / 5) := by
      rw [abs_mul]
      exact mul_le_mul (abs_le.2 ⟨by linarith, by linarith⟩) hk (abs_nonneg _) (by norm_num)
    have hgk : |g * k - d * k| ≤ 27 / 5 * u * (1 / 5) := by
      rw [← sub_mul, abs_mul]
      exact mul_le_mul hgd hk (abs_nonneg _) (by linarith)
    obtain ⟨x1, x2⟩ := abs_le.1 hdk
    obtain ⟨y1, y2⟩ := abs_le.1 hgk
    obtain ⟨p1, p2⟩ := E.near (x := d * k) (B := 1) (by linarith) (by linarith) (by norm_num)
    obtain ⟨q1, q2⟩ := E.near (x := g * k) (B := 1) (by linarith) (by linarith) (by norm_num)
    refine key ?_ ?_ <;> rw [abs_le] <;> constructor <;> linarith
  · rw [sub_self, abs_zero]; linarith

end

set_option maxHeartbeats 1000000 in
/-- A change of the HSL values changes the colour at most nine times as much, fused or not. -/
theorem hsl_move_fused {r : Rounding} (hr : r.IEEE) (w : Fusion → Bool) {H S L H' S' L' ε : ℝ} {c : ℝ × ℝ × ℝ} (hc : StandsFor (1 / 2 ^ 23) H S L c)
    (hε : ε ≤ 1 / 100) (dH : |H' - H| ≤ ε) (dS : |S' - S| ≤ ε) (dL : |L' - L| ≤ ε) :
    Within (9 * ε + 1 / 7400) (hslToRgbW r w H' S' L') c := by
  have hF := hsl_move hr hc hε dH dS dL
  have E := smallErr_of hr
  have ε0 : 0 ≤ ε := (abs_nonneg _).trans dH
  obtain ⟨bH, bS, bL, L0, L1⟩ := hc.bound E.pos E.small
  obtain ⟨M, m, h, n, h0, hm, h1, hM, hmm, s0, s1, hn, H0, H1, hh0, hh1, rfl⟩ := hc
  have hu := E.pos
  have hs := E.small
  have hu260 : 285 * (1 / 2 ^ 23 : ℝ) ≤ 1 / 29000 := by norm_num
  obtain ⟨u, hu2⟩ : ∃ u : ℝ, u = 1 / 2 ^ 23 := ⟨_, rfl⟩
  rw [← hu2] at E hM hmm H1 hu hs hu260 L0 L1
  obtain ⟨x1, x2⟩ := abs_le.1 dH
  obtain ⟨y1, y2⟩ := abs_le.1 dS
  obtain ⟨z1, z2⟩ := abs_le.1 dL
  obtain ⟨bS1, bS2⟩ := abs_le.1 bS
  have hf1 : |spread L'| ≤ 1 / 2 := abs_le.2 ⟨by have := spread_ge (l := L') (e := 1 / 2) (by linarith) (by linarith); linarith, spread_le L'⟩
  have hprod : |S' * spread L' - S * spread L| ≤ 151 / 100 * ε := by
    have e : S' * spread L' - S * spread L = (S' - S) * spread L' + S * (spread L' - spread L) := by ring
    rw [e]
    refine (abs_add_le _ _).trans ?_
    rw [abs_mul, abs_mul]
    have k1 : |S' - S| * |spread L'| ≤ ε * (1 / 2) := mul_le_mul dS hf1 (abs_nonneg _) ε0
    have k2 : |S| * |spread L' - spread L| ≤ (1 + 1 / 1000) * ε := mul_le_mul bS ((spread_lip _ _).trans dL) (abs_nonneg _) (by norm_num)
    linarith
  obtain ⟨p1, p2⟩ := abs_le.1 hprod
  obtain ⟨q1, q2⟩ := abs_le.1 hM
  obtain ⟨r1, r2⟩ := abs_le.1 hmm
  have key : Within (1 / 29000) (hslToRgbW r w H' S' L') (hslToRgbF r H' S' L') := by
    unfold hslToRgbW hslToRgbF
    by_cases hg : |S'| < r.toDouble (1 / 10000)
    · rw [if_pos hg, if_pos hg]
      refine ⟨?_, ?_, ?_⟩ <;> simp only [sub_self, abs_zero] <;> norm_num
    · rw [if_neg hg, if_neg hg]
      simp only
      obtain ⟨t1, t2⟩ := top_near E (L := L') (S := S') (abs_le.2 ⟨by linarith, by linarith⟩) (abs_le.2 ⟨by linarith, by linarith⟩) rfl
      obtain ⟨v1, v2, v3⟩ := top_fused E w (L := L') (S := S') (abs_le.2 ⟨by linarith, by linarith⟩) (abs_le.2 ⟨by linarith, by linarith⟩)
      set T1 := if L' < 1 / 2 then r.toFloat (L' * r.toFloat (1 + S')) else r.toFloat (r.toFloat (L' + S') - r.toFloat (L' * S'))
      set T2 := r.toFloat (r.toFloat (2 * L') - T1)
      set W1 := topW r.toFloat w S' L'
      set W2 := lowW r.toFloat w S' L'
      obtain ⟨a1, a2⟩ := abs_le.1 t1
      obtain ⟨b1, b2⟩ := abs_le.1 t2
      obtain ⟨c1, c2⟩ := abs_le.1 v1
      obtain ⟨d1, d2⟩ := abs_le.1 v3
      obtain ⟨_, _, e2, e3, _, _⟩ := up_move E dH hε H0 H1
      obtain ⟨_, _, f2, f3, _, _⟩ := down_move E dH hε H0 H1
      have comp : ∀ (i j : Fusion) (t : ℝ), -1 / 100 ≤ t → t ≤ 102 / 100 →
          |hueRampW r.toFloat (w j) (r.toFloat (topFused r.toFloat w i S' L' - W2)) W1 W2 t - hueRampF r.toFloat T1 T2 t| ≤ 1 / 29000 := by
        intro i j t g1 g2
        have k1 := ramp_fused E (w j) (T := topFused r.toFloat w i S' L') (T1 := W1) (T2 := W2) (t := t) (abs_le.2 ⟨by linarith, by linarith⟩)
          (abs_le.2 ⟨by linarith, by linarith⟩) (v2 i) (by linarith) (by linarith)
        have k2 := ramp_near E (T1 := W1) (T2 := W2) (t := t) (abs_le.2 ⟨by linarith, by linarith⟩) (abs_le.2 ⟨by linarith, by linarith⟩)
          (abs_le.2 ⟨by linarith, by linarith⟩) (by linarith) (by linarith)
        have k3 := ramp_near E (T1 := T1) (T2 := T2) (t := t) (abs_le.2 ⟨by linarith, by linarith⟩) (abs_le.2 ⟨by linarith, by linarith⟩)
          (abs_le.2 ⟨by linarith, by linarith⟩) (by linarith) (by linarith)
        have k4 : |(W1 - W2) * phi t - (T1 - T2) * phi t| ≤ 65 * u * 1 := by
          rw [← sub_mul, abs_mul]
          exact mul_le_mul (abs_le.2 ⟨by linarith, by linarith⟩) (abs_le.2 ⟨phi_ge (by linarith), phi_le_one t⟩) (abs_nonneg _) (by linarith)
        obtain ⟨_, _⟩ := abs_le.1 k1
        obtain ⟨_, _⟩ := abs_le.1 k2
        obtain ⟨_, _⟩ := abs_le.1 k3
        obtain ⟨_, _⟩ := abs_le.1 k4
        rw [abs_le]
        constructor <;> linarith
      exact ⟨comp _ _ _ (by linarith) (by linarith), comp _ _ _ (by linarith) (by linarith), comp _ _ _ (by linarith) (by linarith)⟩
  obtain ⟨w1, w2, w3⟩ := key
  obtain ⟨u1, u2, u3⟩ := hF
  refine ⟨?_, ?_, ?_⟩
  · exact (abs_sub_le _ _ _).trans ((add_le_add w1 u1).trans (by linarith))
  · exact (abs_sub_le _ _ _).trans ((add_le_add w2 u2).trans (by linarith))
  · exact (abs_sub_le _ _ _).trans ((add_le_add w3 u3).trans (by linarith))

end WB
