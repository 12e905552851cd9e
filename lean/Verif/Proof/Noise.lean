import Verif.Spec.Noise
import Verif.Proof.Optimal
import Verif.Props.Structure
import Mathlib.MeasureTheory.Integral.Bochner.SumMeasure

/-!
Every coefficient is the scalar product of the signal with one fixed signal.
-/

set_option linter.unusedSectionVars false

namespace WB

open Spec Finset Props

/-- Scalar product. -/
noncomputable def dotM (x y : Mat ℝ) : ℝ := ∑ i ∈ range x.rows, ∑ j ∈ range x.cols, x.get i j * y.get i j

theorem sqDist_dot {x y : Mat ℝ} (h : SameSize x y) : sqDist x y = energy x + energy y - 2 * dotM x y := by
  unfold sqDist energy dotM
  rw [← h.1, ← h.2, mul_sum, ← sum_add_distrib, ← sum_sub_distrib]
  refine sum_congr rfl fun i _ => ?_
  rw [mul_sum, ← sum_add_distrib, ← sum_sub_distrib]
  exact sum_congr rfl fun j _ => by ring

theorem zipWith_sum (f : Mat ℝ → Mat ℝ → ℝ) : ∀ {a b : List (Mat ℝ)}, a.length = b.length →
    (List.zipWith f a b).sum = ∑ q ∈ range a.length, f (a.getD q default) (b.getD q default)
  | [], [], _ => by simp
  | a :: as, b :: bs, h => by
    rw [List.zipWith_cons_cons, List.sum_cons, zipWith_sum f (by simpa using h), List.length_cons, sum_range_succ']
    simp only [List.getD_cons_succ, List.getD_cons_zero]
    ring

/-- Scalar products of channels. -/
noncomputable def dotC (a b : List (Mat ℝ)) : ℝ := (List.zipWith dotM a b).sum

theorem sqDist_dotC {a b : List (Mat ℝ)} (h : a.length = b.length) (hs : ∀ q < a.length, SameSize (a.getD q default) (b.getD q default)) :
    (List.zipWith sqDist a b).sum = (a.map energy).sum + (b.map energy).sum - 2 * dotC a b := by
  unfold dotC
  rw [zipWith_sum _ h, zipWith_sum _ h, list_sum_range, list_sum_range, ← h, mul_sum, ← sum_add_distrib, ← sum_sub_distrib]
  exact sum_congr rfl fun q hq => sqDist_dot (hs q (mem_range.1 hq))

theorem sized_same {p : Params} {a b : Channel ℝ} (ha : SizedChan p a) (hb : SizedChan p b) {q : ℕ} (hq : q < decompositionSize p) :
    SameSize (a.getD q default) (b.getD q default) := by
  rcases sub_cases p hq with rfl | ⟨s, hs, j, hj, rfl⟩
  · exact ⟨ha.2.2.1.trans hb.2.2.1.symm, ha.2.2.2.trans hb.2.2.2.symm⟩
  · have h1 := ha.2.1 s hs j hj
    have h2 := hb.2.1 s hs j hj
    exact ⟨h1.1.trans h2.1.symm, h1.2.trans h2.2.symm⟩

/-- Composition is the adjoint of decomposition. -/
theorem dot_adjoint {k : Kit ℝ} {p : Params} (hv : ValidParams p) (hf : FilterLen k p) (ho : OrthoKit k p)
    (hdvd : ∀ n ∈ p.shape, 2 ^ p.steps ∣ n) {c : Channel ℝ} (hc : SizedChan p c) {x : Mat ℝ} (hx : Shaped p x) :
    dotC c (chanP p (scaling k p) nullDenoiser x) = dotM (outP k p 0 c) x := by
  obtain ⟨s1, e1⟩ := chanP_outP hv hf ho hdvd hc
  have hcx := chanP_sized (k := k) hv nullDenoiser_sized hx
  have h := composed_dist hv hf ho hdvd hc hx
  rw [sqDist_dotC (hc.1.trans hcx.1.symm) (fun q hq => sized_same hc hcx (by rwa [hc.1] at hq)),
    sqDist_dot ⟨s1.1.trans hx.1.symm, s1.2.trans hx.2.symm⟩] at h
  have en : ∀ {z : Mat ℝ}, Shaped p z → ((chanP p (scaling k p) nullDenoiser z).map energy).sum = energy z := by
    intro z hz
    have n := energy_chan hv hf ho (fits_padOf hv hz) (le_refl p.steps)
    rw [padOf_self hv hz hdvd] at n
    unfold chanP
    rw [padOf_self hv hz hdvd, List.map_append, List.sum_append]
    simpa using n
  have n1 := en hx
  have n2 := en s1
  rw [e1] at n2
  linarith

/-- The channel with a single 1. -/
noncomputable def unitChan (k : Kit ℝ) (p : Params) (t i j : ℕ) : Channel ℝ :=
  (chanP p (scaling k p) nullDenoiser (Mat.ofFn (matRows p.shape) (matCols p.shape) fun _ _ => 0)).mapIdx fun q m =>
    Mat.ofFn m.rows m.cols fun a b => if q = t ∧ a = i ∧ b = j then 1 else 0

theorem zero_shaped (p : Params) : Shaped p (Mat.ofFn (matRows p.shape) (matCols p.shape) fun _ _ => (0 : ℝ)) := ⟨rfl, rfl⟩

theorem unitChan_length (k : Kit ℝ) (p : Params) (t i j : ℕ) : (unitChan k p t i j).length = decompositionSize p := by
  unfold unitChan; rw [List.length_mapIdx, chanP_length]

theorem unitChan_getD (k : Kit ℝ) (p : Params) (t i j : ℕ) {q : ℕ} (hq : q < decompositionSize p) :
    (unitChan k p t i j).getD q default =
      Mat.ofFn ((chanP p (scaling k p) nullDenoiser (Mat.ofFn (matRows p.shape) (matCols p.shape) fun _ _ => (0 : ℝ))).getD q default).rows
        ((chanP p (scaling k p) nullDenoiser (Mat.ofFn (matRows p.shape) (matCols p.shape) fun _ _ => (0 : ℝ))).getD q default).cols
        fun a b => if q = t ∧ a = i ∧ b = j then 1 else 0 := by
  have hl := chanP_length p (scaling k p) nullDenoiser (Mat.ofFn (matRows p.shape) (matCols p.shape) fun _ _ => (0 : ℝ))
  unfold unitChan
  simp only [List.getD, List.getElem?_mapIdx]
  rw [List.getElem?_eq_getElem (by omega)]
  simp

theorem unitChan_sized {k : Kit ℝ} {p : Params} (hv : ValidParams p) (t i j : ℕ) : SizedChan p (unitChan k p t i j) := by
  have hz := chanP_sized (k := k) hv nullDenoiser_sized (zero_shaped p)
  have hpos : 0 < subbandsPerWT p := by unfold subbandsPerWT; split_ifs <;> omega
  refine ⟨unitChan_length _ _ _ _ _, ?_, ?_⟩
  · intro s hs q hq
    have hlt : s * subbandsPerWT p + q < decompositionSize p := by
      unfold decompositionSize
      have := Nat.mul_le_mul_right (subbandsPerWT p) (Nat.succ_le_of_lt hs)
      rw [Nat.succ_mul] at this
      omega
    rw [unitChan_getD _ _ _ _ _ hlt]
    exact hz.2.1 s hs q hq
  · rw [unitChan_getD _ _ _ _ _ (by unfold decompositionSize; omega)]
    exact hz.2.2

theorem dot_unit {k : Kit ℝ} {p : Params} (hv : ValidParams p) {c : Channel ℝ} (hc : SizedChan p c) {t i j : ℕ} (ht : t < decompositionSize p)
    (hi : i < (c.getD t default).rows) (hj : j < (c.getD t default).cols) : dotC (unitChan k p t i j) c = (c.getD t default).get i j := by
  have hz := chanP_sized (k := k) hv nullDenoiser_sized (zero_shaped p)
  unfold dotC
  rw [zipWith_sum _ ((unitChan_length k p t i j).trans hc.1.symm), unitChan_length, sum_eq_single t]
  · have hs := sized_same hz hc ht
    rw [unitChan_getD _ _ _ _ _ ht]
    unfold dotM
    simp only [Mat.rows_ofFn, Mat.cols_ofFn]
    rw [hs.1, hs.2, sum_eq_single i]
    · rw [sum_eq_single j]
      · rw [Mat.get_ofFn hi hj, if_pos (by simp), one_mul]
      · intro b hb hne
        rw [Mat.get_ofFn hi (mem_range.1 hb), if_neg (by tauto), zero_mul]
      · intro h; exact absurd (mem_range.2 hj) h
    · intro a ha hne
      refine sum_eq_zero fun b hb => ?_
      rw [Mat.get_ofFn (mem_range.1 ha) (mem_range.1 hb), if_neg (by tauto), zero_mul]
    · intro h; exact absurd (mem_range.2 hi) h
  · intro q hq hne
    rw [unitChan_getD _ _ _ _ _ (mem_range.1 hq)]
    unfold dotM
    refine sum_eq_zero fun a ha => sum_eq_zero fun b hb => ?_
    simp only [Mat.rows_ofFn, Mat.cols_ofFn] at ha hb
    rw [Mat.get_ofFn (mem_range.1 ha) (mem_range.1 hb), if_neg (by tauto), zero_mul]
  · intro h; exact absurd (mem_range.2 ht) h

/-- The signal whose scalar product with a channel is one coefficient. -/
noncomputable def atom (k : Kit ℝ) (p : Params) (t i j : ℕ) : Mat ℝ := outP k p 0 (unitChan k p t i j)

section Atom
variable {k : Kit ℝ} {p : Params} (hv : ValidParams p) (hf : FilterLen k p) (ho : OrthoKit k p) (hdvd : ∀ n ∈ p.shape, 2 ^ p.steps ∣ n)
include hv hf ho hdvd

theorem atom_shaped (t i j : ℕ) : Shaped p (atom k p t i j) := (chanP_outP hv hf ho hdvd (unitChan_sized hv t i j)).1

theorem atom_coeff {x : Mat ℝ} (hx : Shaped p x) {t i j : ℕ} (ht : t < decompositionSize p)
    (hi : i < ((chanP p (scaling k p) nullDenoiser x).getD t default).rows)
    (hj : j < ((chanP p (scaling k p) nullDenoiser x).getD t default).cols) :
    ((chanP p (scaling k p) nullDenoiser x).getD t default).get i j =
      ∑ a ∈ range (matRows p.shape), ∑ b ∈ range (matCols p.shape), (atom k p t i j).get a b * x.get a b := by
  rw [← dot_unit (k := k) hv (chanP_sized hv nullDenoiser_sized hx) ht hi hj, dot_adjoint hv hf ho hdvd (unitChan_sized hv t i j) hx]
  have s := atom_shaped hv hf ho hdvd t i j
  unfold dotM
  rw [← s.1, ← s.2]
  rfl

theorem atom_gram {t i j t' i' j' : ℕ} (ht : t < decompositionSize p)
    (hi : i < ((unitChan k p t' i' j').getD t default).rows) (hj : j < ((unitChan k p t' i' j').getD t default).cols) :
    ∑ a ∈ range (matRows p.shape), ∑ b ∈ range (matCols p.shape), (atom k p t i j).get a b * (atom k p t' i' j').get a b =
      if t = t' ∧ i = i' ∧ j = j' then 1 else 0 := by
  have s := atom_shaped hv hf ho hdvd t' i' j'
  have e := (chanP_outP hv hf ho hdvd (unitChan_sized (k := k) hv t' i' j')).2
  have h := atom_coeff hv hf ho hdvd s (t := t) (i := i) (j := j) ht
    (by unfold atom; rw [e]; exact hi) (by unfold atom; rw [e]; exact hj)
  rw [← h]
  unfold atom
  rw [e, unitChan_getD _ _ _ _ _ ht]
  rw [unitChan_getD _ _ _ _ _ ht] at hi hj
  exact Mat.get_ofFn hi hj

end Atom

end WB
