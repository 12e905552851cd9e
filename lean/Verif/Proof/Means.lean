import Verif.Spec.Means
import Verif.Proof.Structure
import Verif.Props.Local
import Verif.Props.Transform

/-!
The Haar approximations as sums of blocks of samples.
-/

namespace WB.Props

open Spec Finset

/-- Columns per step. -/
def colsPer (p : Params) : ℕ := if p.dimension = 1 then 1 else 2

/-- The factor of one Haar step. -/
noncomputable def haarGain (p : Params) : ℝ := if p.dimension = 1 then Real.sqrt 2 / 2 else 1 / 2

theorem haar_scaling {p : Params} (h : p.wtype = 1) : scaling codeKit p = [Real.sqrt 2 / 2, Real.sqrt 2 / 2] := by
  simp only [scaling, codeKit, h, dbCoeffs, List.map_cons, List.map_nil]
  norm_num
  ring

theorem haar_step {p : Params} (hv : ValidParams p) (hw : p.wtype = 1) {s : ℕ} (hs : s < p.steps) {m : Mat ℝ} (hm : Fits p s m) {i j : ℕ}
    (hi : i < lvlR p (s + 1)) (hj : j < lvlC p (s + 1)) :
    (approxStep p (scaling codeKit p) m).get i j = haarGain p * ∑ u ∈ range 2, ∑ v ∈ range (colsPer p), m.get (2 * i + u) (colsPer p * j + v) := by
  rw [approx_sub hv (codeKit_present (by omega)) hs hm]
  have ht := wavelet_of_steps hv hs
  have h2 : Real.sqrt 2 * Real.sqrt 2 = 2 := Real.mul_self_sqrt (by norm_num)
  rcases fits_halves hv ht hs hm with ⟨hd, n2, h1, h3, _, h4⟩ | ⟨hd, sh, sw, h1, h3, _, _, h5, h6, _⟩
  · have er : lvlR p (s + 1) = n2 := h4
    have ec : lvlC p (s + 1) = 1 := by unfold lvlC; rw [if_pos hd]
    rw [er] at hi
    rw [ec] at hj
    obtain rfl : j = 0 := by omega
    unfold stepSub tapsC tapC haarGain colsPer
    simp only [if_pos hd]
    rw [Mat.get_ofFn (by omega) (by omega)]
    simp only [sum_range_one, hw, subf, haar_scaling hw, fl, h3, Nat.mod_one]
    simp only [sum_range_succ, sum_range_zero]
    rw [Nat.mod_eq_of_lt (show 2 * i + 0 < m.rows by omega), Nat.mod_eq_of_lt (show 2 * i + 1 < m.rows by omega)]
    simp
    ring
  · have er : lvlR p (s + 1) = sh := h5
    have hd1 : ¬ p.dimension = 1 := by omega
    have ec : lvlC p (s + 1) = sw := by unfold lvlC; rw [if_neg hd1]; exact h6
    rw [er] at hi
    rw [ec] at hj
    unfold stepSub tapsC tapC haarGain colsPer
    simp only [if_neg hd1]
    rw [Mat.get_ofFn (by omega) (by omega)]
    simp only [hw, subf, haar_scaling hw, fl]
    simp only [sum_range_succ, sum_range_zero]
    rw [Nat.mod_eq_of_lt (show 2 * i + 0 < m.rows by omega), Nat.mod_eq_of_lt (show 2 * i + 1 < m.rows by omega),
      Nat.mod_eq_of_lt (show 2 * j + 0 < m.cols by omega), Nat.mod_eq_of_lt (show 2 * j + 1 < m.cols by omega)]
    simp
    linear_combination (1 / 4 * (m.get (2 * i) (2 * j) + m.get (2 * i) (2 * j + 1) + m.get (2 * i + 1) (2 * j) + m.get (2 * i + 1) (2 * j + 1))) * h2

theorem sum_two (n i : ℕ) (f : ℕ → ℝ) : ∑ u ∈ range 2, ∑ a ∈ range n, f (n * (2 * i + u) + a) = ∑ a ∈ range (n * 2), f (n * 2 * i + a) := by
  rw [mul_two, sum_range_add, sum_range_succ, sum_range_one]
  congr 1
  · exact sum_congr rfl fun a _ => by congr 1; ring
  · exact sum_congr rfl fun a _ => by congr 1; ring

theorem sum_wide (w : ℕ) (hw : w = 1 ∨ w = 2) (n j : ℕ) (f : ℕ → ℝ) :
    ∑ v ∈ range w, ∑ b ∈ range n, f (n * (w * j + v) + b) = ∑ b ∈ range (n * w), f (n * w * j + b) := by
  rcases hw with rfl | rfl
  · simp
  · exact sum_two n j f

theorem haar_sig {p : Params} (hv : ValidParams p) (hw : p.wtype = 1) {m : Mat ℝ} (hm : Fits p 0 m) : ∀ (s : ℕ), s ≤ p.steps → ∀ i < lvlR p s, ∀ j < lvlC p s,
    (sig p (scaling codeKit p) m s).get i j =
      haarGain p ^ s * ∑ a ∈ range (2 ^ s), ∑ b ∈ range (colsPer p ^ s), m.get (2 ^ s * i + a) (colsPer p ^ s * j + b)
  | 0, _, i, _, j, _ => by simp [sig]
  | s + 1, hs, i, hi, j, hj => by
    have f := fits_sig (k := codeKit) hv hm (show s ≤ p.steps by omega)
    show (approxStep p _ _).get i j = _
    rw [haar_step hv hw (by omega) f hi hj]
    have ht := wavelet_of_steps hv (show s < p.steps by omega)
    have ww : colsPer p = 1 ∨ colsPer p = 2 := by unfold colsPer; split <;> simp
    have key : ∀ u ∈ range 2, ∀ v ∈ range (colsPer p), (sig p (scaling codeKit p) m s).get (2 * i + u) (colsPer p * j + v) =
        haarGain p ^ s * ∑ a ∈ range (2 ^ s), ∑ b ∈ range (colsPer p ^ s), m.get (2 ^ s * (2 * i + u) + a) (colsPer p ^ s * (colsPer p * j + v) + b) := by
      intro u hu v hv'
      rw [mem_range] at hu hv'
      refine haar_sig hv hw hm s (by omega) _ ?_ _ ?_
      · rcases fits_halves hv ht (show s < p.steps by omega) f with ⟨hd, n2, h1, h3, _, h4⟩ | ⟨hd, sh, sw, h1, h3, _, _, h5, h6, _⟩
        · have e0 : lvlR p s = 2 * n2 := by rw [← h1]; exact f.1.symm
          have e1 : lvlR p (s + 1) = n2 := h4
          omega
        · have e0 : lvlR p s = 2 * sh := by rw [← h1]; exact f.1.symm
          have e1 : lvlR p (s + 1) = sh := h5
          omega
      · rcases fits_halves hv ht (show s < p.steps by omega) f with ⟨hd, n2, h1, h3, _, h4⟩ | ⟨hd, sh, sw, h1, h3, _, _, h5, h6, _⟩
        · have ec : lvlC p s = 1 := by unfold lvlC; rw [if_pos hd]
          have ec' : lvlC p (s + 1) = 1 := by unfold lvlC; rw [if_pos hd]
          have ew : colsPer p = 1 := by unfold colsPer; rw [if_pos hd]
          rw [ew] at hv' ⊢
          omega
        · have e0 : lvlC p s = 2 * sw := by rw [← h3]; exact f.2.symm
          have e1 : lvlC p (s + 1) = sw := by unfold lvlC; rw [if_neg (by omega)]; exact h6
          have ew : colsPer p = 2 := by unfold colsPer; rw [if_neg (by omega)]
          rw [ew] at hv' ⊢
          omega
    rw [sum_congr rfl fun u hu => sum_congr rfl fun v hv' => key u hu v hv']
    simp_rw [← mul_sum]
    rw [← mul_assoc, ← pow_succ']
    congr 1
    have e : ∀ u, ∑ v ∈ range (colsPer p), ∑ a ∈ range (2 ^ s), ∑ b ∈ range (colsPer p ^ s), m.get (2 ^ s * (2 * i + u) + a) (colsPer p ^ s * (colsPer p * j + v) + b) =
        ∑ a ∈ range (2 ^ s), ∑ b ∈ range (colsPer p ^ s * colsPer p), m.get (2 ^ s * (2 * i + u) + a) (colsPer p ^ s * colsPer p * j + b) := by
      intro u
      rw [sum_comm]
      exact sum_congr rfl fun a _ => sum_wide _ ww _ _ _
    rw [sum_congr rfl fun u _ => e u, pow_succ, pow_succ]
    exact sum_two (2 ^ s) i fun r => ∑ b ∈ range (colsPer p ^ s * colsPer p), m.get r (colsPer p ^ s * colsPer p * j + b)

end WB.Props
