import Verif.Proof.Bridge
import Verif.Model.Coeffs
import Mathlib.Tactic.NormNum

/-!
Facts for the statements about scaled composition and about single channels.
-/

set_option linter.unusedSectionVars false

namespace WB

open Spec

variable {α : Type}

section Poly
variable [Zero α] [Add α] [Mul α] [Neg α] [Inhabited α]

theorem approxStep_congr {p q : Params} (hd : p.dimension = q.dimension) (h : List α) (m : Mat α) :
    approxStep p h m = approxStep q h m := by unfold approxStep; rw [hd]

theorem sig_congr {p q : Params} (hd : p.dimension = q.dimension) (h : List α) (m : Mat α) (s : ℕ) :
    sig p h m s = sig q h m s := by
  induction s with
  | zero => rfl
  | succ s ih => simp only [sig]; rw [ih, approxStep_congr hd]

/-- The signal count has no influence on a channel. -/
theorem chanP_congr {p q : Params} (hs : p.shape = q.shape) (hst : p.steps = q.steps) (ht : p.wtype = q.wtype)
    (h : List α) (den : Denoiser α) (m : Mat α) : chanP p h den m = chanP q h den m := by
  have hd : p.dimension = q.dimension := by unfold Params.dimension; rw [hs]
  have hpad : padOf p m = padOf q m := by unfold padOf paddedShape; rw [hs, hst, ht]
  have hdet : ∀ s x, detailStep p h den s x = detailStep q h den s x := by
    intro s x; unfold detailStep; rw [hd]
  unfold chanP
  rw [hst, hpad, sig_congr hd]
  congr 2
  funext s
  rw [hdet, sig_congr hd]

theorem scaling_congr {k : Kit α} {p q : Params} (ht : p.wtype = q.wtype) : scaling k p = scaling k q := by
  unfold scaling; rw [ht]

/-- Parameters of the `s`-step decomposition of the padded signal. -/
theorem coarse_valid {p : Params} (hv : ValidParams p) {s : ℕ} (hs : s ≤ p.steps) :
    ValidParams { p with shape := paddedShape p, steps := s } := by
  have hl : (paddedShape p).length = p.shape.length := by unfold paddedShape; split_ifs <;> simp
  by_cases ht : p.wtype = 0
  · have hp : paddedShape p = p.shape := by simp [paddedShape, ht]
    have hv' := hv
    obtain ⟨h1, h2, h3⟩ := hv'
    rw [if_pos ht] at h3
    refine ⟨by simpa [hl] using h1, by simpa [hp] using h2, ?_⟩
    simp only [ht, if_true]; omega
  · refine ⟨by simpa [hl] using hv.1, ?_, ?_⟩
    · intro n hn
      simp only [paddedShape_of_wavelet ht, List.mem_map] at hn
      obtain ⟨a, ha, rfl⟩ := hn
      have h1 := (valid_side hv ht ha).1
      have := (paddedDim_spec p.steps a (by omega)).2.1
      simp only; omega
    · simp only [if_neg ht]
      intro n hn
      simp only [paddedShape_of_wavelet ht, List.mem_map] at hn
      obtain ⟨a, ha, rfl⟩ := hn
      obtain ⟨h1, h2⟩ := valid_side hv ht ha
      have h3 := (paddedDim_spec p.steps a (by omega)).2.1
      have h4 : 2 ^ s ≤ 2 ^ p.steps := Nat.pow_le_pow_right (by omega) hs
      have h5 := Nat.mul_le_mul_right (2 * p.wtype - 1) h4
      omega

theorem coarse_padded {p : Params} (hv : ValidParams p) {s : ℕ} (hs : s ≤ p.steps) :
    paddedShape { p with shape := paddedShape p, steps := s } = paddedShape p := by
  by_cases ht : p.wtype = 0
  · simp [paddedShape, ht]
  · conv_lhs => unfold paddedShape
    simp only [ne_eq, ht, not_false_eq_true, if_true]
    rw [paddedShape_of_wavelet ht, List.map_map]
    apply List.map_congr_left
    intro a ha
    have h1 := (valid_side hv ht ha).1
    obtain ⟨hd, hle, _⟩ := paddedDim_spec p.steps a (by omega)
    simp only [Function.comp]
    have hdv : 2 ^ s ∣ paddedDim p.steps a := dvd_trans (pow_dvd_pow 2 hs) hd
    obtain ⟨q, hq⟩ := hdv
    generalize paddedDim p.steps a = x at *
    have hx : 0 < x := by omega
    obtain ⟨hd', hle', hlt'⟩ := paddedDim_spec s x hx
    obtain ⟨q', hq'⟩ := hd'
    have hpos : 0 < 2 ^ s := by positivity
    rw [hq'] at hle' hlt' ⊢
    rw [hq] at hle' hlt' ⊢
    congr 1
    have a1 : q ≤ q' := Nat.le_of_mul_le_mul_left hle' hpos
    have a2 : 2 ^ s * q' < 2 ^ s * (q + 1) := by rw [Nat.mul_add]; omega
    have a3 : q' < q + 1 := Nat.lt_of_mul_lt_mul_left a2
    omega

theorem coarse_last {p : Params} (hv : ValidParams p) {s : ℕ} (hs : s ≤ p.steps) (h : List α) (den : Denoiser α)
    {m : Mat α} (hm : Shaped p m) :
    let p2 : Params := { p with shape := paddedShape p, steps := s }
    Shaped p2 (padOf p m) ∧
    (chanP p2 h den (padOf p m)).getD (p2.steps * subbandsPerWT p2) default = sig p h (padOf p m) s := by
  intro p2
  have hF := fits_padOf hv hm
  have hl : (paddedShape p).length = p.shape.length := by unfold paddedShape; split_ifs <;> simp
  have hsh : Shaped p2 (padOf p m) := by
    unfold Shaped
    obtain ⟨h1, h2⟩ := hF
    rw [pow_zero, Nat.div_one] at h1
    refine ⟨h1, ?_⟩
    rcases shape_cases hv with ⟨n, hsh, hd⟩ | ⟨w, hh, hsh, hd⟩
    · rw [if_pos hd] at h2
      rw [hsh] at hl
      obtain ⟨a, ha⟩ := List.length_eq_one_iff.1 hl
      have : p2.shape = [a] := ha
      rw [this]; exact h2
    · rw [if_neg (by omega), pow_zero, Nat.div_one] at h2
      exact h2
  refine ⟨hsh, ?_⟩
  have hd : p2.dimension = p.dimension := hl
  rw [chanP_last]
  have hpad : padOf p2 (padOf p m) = padOf p m := by
    have h1 := addPadding_ok (coarse_valid hv hs) hsh
    rw [coarse_padded hv hs] at h1
    unfold addPadding at h1
    have h2 := extend_self (m := padOf p m) (matRows (paddedShape p)) (matCols (paddedShape p)) .both hsh.1 hsh.2
    rw [h2] at h1
    injection h1 with h1
    exact h1.symm
  rw [hpad]
  exact sig_congr hd h (padOf p m) s

end Poly

/-! ### Haar -/

theorem haar_ortho (p : Params) (h : p.wtype = 1) : EvenShiftOrthonormal (scalingFilter codeKit p) := by
  have hl : scalingFilter codeKit p = [Real.sqrt 2 * (1 / 2), Real.sqrt 2 * (1 / 2)] := by
    simp only [scalingFilter, codeKit, h, dbCoeffs, List.map_cons, List.map_nil]
    norm_num
  rw [hl]
  intro m
  have hs : Real.sqrt 2 * Real.sqrt 2 = 2 := Real.mul_self_sqrt (by norm_num)
  simp only [List.length_cons, List.length_nil, Finset.sum_range_succ, Finset.sum_range_zero]
  cases m with
  | zero =>
    simp only [Nat.mul_zero, Nat.add_zero, List.getD_cons_zero, List.getD_cons_succ, if_true, zero_add]
    nlinarith
  | succ m =>
    have e1 : 0 + 2 * (m + 1) = (2 * m) + 2 := by ring
    have e2 : 0 + 1 + 2 * (m + 1) = (2 * m + 1) + 2 := by ring
    rw [e1, e2]
    simp [List.getD]

theorem codeKit_present {p : Params} (h : p.wtype ≤ 10) : FilterPresent codeKit p := by
  intro h0
  simp only [codeKit, List.length_map]
  exact length_dbCoeffs (by omega) h

end WB
