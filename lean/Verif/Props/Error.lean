import Verif.Proof.Error
import Verif.Props.Transform
import Mathlib.Tactic.NormNum

/-!
C09: reconstruction error with the coefficients that are in the code.
-/

namespace WB.Props

open Finset Spec

/-- Even autocorrelation of the tabulated coefficients, times two. -/
def autoQ (l : List ℚ) (t s : ℕ) : ℚ := ((List.range (2 * t)).map (fun k => 2 * (l.getD k 0 * l.getD (k + 2 * s) 0))).sum

/-- Deviation from orthonormality of the tabulated coefficients. -/
def devQ (l : List ℚ) (t : ℕ) : ℚ := |autoQ l t 0 - 1| + 2 * ((List.range t).map (fun s => |autoQ l t (s + 1)|)).sum

theorem sum_map_range {M : Type} [AddCommMonoid M] (n : ℕ) (f : ℕ → M) : ((List.range n).map f).sum = ∑ i ∈ range n, f i := by
  induction n with
  | zero => simp
  | succ n ih => rw [List.range_succ, List.map_append, List.sum_append, ih, sum_range_succ]; simp

theorem fl_code (p : Params) (k : ℕ) : fl (scaling codeKit p) k = Real.sqrt 2 * (((dbCoeffs p.wtype).getD k 0 : ℚ) : ℝ) := by
  unfold fl scaling codeKit
  simp only [List.getD, List.getElem?_map]
  cases (dbCoeffs p.wtype)[k]? <;> simp

theorem auto_code (p : Params) (t s : ℕ) : FB.auto t (fl (scaling codeKit p)) s = ((autoQ (dbCoeffs p.wtype) t s : ℚ) : ℝ) := by
  unfold FB.auto autoQ
  rw [sum_map_range]
  push_cast
  refine sum_congr rfl (fun k _ => ?_)
  rw [fl_code, fl_code]
  have h2 : Real.sqrt 2 * Real.sqrt 2 = 2 := Real.mul_self_sqrt (by norm_num)
  linear_combination (((dbCoeffs p.wtype).getD k 0 : ℚ) : ℝ) * (((dbCoeffs p.wtype).getD (k + 2 * s) 0 : ℚ) : ℝ) * h2

theorem dev_code (p : Params) (t : ℕ) : dev t (scaling codeKit p) = ((devQ (dbCoeffs p.wtype) t : ℚ) : ℝ) := by
  unfold dev devQ
  rw [sum_map_range]
  push_cast
  rw [auto_code]
  congr 2
  refine sum_congr rfl (fun s _ => ?_)
  rw [auto_code]

theorem dev_table : ∀ t : Fin 6, 0 < t.val → devQ (dbCoeffs t.val) t.val ≤ 12 / 10 ^ 12 := by decide +kernel

theorem growth_mono {p : Params} {a b : ℝ} (h0 : 0 ≤ a) (h : a ≤ b) : growth p a ≤ growth p b := by
  unfold growth
  split_ifs
  · linarith
  · nlinarith

theorem growth_pow (p : Params) (hv : ValidParams p) (ε : ℝ) (n : ℕ) : growth p ε ^ n = (1 + ε) ^ (p.shape.length * n) := by
  have : p.shape.length = p.dimension := rfl
  rw [this]
  unfold growth
  rcases dim_cases hv with h | h
  · rw [if_pos h, h, mul_one, Nat.one_mul]
  · rw [if_neg (by omega), h, pow_mul, pow_two]

/-- C09. With the decimals of DB1..DB5 that are in the code, over the reals: `Decompose` (null denoiser) followed by `Compose`
changes every sample by at most `(1 + 1.2·10⁻¹¹)^(dimensions · steps) - 1` times the Euclidean length of the padded
channel. -/
theorem C09_reconstruction_error (b : Buffer ℝ) (hb : WellFormed b) (hw : b.params.wtype ≤ 5)
    (hch : 0 < b.params.signalNumber) (data : List (Mat ℝ)) (hd : IsSignal b.params data) :
    ∃ d out, b.decompose codeKit data nullDenoiser = .ok d true ∧ (Buffer.mk b.params d).compose codeKit 0 = .ok out ∧
      out.length = data.length ∧
      ∀ (n : ℕ) (x padded : Mat ℝ), data[n]? = some x →
        addPadding x (b.params.shape.map (paddedSide b.params)) = .ok padded →
        ∃ y, out[n]? = some y ∧ y.rows = x.rows ∧ y.cols = x.cols ∧
          ∀ i < x.rows, ∀ j < x.cols, |y.get i j - x.get i j| ≤
            ((1 + 12 / 10 ^ 12 : ℝ) ^ (b.params.shape.length * b.params.steps) - 1) * Real.sqrt (energy padded) := by
  have hv := hb.1
  have hk : FilterPresent codeKit b.params := codeKit_present (by omega)
  have hsz : ∀ c ∈ data.map (chanP b.params (scaling codeKit b.params) nullDenoiser), SizedChan b.params c := by
    intro c hc
    rw [List.mem_map] at hc
    obtain ⟨m, hm, rfl⟩ := hc
    exact chanP_sized hv nullDenoiser_sized (shaped_of (hd.2 m hm))
  refine ⟨_, _, decompose_ok hb hk hch hd (fun _ => nullDenoiser_sized),
    compose_ok (b := ⟨b.params, data.map (chanP b.params (scaling codeKit b.params) nullDenoiser)⟩) (s := 0) hv
      (by simpa using hd.1) hk hsz (Nat.zero_le _), by simp, ?_⟩
  intro n x padded hn hp
  have hsh := shaped_of (hd.2 x (List.mem_of_getElem? hn))
  have hshape : b.params.shape.map (paddedSide b.params) = paddedShape b.params := by
    have h := paddedShape_map hv 1
    simpa using h.symm
  rw [hshape, addPadding_ok hv hsh] at hp
  injection hp with hp
  obtain ⟨h1, h2, h3⟩ := sample_err (k := codeKit) hv hk hsh
  refine ⟨_, by simp [hn], h1, h2, ?_⟩
  intro i hi j hj
  refine (h3 i hi j hj).trans ?_
  rw [hp]
  apply mul_le_mul_of_nonneg_right _ (nrm_nonneg padded)
  rw [← growth_pow _ hv]
  apply sub_le_sub_right
  by_cases ht : b.params.steps = 0
  · rw [ht, pow_zero, pow_zero]
  · have hw0 := wavelet_of_steps hv (show 0 < b.params.steps by omega)
    refine pow_le_pow_left₀ (zero_le_one.trans (growth_ge (dev_nonneg _ _))) (growth_mono (dev_nonneg _ _) ?_) _
    rw [dev_code]
    have := dev_table ⟨b.params.wtype, by omega⟩ (by simp; omega)
    simp only at this
    calc _ ≤ (((12 / 10 ^ 12 : ℚ)) : ℝ) := by exact_mod_cast this
      _ = _ := by push_cast; ring

/-- C09 in terms of the largest sample: if no sample exceeds `M` in absolute value, no sample changes by more than
`((1 + 1.2·10⁻¹¹)^(dimensions · steps) - 1) √N M`, with `N` the number of samples of the padded channel. -/
theorem C09_error_by_largest_sample (b : Buffer ℝ) (hb : WellFormed b) (hw : b.params.wtype ≤ 5)
    (hch : 0 < b.params.signalNumber) (data : List (Mat ℝ)) (hd : IsSignal b.params data) (M : ℝ)
    (hM : ∀ x ∈ data, ∀ i < x.rows, ∀ j < x.cols, |x.get i j| ≤ M) :
    ∃ d out, b.decompose codeKit data nullDenoiser = .ok d true ∧ (Buffer.mk b.params d).compose codeKit 0 = .ok out ∧
      out.length = data.length ∧
      ∀ (n : ℕ) (x : Mat ℝ), data[n]? = some x →
        ∃ y, out[n]? = some y ∧ y.rows = x.rows ∧ y.cols = x.cols ∧
          ∀ i < x.rows, ∀ j < x.cols, |y.get i j - x.get i j| ≤
            ((1 + 12 / 10 ^ 12 : ℝ) ^ (b.params.shape.length * b.params.steps) - 1) *
              Real.sqrt ((b.params.shape.map (paddedSide b.params)).prod : ℕ) * M := by
  obtain ⟨d, out, h1, h2, h3, h4⟩ := C09_reconstruction_error b hb hw hch data hd
  refine ⟨d, out, h1, h2, h3, ?_⟩
  intro n x hn
  have hv := hb.1
  have hmem := List.mem_of_getElem? hn
  have hsh := shaped_of (hd.2 x hmem)
  have hshape : b.params.shape.map (paddedSide b.params) = paddedShape b.params := by
    have h := paddedShape_map hv 1
    simpa using h.symm
  obtain ⟨y, e1, e2, e3, e4⟩ := h4 n x (padOf b.params x) hn (by rw [hshape, addPadding_ok hv hsh])
  refine ⟨y, e1, e2, e3, ?_⟩
  intro i hi j hj
  refine (e4 i hi j hj).trans ?_
  rw [mul_assoc]
  have hM0 : 0 ≤ M := (abs_nonneg _).trans (hM x hmem i hi j hj)
  apply mul_le_mul_of_nonneg_left
  · apply Real.sqrt_le_iff.2
    refine ⟨mul_nonneg (Real.sqrt_nonneg _) hM0, ?_⟩
    rw [mul_pow, Real.sq_sqrt (by positivity)]
    have hent : ∀ i < (padOf b.params x).rows, ∀ j < (padOf b.params x).cols, |(padOf b.params x).get i j| ≤ M := by
      intro i hi j hj
      unfold padOf at hi hj ⊢
      split_ifs at hi hj ⊢ with ht
      · exact hM x hmem i hi j hj
      · simp only [Mat.rows_ofFn, Mat.cols_ofFn] at hi hj
        obtain ⟨g1, g2, _⟩ := padded_ge hv ht
        rw [Mat.get_ofFn hi hj]
        exact hM x hmem _ (by unfold clampIdx; rw [hsh.1]; omega) _ (by unfold clampIdx; rw [hsh.2]; omega)
    have hN : (((b.params.shape.map (paddedSide b.params)).prod : ℕ) : ℝ) = (padOf b.params x).rows * (padOf b.params x).cols := by
      have hF := fits_padOf hv hsh
      rw [fits_iff hv] at hF
      rcases shape_cases hv with ⟨n, hs, _⟩ | ⟨w, hh, hs, _⟩
      · rw [hs] at hF ⊢
        simp only [List.map_cons, List.map_nil, HasShape, pow_zero, Nat.div_one] at hF
        rw [hF.1, hF.2]; simp
      · rw [hs] at hF ⊢
        simp only [List.map_cons, List.map_nil, HasShape, pow_zero, Nat.div_one] at hF
        rw [hF.1, hF.2]; simp [mul_comm]
    rw [hN]
    unfold energy
    calc _ ≤ ∑ _i ∈ range (padOf b.params x).rows, ∑ _j ∈ range (padOf b.params x).cols, M ^ 2 := by
            refine sum_le_sum (fun i hi => sum_le_sum (fun j hj => ?_))
            have := hent i (mem_range.1 hi) j (mem_range.1 hj)
            rw [← abs_mul_abs_self, pow_two]
            exact mul_self_le_mul_self (abs_nonneg _) this
      _ = _ := by simp [mul_assoc]
  · have : (1 : ℝ) ≤ (1 + 12 / 10 ^ 12 : ℝ) ^ (b.params.shape.length * b.params.steps) := one_le_pow₀ (by norm_num)
    linarith

/-- C09, Haar: no error at all. -/
theorem C09_haar_no_error (b : Buffer ℝ) (hb : WellFormed b) (hw : b.params.wtype = 1)
    (hch : 0 < b.params.signalNumber) (data : List (Mat ℝ)) (hd : IsSignal b.params data) :
    ∃ d, b.decompose codeKit data nullDenoiser = .ok d true ∧ (Buffer.mk b.params d).compose codeKit 0 = .ok data :=
  C07_C08_haar_exact b hb hw hch data hd

/-- An image of width 40 and height 36 with the DB5 filter and two steps satisfies the hypotheses. -/
example : let p : Params := ⟨[40, 36], 1, 2, 5⟩
    WellFormed (Buffer.mk p [List.replicate 7 Mat.empty] : Buffer ℝ) ∧ IsSignal p [Mat.ofFn 36 40 (fun i j => (i * j : ℝ))] ∧
      p.wtype ≤ 5 ∧ 0 < p.signalNumber :=
  ⟨⟨⟨by simp, by simp, by simp⟩, by simp, by simp [subbandCount, detailsPerStep]⟩, ⟨by simp, by simp [HasShape]⟩, by simp, by simp⟩

/-- The bound is small: twenty steps in two dimensions and a billion samples change no sample by more than 2·10⁻⁵ of the
largest one. -/
example : ((1 + 12 / 10 ^ 12 : ℝ) ^ (2 * 20) - 1) * Real.sqrt (10 ^ 9) ≤ 2 / 10 ^ 5 := by
  have h1 : Real.sqrt (10 ^ 9) ≤ 31623 := Real.sqrt_le_iff.2 ⟨by norm_num, by norm_num⟩
  have h2 : (0 : ℝ) ≤ (1 + 12 / 10 ^ 12 : ℝ) ^ (2 * 20) - 1 := by norm_num
  calc _ ≤ ((1 + 12 / 10 ^ 12 : ℝ) ^ (2 * 20) - 1) * 31623 := mul_le_mul_of_nonneg_left h1 h2
    _ ≤ _ := by norm_num

end WB.Props
