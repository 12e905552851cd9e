import Verif.Proof.Rounding
import Verif.Props.Error
import Verif.Proof.Pixel

/-!
C58: rounding error of a round trip in one dimension.
-/

namespace WB.Props

open Finset Spec

section General
variable {a : Arith} {u ω η S M : ℝ}

theorem sum_getD_abs (l : List ℝ) : ∑ j ∈ range l.length, |l.getD j 0| = (l.map (fun c => |c|)).sum := by
  induction l with
  | nil => simp
  | cons c l ih =>
    rw [List.length_cons, sum_range_succ', List.map_cons, List.sum_cons, ← ih, add_comm]
    simp

theorem isSignal_val {α : Type} (g : α → ℝ) {p : Params} (hv : ValidParams p) {data : List (Mat α)} (hd : IsSignal p data) :
    IsSignal p (data.map (Mat.map g)) := by
  refine ⟨by simpa using hd.1, ?_⟩
  intro m hm
  rw [List.mem_map] at hm
  obtain ⟨x, hx, rfl⟩ := hm
  have h : Shaped p x := shaped_of (hd.2 x hx)
  have h' : Shaped p (x.map g) := h
  exact of_shaped hv h'

theorem wellFormed_val {α : Type} (g : α → ℝ) {b : Buffer α} (hb : WellFormed b) :
    WellFormed (Buffer.mk b.params (b.decs.map (List.map (Mat.map g))) : Buffer ℝ) := by
  refine ⟨hb.1, by simpa using hb.2.1, ?_⟩
  intro c hc
  simp only [List.mem_map] at hc
  obtain ⟨c0, hc0, rfl⟩ := hc
  simpa using hb.2.2 c0 hc0

theorem get_val {α : Type} [Inhabited α] (g : α → ℝ) (x : Mat α) {i j : ℕ} (hi : i < x.rows) (hj : j < x.cols) :
    (x.map g).get i j = g (x.get i j) := by
  have hlt : i * x.cols + j < x.data.length := by rw [x.wf]; exact Mat.idx_lt hi hj
  unfold Mat.get Mat.map
  simp only [List.getD, List.getElem?_map, List.getElem?_eq_getElem hlt, Option.map_some, Option.getD_some]

variable {α : Type} [Zero α] [Add α] [Mul α] [Neg α] [Inhabited α] {Ω : ℝ}

/-- The round trip next to the exact one, for numbers with or without overflow. -/
theorem rounding_1d {sc : Scalars α u ω Ω} (hu : 0 ≤ u) (hω : 0 ≤ ω) (hη : 0 ≤ η) (hS1 : 1 ≤ S) (hM0 : 0 ≤ M) (kF : Kit α) (kR : Kit ℝ)
    (b : Buffer α) (bR : Buffer ℝ) (hb : WellFormed b) (hbR : WellFormed bR) (hpar : bR.params = b.params)
    (h1 : b.params.shape.length = 1) (hkF : FilterPresent kF b.params) (hkR : FilterPresent kR b.params)
    (hcoef : b.params.wtype ≠ 0 → ∀ j, sc.fin ((scalingFilter kF b.params).getD j 0) ∧
      |sc.val ((scalingFilter kF b.params).getD j 0) - (scalingFilter kR b.params).getD j 0| ≤
      η * |(scalingFilter kR b.params).getD j 0|)
    (hsum : b.params.wtype ≠ 0 → ((scalingFilter kR b.params).map (fun c => |c|)).sum ≤ S)
    (hΩ : ((1 + u) ^ (2 * b.params.wtype + 1) * (1 + η) * S) ^ (2 * b.params.steps) * M + (1 + u) ^ (2 * b.params.wtype) * (4 * b.params.wtype) * ω *
      ∑ m ∈ range (2 * b.params.steps), ((1 + u) ^ (2 * b.params.wtype + 1) * (1 + η) * S) ^ m ≤ Ω)
    (hch : 0 < b.params.signalNumber) (data : List (Mat α)) (hd : IsSignal b.params data)
    (hM : ∀ x ∈ data, ∀ i < x.rows, ∀ j < x.cols, sc.fin (x.get i j) ∧ |sc.val (x.get i j)| ≤ M) :
    ∃ d out dR outR, b.decompose kF data nullDenoiser = .ok d true ∧ (Buffer.mk b.params d).compose kF 0 = .ok out ∧
      bR.decompose kR (data.map (Mat.map sc.val)) nullDenoiser = .ok dR true ∧ (Buffer.mk b.params dR).compose kR 0 = .ok outR ∧
      out.length = data.length ∧ outR.length = data.length ∧
      ∀ (n : ℕ) (x : Mat α), data[n]? = some x →
        ∃ y z, out[n]? = some y ∧ outR[n]? = some z ∧ y.rows = x.rows ∧ y.cols = x.cols ∧ z.rows = x.rows ∧ z.cols = x.cols ∧
          ∀ i < x.rows, ∀ j < x.cols, sc.fin (y.get i j) ∧ |sc.val (y.get i j) - z.get i j| ≤
            (((1 + u) ^ (2 * b.params.wtype + 1) * (1 + η) * S) ^ (2 * b.params.steps) - S ^ (2 * b.params.steps)) * M +
              (1 + u) ^ (2 * b.params.wtype) * (4 * b.params.wtype) * ω *
                ∑ m ∈ range (2 * b.params.steps), ((1 + u) ^ (2 * b.params.wtype + 1) * (1 + η) * S) ^ m := by
  have hv := hb.1
  have hdim : b.params.dimension = 1 := h1
  have hsz : ∀ {α : Type} [Zero α] [Add α] [Mul α] [Neg α] [Inhabited α] (k : Kit α) (dat : List (Mat α)), IsSignal b.params dat →
      ∀ c ∈ dat.map (chanP b.params (scaling k b.params) nullDenoiser), SizedChan b.params c := by
    intro α _ _ _ _ _ k dat hdat c hc
    rw [List.mem_map] at hc
    obtain ⟨m, hm, rfl⟩ := hc
    exact chanP_sized hv nullDenoiser_sized (shaped_of (hdat.2 m hm))
  have hdR : IsSignal b.params (data.map (Mat.map sc.val)) := isSignal_val sc.val hv hd
  have c1 := decompose_ok hb hkF hch hd (fun _ => nullDenoiser_sized)
  have c2 := compose_ok (b := ⟨b.params, data.map (chanP b.params (scaling kF b.params) nullDenoiser)⟩) (s := 0) hv
      (by simpa using hd.1) hkF (hsz kF data hd) (Nat.zero_le _)
  have c3 := decompose_ok (k := kR) hbR (by rw [hpar]; exact hkR) (by rw [hpar]; exact hch) (by rw [hpar]; exact hdR) (fun _ => nullDenoiser_sized)
  have c4 := compose_ok (b := ⟨b.params, (data.map (Mat.map sc.val)).map (chanP b.params (scaling kR b.params) nullDenoiser)⟩) (s := 0) hv
      (by simpa using hd.1) hkR (hsz kR _ hdR) (Nat.zero_le _)
  rw [hpar] at c3
  refine ⟨_, _, _, _, c1, c2, c3, c4, by simp, by simp, ?_⟩
  intro n x hn
  have hmem := List.mem_of_getElem? hn
  have hsh := shaped_of (hd.2 x hmem)
  have hxc : x.cols = 1 := by
    obtain ⟨m, hm, _⟩ | ⟨_, _, _, h2⟩ := shape_cases hv
    · have := hd.2 x hmem; rw [hm] at this; exact this.2
    · omega
  obtain ⟨r1, r2, r3, r4, r5⟩ := ap_out hu hω hη hS1 hM0 hv hdim hkF hkR
    (fun h0 => by
      have ht := wavelet_of_steps hv (show 0 < b.params.steps by omega)
      refine ⟨by rw [length_scaling hkF ht, length_scaling hkR ht], fun j => ⟨(hcoef ht j).1, le_rfl, ?_⟩⟩
      have := (hcoef ht j).2
      unfold scaling
      unfold scalingFilter at this
      linarith)
    (fun h0 => by
      have ht := wavelet_of_steps hv (show 0 < b.params.steps by omega)
      rw [← length_scaling hkR ht, sum_getD_abs]
      exact hsum ht) (by rw [gr_iter_eq]; exact hΩ) hsh (fun i hi => hM x hmem i hi 0 (by omega))
  refine ⟨_, _, by simp [hn], by simp [hn], r1, by rw [r2, hxc], r3, by rw [r4, hxc], ?_⟩
  intro i hi j hj
  have hj0 : j = 0 := by omega
  subst hj0
  refine ⟨(r5 i hi).1, (r5 i hi).2.trans (le_of_eq ?_)⟩
  rw [gr_iter_eq]
  ring

/-- C58. One dimension, any scalar arithmetic that obeys the standard model (relative error `u`, absolute error `ω` for tiny results), any
filter coefficients within relative distance `η` of exact ones whose absolute values sum up to at most `S`. `Decompose` with the null denoiser
followed by `Compose` returns samples that differ from those of the same program in exact arithmetic by at most
`(G^(2 steps) - S^(2 steps)) M + W (1 + G + … + G^(2 steps - 1))`, where `G = (1+u)^(2 order + 1) (1+η) S` and `W = (1+u)^(2 order) 4 order ω`. -/
theorem C58_rounding_error (hs : a.Std u ω) (hu : 0 ≤ u) (hω : 0 ≤ ω) (hη : 0 ≤ η) (hS1 : 1 ≤ S) (hM0 : 0 ≤ M) (kF : Kit (Fl a)) (kR : Kit ℝ)
    (b : Buffer (Fl a)) (bR : Buffer ℝ) (hb : WellFormed b) (hbR : WellFormed bR) (hpar : bR.params = b.params)
    (h1 : b.params.shape.length = 1) (hkF : FilterPresent kF b.params) (hkR : FilterPresent kR b.params)
    (hcoef : b.params.wtype ≠ 0 → ∀ j, |((scalingFilter kF b.params).getD j 0).val - (scalingFilter kR b.params).getD j 0| ≤
      η * |(scalingFilter kR b.params).getD j 0|)
    (hsum : b.params.wtype ≠ 0 → ((scalingFilter kR b.params).map (fun c => |c|)).sum ≤ S)
    (hch : 0 < b.params.signalNumber) (data : List (Mat (Fl a))) (hd : IsSignal b.params data)
    (hM : ∀ x ∈ data, ∀ i < x.rows, ∀ j < x.cols, |(x.get i j).val| ≤ M) :
    ∃ d out dR outR, b.decompose kF data nullDenoiser = .ok d true ∧ (Buffer.mk b.params d).compose kF 0 = .ok out ∧
      bR.decompose kR (data.map (Mat.map Fl.val)) nullDenoiser = .ok dR true ∧ (Buffer.mk b.params dR).compose kR 0 = .ok outR ∧
      out.length = data.length ∧ outR.length = data.length ∧
      ∀ (n : ℕ) (x : Mat (Fl a)), data[n]? = some x →
        ∃ y z, out[n]? = some y ∧ outR[n]? = some z ∧ y.rows = x.rows ∧ y.cols = x.cols ∧ z.rows = x.rows ∧ z.cols = x.cols ∧
          ∀ i < x.rows, ∀ j < x.cols, |(y.get i j).val - z.get i j| ≤
            (((1 + u) ^ (2 * b.params.wtype + 1) * (1 + η) * S) ^ (2 * b.params.steps) - S ^ (2 * b.params.steps)) * M +
              (1 + u) ^ (2 * b.params.wtype) * (4 * b.params.wtype) * ω *
                ∑ m ∈ range (2 * b.params.steps), ((1 + u) ^ (2 * b.params.wtype + 1) * (1 + η) * S) ^ m := by
  obtain ⟨d, out, dR, outR, e1, e2, e3, e4, e5, e6, e7⟩ := rounding_1d (sc := (Stepwise.ofStd hs _).scalars hu hω) hu hω hη hS1 hM0 kF kR b bR hb hbR hpar h1 hkF hkR
    (fun h j => ⟨trivial, hcoef h j⟩) hsum le_rfl hch data hd (fun x hx i hi j hj => ⟨trivial, hM x hx i hi j hj⟩)
  refine ⟨d, out, dR, outR, e1, e2, e3, e4, e5, e6, ?_⟩
  intro n x hn
  obtain ⟨y, z, f1, f2, f3, f4, f5, f6, f7⟩ := e7 n x hn
  exact ⟨y, z, f1, f2, f3, f4, f5, f6, fun i hi j hj => (f7 i hi j hj).2⟩

/-- C58 for an orthonormal filter: the samples themselves are returned up to that error. -/
theorem C58_orthonormal (hs : a.Std u ω) (hu : 0 ≤ u) (hω : 0 ≤ ω) (hη : 0 ≤ η) (hS1 : 1 ≤ S) (hM0 : 0 ≤ M) (kF : Kit (Fl a)) (kR : Kit ℝ)
    (b : Buffer (Fl a)) (hb : WellFormed b) (h1 : b.params.shape.length = 1) (hkF : FilterPresent kF b.params) (hkR : FilterPresent kR b.params)
    (ho : b.params.wtype ≠ 0 → EvenShiftOrthonormal (scalingFilter kR b.params))
    (hcoef : b.params.wtype ≠ 0 → ∀ j, |((scalingFilter kF b.params).getD j 0).val - (scalingFilter kR b.params).getD j 0| ≤
      η * |(scalingFilter kR b.params).getD j 0|)
    (hsum : b.params.wtype ≠ 0 → ((scalingFilter kR b.params).map (fun c => |c|)).sum ≤ S)
    (hch : 0 < b.params.signalNumber) (data : List (Mat (Fl a))) (hd : IsSignal b.params data)
    (hM : ∀ x ∈ data, ∀ i < x.rows, ∀ j < x.cols, |(x.get i j).val| ≤ M) :
    ∃ d out, b.decompose kF data nullDenoiser = .ok d true ∧ (Buffer.mk b.params d).compose kF 0 = .ok out ∧ out.length = data.length ∧
      ∀ (n : ℕ) (x : Mat (Fl a)), data[n]? = some x → ∃ y, out[n]? = some y ∧ y.rows = x.rows ∧ y.cols = x.cols ∧
          ∀ i < x.rows, ∀ j < x.cols, |(y.get i j).val - (x.get i j).val| ≤
            (((1 + u) ^ (2 * b.params.wtype + 1) * (1 + η) * S) ^ (2 * b.params.steps) - S ^ (2 * b.params.steps)) * M +
              (1 + u) ^ (2 * b.params.wtype) * (4 * b.params.wtype) * ω *
                ∑ m ∈ range (2 * b.params.steps), ((1 + u) ^ (2 * b.params.wtype + 1) * (1 + η) * S) ^ m := by
  have hbR := wellFormed_val Fl.val hb
  obtain ⟨d, out, dR, outR, e1, e2, e3, e4, e5, _, e6⟩ :=
    C58_rounding_error hs hu hω hη hS1 hM0 kF kR b _ hb hbR rfl h1 hkF hkR hcoef hsum hch data hd hM
  have hdR : IsSignal b.params (data.map (Mat.map Fl.val)) := isSignal_val Fl.val hb.1 hd
  obtain ⟨dX, x1, x2⟩ := C07_perfect_reconstruction_1D kR _ hbR hkR h1 ho hch _ hdR
  rw [x1] at e3
  injection e3 with e3
  subst e3
  rw [x2] at e4
  injection e4 with e4
  subst e4
  refine ⟨d, out, e1, e2, e5, ?_⟩
  intro n x hn
  obtain ⟨y, z, f1, f2, f3, f4, _, _, f5⟩ := e6 n x hn
  refine ⟨y, f1, f3, f4, ?_⟩
  intro i hi j hj
  have hz : z = x.map Fl.val := by
    rw [List.getElem?_map, hn] at f2
    simpa using f2.symm
  have := f5 i hi j hj
  rw [hz] at this
  rwa [get_val Fl.val x hi hj] at this

end General

/-! ### the coefficients of the code -/

/-- Relative distance. -/
def Rel (ε x y : ℝ) : Prop := |x - y| ≤ ε * |y|

theorem Rel.trans {α β x y z : ℝ} (h : Rel α y x) (h' : Rel β z y) (hβ : 0 ≤ β) : Rel ((1 + α) * (1 + β) - 1) z x := by
  unfold Rel at *
  have h1 : |y| ≤ |y - x| + |x| := by simpa using abs_add_le (y - x) x
  have h2 : |z - x| ≤ |z - y| + |y - x| := abs_sub_le z y x
  nlinarith [abs_nonneg x, mul_le_mul_of_nonneg_left h1 hβ, mul_le_mul_of_nonneg_left h hβ]

theorem Rel.mul {α β x y x' y' : ℝ} (h : Rel α x y) (h' : Rel β x' y') : Rel ((1 + α) * (1 + β) - 1) (x * x') (y * y') := by
  unfold Rel at *
  have h1 : |x * x' - y * y'| ≤ |x| * |x' - y'| + |x - y| * |y'| := by
    have := abs_add_le (x * (x' - y')) ((x - y) * y')
    rw [abs_mul, abs_mul] at this
    rwa [show x * (x' - y') + (x - y) * y' = x * x' - y * y' by ring] at this
  have h2 : |x| ≤ |x - y| + |y| := by simpa using abs_add_le (x - y) y
  have h3 : |x| ≤ (1 + α) * |y| := by linarith
  rw [abs_mul]
  have h4 : |x| * |x' - y'| ≤ (1 + α) * |y| * (β * |y'|) := mul_le_mul h3 h' (abs_nonneg _) ((abs_nonneg x).trans h3)
  have h5 : |x - y| * |y'| ≤ α * |y| * |y'| := mul_le_mul_of_nonneg_right h (abs_nonneg _)
  nlinarith

theorem Rel.weaken {α β x y : ℝ} (h : Rel α x y) (hab : α ≤ β) : Rel β x y :=
  le_trans (show |x - y| ≤ α * |y| from h) (mul_le_mul_of_nonneg_right hab (abs_nonneg _))

theorem Rel.lower {α x y : ℝ} (h : Rel α x y) (ha : α ≤ 1 / 100) : 99 / 100 * |y| ≤ |x| := by
  unfold Rel at h
  have h1 : |y| ≤ |x - y| + |x| := by
    have := abs_sub_le y x 0
    simp only [sub_zero] at this
    rwa [abs_sub_comm y x] at this
  nlinarith [abs_nonneg y]

theorem rel_double {r : Rounding} (hr : r.IEEE) {x : ℝ} (hx : 1 / 2 ^ 30 ≤ |x|) : Rel (1 / 2 ^ 52) (r.toDouble x) x := by
  unfold Rel
  refine (rounds_std (by norm_num) hr.2 x).trans ?_
  have h1 : (2 : ℝ) ^ (-((53 : ℕ) : ℤ)) = 1 / 2 ^ 53 := by norm_num
  have h2 : (2 : ℝ) ^ ((-1074 : ℤ) - 1) ≤ 1 / 2 ^ 83 := by
    rw [show (1 : ℝ) / 2 ^ 83 = 2 ^ (-83 : ℤ) by norm_num]
    exact zpow_le_zpow_right₀ (by norm_num) (by norm_num)
  rw [h1]
  have h3 : (1 : ℝ) / 2 ^ 83 ≤ 1 / 2 ^ 53 * |x| := by
    calc (1 : ℝ) / 2 ^ 83 = 1 / 2 ^ 53 * (1 / 2 ^ 30) := by norm_num
      _ ≤ _ := by gcongr
  have h4 : (1 : ℝ) / 2 ^ 52 * |x| = 1 / 2 ^ 53 * |x| + 1 / 2 ^ 53 * |x| := by ring
  linarith

theorem rel_float {r : Rounding} (hr : r.IEEE) {x : ℝ} (hx : 1 / 2 ^ 30 ≤ |x|) : Rel (1 / 2 ^ 24 + 1 / 2 ^ 100) (r.toFloat x) x := by
  unfold Rel
  refine (rounds_std (by norm_num) hr.1 x).trans ?_
  have h1 : (2 : ℝ) ^ (-((24 : ℕ) : ℤ)) = 1 / 2 ^ 24 := by norm_num
  have h2 : (2 : ℝ) ^ ((-149 : ℤ) - 1) ≤ 1 / 2 ^ 130 := by
    rw [show (1 : ℝ) / 2 ^ 130 = 2 ^ (-130 : ℤ) by norm_num]
    exact zpow_le_zpow_right₀ (by norm_num) (by norm_num)
  rw [h1]
  have h3 : (1 : ℝ) / 2 ^ 130 ≤ 1 / 2 ^ 100 * |x| := by
    calc (1 : ℝ) / 2 ^ 130 = 1 / 2 ^ 100 * (1 / 2 ^ 30) := by norm_num
      _ ≤ _ := by gcongr
  rw [add_mul]
  linarith

theorem coeff_rel {r : Rounding} (hr : r.IEEE) {c : ℝ} (hc : 1 / 2 ^ 20 ≤ |c|) :
    Rel ((1 + 1 / 2 ^ 24) ^ 3 - 1) (r.toFloat (r.toDouble (r.toDouble (Real.sqrt 2) * r.toFloat (r.toDouble c)))) (Real.sqrt 2 * c) := by
  have hs2 : (1 : ℝ) ≤ Real.sqrt 2 := Real.one_le_sqrt.2 (by norm_num)
  have k1 := rel_double hr (x := c) (by linarith [show (1 : ℝ) / 2 ^ 30 ≤ 1 / 2 ^ 20 by norm_num])
  have b1 := k1.lower (by norm_num)
  have k2 := k1.trans (rel_float hr (x := r.toDouble c) (by nlinarith [show (1 : ℝ) / 2 ^ 30 ≤ 99 / 100 * (1 / 2 ^ 20) by norm_num])) (by norm_num)
  have k3 := rel_double hr (x := Real.sqrt 2) (by rw [abs_of_nonneg (by linarith)]; linarith [show (1 : ℝ) / 2 ^ 30 ≤ 1 by norm_num])
  have k4 := k3.mul k2
  have hsc : 1 / 2 ^ 20 ≤ |Real.sqrt 2 * c| := by
    rw [abs_mul, abs_of_nonneg (by linarith : (0 : ℝ) ≤ Real.sqrt 2)]
    nlinarith [abs_nonneg c]
  have b4 := k4.lower (by norm_num)
  have k5 := k4.trans (rel_double hr (by nlinarith [show (1 : ℝ) / 2 ^ 30 ≤ 99 / 100 * (1 / 2 ^ 20) by norm_num])) (by norm_num)
  have b5 := k5.lower (by norm_num)
  have k6 := k5.trans (rel_float hr (by nlinarith [show (1 : ℝ) / 2 ^ 30 ≤ 99 / 100 * (1 / 2 ^ 20) by norm_num])) (by norm_num)
  exact k6.weaken (by norm_num)

/-- No tabulated coefficient is tiny, and the absolute values of those of DB1..DB5 do not sum up to much. -/
theorem coeff_table : ∀ t : Fin 6, (∀ c ∈ dbCoeffs t.val, 1 / 2 ^ 20 ≤ |c|) ∧ ((dbCoeffs t.val).map (fun c => |c|)).sum ≤ 142 / 100 := by
  decide +kernel

theorem floatKit_present {r : Rounding} {p : Params} (h : p.wtype ≤ 10) : FilterPresent (floatKit r) p := by
  intro h0
  simp only [floatKit, List.length_map]
  exact length_dbCoeffs (by omega) h

theorem getD_code (p : Params) (j : ℕ) : (scalingFilter codeKit p).getD j 0 = Real.sqrt 2 * (((dbCoeffs p.wtype).getD j 0 : ℚ) : ℝ) := fl_code p j

theorem coeffs_code {r : Rounding} (hr : r.IEEE) {p : Params} (h : p.wtype ≤ 5) (j : ℕ) :
    |((scalingFilter (floatKit r) p).getD j 0).val - (scalingFilter codeKit p).getD j 0| ≤
      ((1 + 1 / 2 ^ 24) ^ 3 - 1) * |(scalingFilter codeKit p).getD j 0| := by
  rw [getD_code]
  by_cases hj : j < (dbCoeffs p.wtype).length
  · have hmem : (dbCoeffs p.wtype)[j] ∈ dbCoeffs p.wtype := List.getElem_mem hj
    have hc := (coeff_table ⟨p.wtype, by omega⟩).1 _ hmem
    have hc' : (1 : ℝ) / 2 ^ 20 ≤ |(((dbCoeffs p.wtype)[j] : ℚ) : ℝ)| := by
      have := (Rat.cast_le (K := ℝ)).2 hc
      simpa using this
    have := coeff_rel hr hc'
    have e1 : (dbCoeffs p.wtype).getD j 0 = (dbCoeffs p.wtype)[j] := by simp [List.getD, hj]
    have e2 : ((scalingFilter (floatKit r) p).getD j 0).val =
        r.toFloat (r.toDouble (r.toDouble (Real.sqrt 2) * r.toFloat (r.toDouble (((dbCoeffs p.wtype)[j] : ℚ) : ℝ)))) := by
      simp only [scalingFilter, floatKit, List.getD, List.getElem?_map, List.getElem?_eq_getElem hj, Option.map_some, Option.getD_some]
      rfl
    rw [e1, e2]
    exact this
  · have e1 : (dbCoeffs p.wtype).getD j 0 = 0 := by simp [List.getD, hj]
    have e2 : ((scalingFilter (floatKit r) p).getD j 0).val = 0 := by
      have : (scalingFilter (floatKit r) p).getD j 0 = 0 := by simp [scalingFilter, floatKit, List.getD, hj]
      rw [this]; rfl
    rw [e1, e2]
    simp

theorem sum_code {p : Params} (h : p.wtype ≤ 5) : ((scalingFilter codeKit p).map (fun c => |c|)).sum ≤ 201 / 100 := by
  have h0 := (coeff_table ⟨p.wtype, by omega⟩).2
  simp only at h0
  have h1 : ((scalingFilter codeKit p).map (fun c => |c|)).sum = Real.sqrt 2 * ((((dbCoeffs p.wtype).map (fun c => |c|)).sum : ℚ) : ℝ) := by
    simp only [scalingFilter, codeKit, List.map_map]
    generalize dbCoeffs p.wtype = l
    induction l with
    | nil => simp
    | cons c l ih =>
      simp only [List.map_cons, List.sum_cons, ih, Function.comp]
      rw [abs_mul, abs_of_nonneg (Real.sqrt_nonneg 2)]
      push_cast
      ring
  rw [h1]
  have h2 := (Rat.cast_le (K := ℝ)).2 h0
  have h3 : Real.sqrt 2 ≤ 14143 / 10000 := Real.sqrt_le_iff.2 ⟨by norm_num, by norm_num⟩
  generalize ((dbCoeffs p.wtype).map (fun c => |c|)).sum = q at h2
  norm_num at h2
  nlinarith [Real.sqrt_nonneg 2]

theorem pow_quadratic {u : ℝ} (hu : 0 ≤ u) (m : ℕ) (h : m * u ≤ 1) : (1 + u) ^ m ≤ 1 + m * u + (m * u) ^ 2 := by
  induction m with
  | zero => simp
  | succ m ih =>
    push_cast at h ⊢
    have hm : (0 : ℝ) ≤ m := by positivity
    have hmu : m * u ≤ 1 := by nlinarith
    have h1 := mul_le_mul_of_nonneg_right (ih hmu) (by linarith : 0 ≤ 1 + u)
    rw [pow_succ]
    refine h1.trans ?_
    have h2 : m * u * (m * u ^ 2) ≤ 1 * (m * u ^ 2) := mul_le_mul_of_nonneg_right hmu (by positivity)
    nlinarith [sq_nonneg u]

theorem pow_linear {u : ℝ} (hu : 0 ≤ u) {m : ℕ} (h : m * u ≤ 1) : (1 + u) ^ m ≤ 1 + 2 * (m * u) := by
  have h0 : 0 ≤ m * u := by positivity
  nlinarith [pow_quadratic hu m h]

theorem bound_linear {M : ℝ} (hM : 0 ≤ M) {t K : ℕ} (ht : t ≤ 5) (hK : K ≤ 500000) :
    (((1 + 1 / 2 ^ 24 : ℝ) ^ (2 * t + 1) * (1 + ((1 + 1 / 2 ^ 24) ^ 3 - 1)) * (201 / 100)) ^ (2 * K) - (201 / 100) ^ (2 * K)) * M +
      (1 + 1 / 2 ^ 24) ^ (2 * t) * (4 * t) * (1 / 2 ^ 150) *
        ∑ m ∈ range (2 * K), ((1 + 1 / 2 ^ 24 : ℝ) ^ (2 * t + 1) * (1 + ((1 + 1 / 2 ^ 24) ^ 3 - 1)) * (201 / 100)) ^ m ≤
    (201 / 100) ^ (2 * K) * (8 * (t + 2) * K / 2 ^ 24 * M + 24 * t * K / 2 ^ 150) := by
  set u : ℝ := 1 / 2 ^ 24 with hu
  have hu0 : 0 ≤ u := by rw [hu]; norm_num
  have hG : (1 + u) ^ (2 * t + 1) * (1 + ((1 + u) ^ 3 - 1)) * (201 / 100) = (1 + u) ^ (2 * t + 4) * (201 / 100) := by
    rw [show 2 * t + 4 = 2 * t + 1 + 3 by omega, pow_add _ (2 * t + 1) 3]; ring
  rw [hG]
  have hle : (((2 * t + 4) * (2 * K) : ℕ) : ℝ) * u ≤ 1 := by
    have h1 : (2 * t + 4) * (2 * K) ≤ 14 * (2 * 500000) := Nat.mul_le_mul (by omega) (by omega)
    have h2 : (((2 * t + 4) * (2 * K) : ℕ) : ℝ) ≤ ((14 * (2 * 500000) : ℕ) : ℝ) := by exact_mod_cast h1
    rw [hu]
    push_cast at h2 ⊢
    linarith
  have hlin := pow_linear hu0 hle
  have hP3 : (1 + u) ^ ((2 * t + 4) * (2 * K)) ≤ 3 := by linarith
  have hS1 : (1 : ℝ) ≤ 201 / 100 := by norm_num
  have hSp : (0 : ℝ) < (201 / 100) ^ (2 * K) := by positivity
  have part1 : (((1 + u) ^ (2 * t + 4) * (201 / 100)) ^ (2 * K) - (201 / 100) ^ (2 * K)) * M ≤
      (201 / 100) ^ (2 * K) * (8 * (t + 2) * K / 2 ^ 24 * M) := by
    rw [mul_pow, ← pow_mul]
    have : (1 + u) ^ ((2 * t + 4) * (2 * K)) - 1 ≤ 8 * (t + 2) * K / 2 ^ 24 := by
      refine (sub_le_iff_le_add'.2 hlin).trans (le_of_eq ?_)
      rw [hu]
      push_cast
      ring
    calc _ = (201 / 100) ^ (2 * K) * (((1 + u) ^ ((2 * t + 4) * (2 * K)) - 1) * M) := by ring
      _ ≤ _ := by gcongr
  have part2 : (1 + u) ^ (2 * t) * (4 * t) * (1 / 2 ^ 150) * ∑ m ∈ range (2 * K), ((1 + u) ^ (2 * t + 4) * (201 / 100)) ^ m ≤
      (201 / 100) ^ (2 * K) * (24 * t * K / 2 ^ 150) := by
    have hterm : ∀ m ∈ range (2 * K), (1 + u) ^ (2 * t) * ((1 + u) ^ (2 * t + 4) * (201 / 100)) ^ m ≤ 3 * (201 / 100) ^ (2 * K) := by
      intro m hm
      rw [mem_range] at hm
      rw [mul_pow, ← pow_mul, ← mul_assoc, ← pow_add]
      have e1 : (1 + u) ^ (2 * t + (2 * t + 4) * m) ≤ 3 := by
        refine le_trans (pow_le_pow_right₀ (by linarith) ?_) hP3
        calc 2 * t + (2 * t + 4) * m ≤ (2 * t + 4) * (m + 1) := by rw [Nat.mul_add]; omega
          _ ≤ _ := Nat.mul_le_mul_left _ (by omega)
      have e2 : ((201 : ℝ) / 100) ^ m ≤ (201 / 100) ^ (2 * K) := pow_le_pow_right₀ hS1 (by omega)
      exact mul_le_mul e1 e2 (by positivity) (by norm_num)
    have hsum := sum_le_sum hterm
    rw [← mul_sum, sum_const, card_range, nsmul_eq_mul] at hsum
    push_cast at hsum
    have hc : (0 : ℝ) ≤ 4 * t * (1 / 2 ^ 150) := by positivity
    calc _ = 4 * t * (1 / 2 ^ 150) * ((1 + u) ^ (2 * t) * ∑ m ∈ range (2 * K), ((1 + u) ^ (2 * t + 4) * (201 / 100)) ^ m) := by ring
      _ ≤ 4 * t * (1 / 2 ^ 150) * (2 * K * (3 * (201 / 100) ^ (2 * K))) := mul_le_mul_of_nonneg_left hsum hc
      _ = _ := by ring
  calc _ ≤ (201 / 100) ^ (2 * K) * (8 * (t + 2) * K / 2 ^ 24 * M) + (201 / 100) ^ (2 * K) * (24 * t * K / 2 ^ 150) := add_le_add part1 part2
    _ = _ := by ring

/-- C58 for the program: IEEE `float` and `double`, DB1..DB5 with the decimals of the code rounded as in the code, up to half a million steps.
`Decompose` with the null denoiser followed by `Compose` changes no sample by more than
`2.01^(2 steps) (8 (order + 2) steps 2⁻²⁴ M + 24 order steps 2⁻¹⁵⁰)` plus the error of the decimals (C09); `M` bounds the samples. -/
theorem C58_code (r : Rounding) (hr : r.IEEE) (b : Buffer (Fl (Arith.rounded r.toFloat))) (hb : WellFormed b)
    (h1 : b.params.shape.length = 1) (hw : b.params.wtype ≤ 5) (hK : b.params.steps ≤ 500000) (hch : 0 < b.params.signalNumber)
    (data : List (Mat (Fl (Arith.rounded r.toFloat)))) (hd : IsSignal b.params data) (M : ℝ) (hM0 : 0 ≤ M)
    (hM : ∀ x ∈ data, ∀ i < x.rows, ∀ j < x.cols, |(x.get i j).val| ≤ M) :
    ∃ d out, b.decompose (floatKit r) data nullDenoiser = .ok d true ∧ (Buffer.mk b.params d).compose (floatKit r) 0 = .ok out ∧
      out.length = data.length ∧
      ∀ (n : ℕ) (x : Mat (Fl (Arith.rounded r.toFloat))), data[n]? = some x →
        ∃ y, out[n]? = some y ∧ y.rows = x.rows ∧ y.cols = x.cols ∧
          ∀ i < x.rows, ∀ j < x.cols, |(y.get i j).val - (x.get i j).val| ≤
            (201 / 100) ^ (2 * b.params.steps) *
              (8 * (b.params.wtype + 2) * b.params.steps / 2 ^ 24 * M + 24 * b.params.wtype * b.params.steps / 2 ^ 150) +
            ((1 + 12 / 10 ^ 12 : ℝ) ^ b.params.steps - 1) * Real.sqrt ((b.params.shape.map (paddedSide b.params)).prod : ℕ) * M := by
  have hbR := wellFormed_val Fl.val hb
  have hdR := isSignal_val Fl.val hb.1 hd
  have hstd : (Arith.rounded r.toFloat).Std (1 / 2 ^ 24) (1 / 2 ^ 150) := by
    have := std_of_rounds (by norm_num) hr.1
    have e1 : (2 : ℝ) ^ (-((24 : ℕ) : ℤ)) = 1 / 2 ^ 24 := by norm_num
    have e2 : (2 : ℝ) ^ ((-149 : ℤ) - 1) = 1 / 2 ^ 150 := by norm_num
    rwa [e1, e2] at this
  obtain ⟨d, out, dR, outR, e1, e2, e3, e4, e5, _, e6⟩ :=
    C58_rounding_error (η := (1 + 1 / 2 ^ 24) ^ 3 - 1) (S := 201 / 100) hstd (by norm_num) (by norm_num) (by norm_num) (by norm_num) hM0
      (floatKit r) codeKit b _ hb hbR rfl h1 (floatKit_present (by omega)) (codeKit_present (by omega))
      (fun _ j => coeffs_code hr hw j) (fun _ => sum_code hw) hch data hd hM
  obtain ⟨dX, outX, x1, x2, _, x4⟩ := C09_error_by_largest_sample _ hbR hw hch _ hdR M (by
    intro m hm i hi j hj
    rw [List.mem_map] at hm
    obtain ⟨x, hx, rfl⟩ := hm
    rw [get_val Fl.val x hi hj]
    exact hM x hx i hi j hj)
  rw [x1] at e3
  injection e3 with e3
  subst e3
  rw [x2] at e4
  injection e4 with e4
  subst e4
  refine ⟨d, out, e1, e2, e5, ?_⟩
  intro n x hn
  obtain ⟨y, z, f1, f2, f3, f4, _, _, f5⟩ := e6 n x hn
  obtain ⟨z', g1, _, _, g2⟩ := x4 n (x.map Fl.val) (by simp [hn])
  rw [f2] at g1
  injection g1 with g1
  subst g1
  refine ⟨y, f1, f3, f4, ?_⟩
  intro i hi j hj
  have a1 := (f5 i hi j hj).trans (bound_linear hM0 hw hK)
  have a2 := g2 i hi j hj
  rw [get_val Fl.val x hi hj, h1, Nat.one_mul] at a2
  refine (abs_sub_le _ (z.get i j) _).trans ?_
  linarith

/-- Twenty samples, DB3, two steps, for every IEEE rounding: with samples up to 1 nothing changes by more than 10⁻⁴. -/
example (r : Rounding) (hr : r.IEEE) (f : ℕ → ℝ) (hf : ∀ i, |f i| ≤ 1) :
    let p : Params := ⟨[20], 1, 2, 3⟩
    ∃ d y, (Buffer.mk p [[Mat.empty, Mat.empty, Mat.empty]] : Buffer (Fl (Arith.rounded r.toFloat))).decompose (floatKit r)
        [Mat.ofFn 20 1 (fun i _ => Fl.of (f i))] nullDenoiser = .ok d true ∧
      (Buffer.mk p d).compose (floatKit r) 0 = .ok [y] ∧ ∀ i < 20, |(y.get i 0).val - f i| ≤ 1 / 10000 := by
  intro p
  obtain ⟨d, out, h1, h2, h3, h4⟩ := C58_code r hr (Buffer.mk p [[Mat.empty, Mat.empty, Mat.empty]])
    ⟨⟨by simp [p], by simp [p], by simp [p]⟩, by simp [p], by simp [p, subbandCount, detailsPerStep]⟩ rfl (by simp [p]) (by simp [p])
    (by simp [p]) [Mat.ofFn 20 1 (fun i _ => Fl.of (f i))] ⟨by simp [p], by simp [p, HasShape]⟩ 1 (by norm_num) (by
      intro x hx i hi j hj
      rw [List.mem_singleton] at hx
      subst hx
      simp only [Mat.rows_ofFn, Mat.cols_ofFn] at hi hj
      rw [Mat.get_ofFn hi hj]
      exact hf i)
  obtain ⟨y, h5, _, _, h6⟩ := h4 0 _ rfl
  have hout : out = [y] := by
    match out, h3, h5 with
    | [z], _, h5 => simpa using h5
  refine ⟨d, y, h1, by rw [h2, hout], ?_⟩
  intro i hi
  have := h6 i hi 0 (by simp)
  rw [Mat.get_ofFn hi (by norm_num)] at this
  refine le_trans this ?_
  have hN : ((p.shape.map (paddedSide p)).prod : ℕ) = 20 := by simp [p, paddedSide]
  simp only [hN]
  have hs : Real.sqrt ((20 : ℕ) : ℝ) ≤ 5 := Real.sqrt_le_iff.2 ⟨by norm_num, by norm_num⟩
  simp only [p]
  have h0 : (0 : ℝ) ≤ (1 + 12 / 10 ^ 12 : ℝ) ^ 2 - 1 := by norm_num
  have := mul_le_mul_of_nonneg_left hs h0
  norm_num at this ⊢
  linarith

end WB.Props
