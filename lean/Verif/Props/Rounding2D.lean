import Verif.Proof.Rounding2D
import Verif.Props.Rounding

/-!
C85: rounding error of a round trip in two dimensions.
-/

namespace WB.Props

open Finset Spec

section General
variable {a : Arith} {u ω η S M : ℝ}

variable {α : Type} [Zero α] [Add α] [Mul α] [Neg α] [Inhabited α] {Ω : ℝ}

/-- The round trip next to the exact one, for numbers with or without overflow. -/
theorem rounding_2d {sc : Scalars α u ω Ω} (hu : 0 ≤ u) (hω : 0 ≤ ω) (hη : 0 ≤ η) (hS1 : 1 ≤ S) (hM0 : 0 ≤ M) (kF : Kit α) (kR : Kit ℝ)
    (b : Buffer α) (bR : Buffer ℝ) (hb : WellFormed b) (hbR : WellFormed bR) (hpar : bR.params = b.params)
    (h1 : b.params.shape.length = 2) (hkF : FilterPresent kF b.params) (hkR : FilterPresent kR b.params)
    (hcoef : b.params.wtype ≠ 0 → ∀ j, sc.fin ((scalingFilter kF b.params).getD j 0) ∧
      |sc.val ((scalingFilter kF b.params).getD j 0) - (scalingFilter kR b.params).getD j 0| ≤
      η * |(scalingFilter kR b.params).getD j 0|)
    (hsum : b.params.wtype ≠ 0 → ((scalingFilter kR b.params).map (fun c => |c|)).sum ≤ S)
    (hΩ : ((1 + u) ^ (2 * b.params.wtype + 1) * (1 + η) * S) ^ (4 * b.params.steps) * M + (1 + u) ^ (2 * b.params.wtype) * (4 * b.params.wtype) * ω *
      ∑ m ∈ range (4 * b.params.steps), ((1 + u) ^ (2 * b.params.wtype + 1) * (1 + η) * S) ^ m ≤ Ω)
    (hch : 0 < b.params.signalNumber) (data : List (Mat α)) (hd : IsSignal b.params data)
    (hM : ∀ x ∈ data, ∀ i < x.rows, ∀ j < x.cols, sc.fin (x.get i j) ∧ |sc.val (x.get i j)| ≤ M) :
    ∃ d out dR outR, b.decompose kF data nullDenoiser = .ok d true ∧ (Buffer.mk b.params d).compose kF 0 = .ok out ∧
      bR.decompose kR (data.map (Mat.map sc.val)) nullDenoiser = .ok dR true ∧ (Buffer.mk b.params dR).compose kR 0 = .ok outR ∧
      out.length = data.length ∧ outR.length = data.length ∧
      ∀ (n : ℕ) (x : Mat α), data[n]? = some x →
        ∃ y z, out[n]? = some y ∧ outR[n]? = some z ∧ y.rows = x.rows ∧ y.cols = x.cols ∧ z.rows = x.rows ∧ z.cols = x.cols ∧
          ∀ i < x.rows, ∀ j < x.cols, sc.fin (y.get i j) ∧ |sc.val (y.get i j) - z.get i j| ≤
            (((1 + u) ^ (2 * b.params.wtype + 1) * (1 + η) * S) ^ (4 * b.params.steps) - S ^ (4 * b.params.steps)) * M +
              (1 + u) ^ (2 * b.params.wtype) * (4 * b.params.wtype) * ω *
                ∑ m ∈ range (4 * b.params.steps), ((1 + u) ^ (2 * b.params.wtype + 1) * (1 + η) * S) ^ m := by
  have hv := hb.1
  have hdim : b.params.dimension = 2 := h1
  have hsz : ∀ {α : Type} [Zero α] [Add α] [Mul α] [Neg α] [Inhabited α] (k : Kit α) (dat : List (Mat α)), IsSignal b.params dat →
      ∀ c ∈ dat.map (chanP b.params (scaling k b.params) nullDenoiser), SizedChan b.params c := by
    intro α _ _ _ _ _ k dat hdat c hc
    rw [List.mem_map] at hc
    obtain ⟨m, hm, rfl⟩ := hc
    exact chanP_sized hv nullDenoiser_sized (shaped_of (hdat.2 m hm))
  have hdR : IsSignal b.params (data.map (Mat.map sc.val)) := isSignal_val sc.val hv hd
  have c1 := decompose_ok hb hkF hch hd (fun _ => nullDenoiser_sized)
  have c2 := compose_ok (b := ⟨b.params, data.map (chanP b.params (scaling kF b.params) nullDenoiser)⟩) (s := 0) hv
      (by simpa using hd.1) hkF (hsz kF data hd) (Nat.zero_le _)
  have c3 := decompose_ok (k := kR) hbR (by rw [hpar]; exact hkR) (by rw [hpar]; exact hch) (by rw [hpar]; exact hdR) (fun _ => nullDenoiser_sized)
  have c4 := compose_ok (b := ⟨b.params, (data.map (Mat.map sc.val)).map (chanP b.params (scaling kR b.params) nullDenoiser)⟩) (s := 0) hv
      (by simpa using hd.1) hkR (hsz kR _ hdR) (Nat.zero_le _)
  rw [hpar] at c3
  refine ⟨_, _, _, _, c1, c2, c3, c4, by simp, by simp, ?_⟩
  intro n x hn
  have hmem := List.mem_of_getElem? hn
  have hsh := shaped_of (hd.2 x hmem)
  obtain ⟨r1, r2, r3, r4, r5⟩ := ap_out2 hu hω hη hS1 hM0 hv hdim hkF hkR
    (fun h0 => by
      have ht := wavelet_of_steps hv (show 0 < b.params.steps by omega)
      refine ⟨by rw [length_scaling hkF ht, length_scaling hkR ht], fun j => ⟨(hcoef ht j).1, le_rfl, ?_⟩⟩
      have := (hcoef ht j).2
      unfold scaling
      unfold scalingFilter at this
      linarith)
    (fun h0 => by
      have ht := wavelet_of_steps hv (show 0 < b.params.steps by omega)
      rw [← length_scaling hkR ht, sum_getD_abs]
      exact hsum ht) (by rw [gr_iter_eq]; exact hΩ) hsh (fun i hi j hj => hM x hmem i hi j hj)
  refine ⟨_, _, by simp [hn], by simp [hn], r1, r2, r3, r4, ?_⟩
  intro i hi j hj
  refine ⟨(r5 i hi j hj).1, (r5 i hi j hj).2.trans (le_of_eq ?_)⟩
  rw [gr_iter_eq]
  ring

/-- C85. Two dimensions, any scalar arithmetic that obeys the standard model (relative error `u`, absolute error `ω` for tiny results), any
filter coefficients within relative distance `η` of exact ones whose absolute values sum up to at most `S`. `Decompose` with the null denoiser
followed by `Compose` returns samples that differ from those of the same program in exact arithmetic by at most
`(G^(4 steps) - S^(4 steps)) M + W (1 + G + … + G^(4 steps - 1))`, where `G = (1+u)^(2 order + 1) (1+η) S` and `W = (1+u)^(2 order) 4 order ω`. -/
theorem C85_rounding_error (hs : a.Std u ω) (hu : 0 ≤ u) (hω : 0 ≤ ω) (hη : 0 ≤ η) (hS1 : 1 ≤ S) (hM0 : 0 ≤ M) (kF : Kit (Fl a)) (kR : Kit ℝ)
    (b : Buffer (Fl a)) (bR : Buffer ℝ) (hb : WellFormed b) (hbR : WellFormed bR) (hpar : bR.params = b.params)
    (h1 : b.params.shape.length = 2) (hkF : FilterPresent kF b.params) (hkR : FilterPresent kR b.params)
    (hcoef : b.params.wtype ≠ 0 → ∀ j, |((scalingFilter kF b.params).getD j 0).val - (scalingFilter kR b.params).getD j 0| ≤
      η * |(scalingFilter kR b.params).getD j 0|)
    (hsum : b.params.wtype ≠ 0 → ((scalingFilter kR b.params).map (fun c => |c|)).sum ≤ S)
    (hch : 0 < b.params.signalNumber) (data : List (Mat (Fl a))) (hd : IsSignal b.params data)
    (hM : ∀ x ∈ data, ∀ i < x.rows, ∀ j < x.cols, |(x.get i j).val| ≤ M) :
    ∃ d out dR outR, b.decompose kF data nullDenoiser = .ok d true ∧ (Buffer.mk b.params d).compose kF 0 = .ok out ∧
      bR.decompose kR (data.map (Mat.map Fl.val)) nullDenoiser = .ok dR true ∧ (Buffer.mk b.params dR).compose kR 0 = .ok outR ∧
      out.length = data.length ∧ outR.length = data.length ∧
      ∀ (n : ℕ) (x : Mat (Fl a)), data[n]? = some x →
        ∃ y z, out[n]? = some y ∧ outR[n]? = some z ∧ y.rows = x.rows ∧ y.cols = x.cols ∧ z.rows = x.rows ∧ z.cols = x.cols ∧
          ∀ i < x.rows, ∀ j < x.cols, |(y.get i j).val - z.get i j| ≤
            (((1 + u) ^ (2 * b.params.wtype + 1) * (1 + η) * S) ^ (4 * b.params.steps) - S ^ (4 * b.params.steps)) * M +
              (1 + u) ^ (2 * b.params.wtype) * (4 * b.params.wtype) * ω *
                ∑ m ∈ range (4 * b.params.steps), ((1 + u) ^ (2 * b.params.wtype + 1) * (1 + η) * S) ^ m := by
  obtain ⟨d, out, dR, outR, e1, e2, e3, e4, e5, e6, e7⟩ := rounding_2d (sc := (Stepwise.ofStd hs _).scalars hu hω) hu hω hη hS1 hM0 kF kR b bR hb hbR hpar h1 hkF hkR
    (fun h j => ⟨trivial, hcoef h j⟩) hsum le_rfl hch data hd (fun x hx i hi j hj => ⟨trivial, hM x hx i hi j hj⟩)
  refine ⟨d, out, dR, outR, e1, e2, e3, e4, e5, e6, ?_⟩
  intro n x hn
  obtain ⟨y, z, f1, f2, f3, f4, f5, f6, f7⟩ := e7 n x hn
  exact ⟨y, z, f1, f2, f3, f4, f5, f6, fun i hi j hj => (f7 i hi j hj).2⟩

/-- C85 for an orthonormal filter: the samples themselves are returned up to that error. -/
theorem C85_orthonormal (hs : a.Std u ω) (hu : 0 ≤ u) (hω : 0 ≤ ω) (hη : 0 ≤ η) (hS1 : 1 ≤ S) (hM0 : 0 ≤ M) (kF : Kit (Fl a)) (kR : Kit ℝ)
    (b : Buffer (Fl a)) (hb : WellFormed b) (h1 : b.params.shape.length = 2) (hkF : FilterPresent kF b.params) (hkR : FilterPresent kR b.params)
    (ho : b.params.wtype ≠ 0 → EvenShiftOrthonormal (scalingFilter kR b.params))
    (hcoef : b.params.wtype ≠ 0 → ∀ j, |((scalingFilter kF b.params).getD j 0).val - (scalingFilter kR b.params).getD j 0| ≤
      η * |(scalingFilter kR b.params).getD j 0|)
    (hsum : b.params.wtype ≠ 0 → ((scalingFilter kR b.params).map (fun c => |c|)).sum ≤ S)
    (hch : 0 < b.params.signalNumber) (data : List (Mat (Fl a))) (hd : IsSignal b.params data)
    (hM : ∀ x ∈ data, ∀ i < x.rows, ∀ j < x.cols, |(x.get i j).val| ≤ M) :
    ∃ d out, b.decompose kF data nullDenoiser = .ok d true ∧ (Buffer.mk b.params d).compose kF 0 = .ok out ∧ out.length = data.length ∧
      ∀ (n : ℕ) (x : Mat (Fl a)), data[n]? = some x → ∃ y, out[n]? = some y ∧ y.rows = x.rows ∧ y.cols = x.cols ∧
          ∀ i < x.rows, ∀ j < x.cols, |(y.get i j).val - (x.get i j).val| ≤
            (((1 + u) ^ (2 * b.params.wtype + 1) * (1 + η) * S) ^ (4 * b.params.steps) - S ^ (4 * b.params.steps)) * M +
              (1 + u) ^ (2 * b.params.wtype) * (4 * b.params.wtype) * ω *
                ∑ m ∈ range (4 * b.params.steps), ((1 + u) ^ (2 * b.params.wtype + 1) * (1 + η) * S) ^ m := by
  have hbR := wellFormed_val Fl.val hb
  obtain ⟨d, out, dR, outR, e1, e2, e3, e4, e5, _, e6⟩ :=
    C85_rounding_error hs hu hω hη hS1 hM0 kF kR b _ hb hbR rfl h1 hkF hkR hcoef hsum hch data hd hM
  have hdR : IsSignal b.params (data.map (Mat.map Fl.val)) := isSignal_val Fl.val hb.1 hd
  obtain ⟨dX, x1, x2⟩ := C08_perfect_reconstruction_2D kR _ hbR hkR h1 ho hch _ hdR
  rw [x1] at e3
  injection e3 with e3
  subst e3
  rw [x2] at e4
  injection e4 with e4
  subst e4
  refine ⟨d, out, e1, e2, e5, ?_⟩
  intro n x hn
  obtain ⟨y, z, f1, f2, f3, f4, _, _, f5⟩ := e6 n x hn
  refine ⟨y, f1, f3, f4, ?_⟩
  intro i hi j hj
  have hz : z = x.map Fl.val := by
    rw [List.getElem?_map, hn] at f2
    simpa using f2.symm
  have := f5 i hi j hj
  rw [hz] at this
  rwa [get_val Fl.val x hi hj] at this

end General

/-- C85 for the program: IEEE `float` and `double`, DB1..DB5 with the decimals of the code rounded as in the code, up to a quarter of a million steps.
`Decompose` with the null denoiser followed by `Compose` changes no sample by more than
`2.01^(4 steps) (16 (order + 2) steps 2⁻²⁴ M + 48 order steps 2⁻¹⁵⁰)` plus the error of the decimals (C09); `M` bounds the samples. -/
theorem C85_code (r : Rounding) (hr : r.IEEE) (b : Buffer (Fl (Arith.rounded r.toFloat))) (hb : WellFormed b)
    (h1 : b.params.shape.length = 2) (hw : b.params.wtype ≤ 5) (hK : b.params.steps ≤ 250000) (hch : 0 < b.params.signalNumber)
    (data : List (Mat (Fl (Arith.rounded r.toFloat)))) (hd : IsSignal b.params data) (M : ℝ) (hM0 : 0 ≤ M)
    (hM : ∀ x ∈ data, ∀ i < x.rows, ∀ j < x.cols, |(x.get i j).val| ≤ M) :
    ∃ d out, b.decompose (floatKit r) data nullDenoiser = .ok d true ∧ (Buffer.mk b.params d).compose (floatKit r) 0 = .ok out ∧
      out.length = data.length ∧
      ∀ (n : ℕ) (x : Mat (Fl (Arith.rounded r.toFloat))), data[n]? = some x →
        ∃ y, out[n]? = some y ∧ y.rows = x.rows ∧ y.cols = x.cols ∧
          ∀ i < x.rows, ∀ j < x.cols, |(y.get i j).val - (x.get i j).val| ≤
            (201 / 100) ^ (4 * b.params.steps) *
              (16 * (b.params.wtype + 2) * b.params.steps / 2 ^ 24 * M + 48 * b.params.wtype * b.params.steps / 2 ^ 150) +
            ((1 + 12 / 10 ^ 12 : ℝ) ^ (2 * b.params.steps) - 1) * Real.sqrt ((b.params.shape.map (paddedSide b.params)).prod : ℕ) * M := by
  have hbR := wellFormed_val Fl.val hb
  have hdR := isSignal_val Fl.val hb.1 hd
  have hstd : (Arith.rounded r.toFloat).Std (1 / 2 ^ 24) (1 / 2 ^ 150) := by
    have := std_of_rounds (by norm_num) hr.1
    have e1 : (2 : ℝ) ^ (-((24 : ℕ) : ℤ)) = 1 / 2 ^ 24 := by norm_num
    have e2 : (2 : ℝ) ^ ((-149 : ℤ) - 1) = 1 / 2 ^ 150 := by norm_num
    rwa [e1, e2] at this
  obtain ⟨d, out, dR, outR, e1, e2, e3, e4, e5, _, e6⟩ :=
    C85_rounding_error (η := (1 + 1 / 2 ^ 24) ^ 3 - 1) (S := 201 / 100) hstd (by norm_num) (by norm_num) (by norm_num) (by norm_num) hM0
      (floatKit r) codeKit b _ hb hbR rfl h1 (floatKit_present (by omega)) (codeKit_present (by omega))
      (fun _ j => coeffs_code hr hw j) (fun _ => sum_code hw) hch data hd hM
  obtain ⟨dX, outX, x1, x2, _, x4⟩ := C09_error_by_largest_sample _ hbR hw hch _ hdR M (by
    intro m hm i hi j hj
    rw [List.mem_map] at hm
    obtain ⟨x, hx, rfl⟩ := hm
    rw [get_val Fl.val x hi hj]
    exact hM x hx i hi j hj)
  rw [x1] at e3
  injection e3 with e3
  subst e3
  rw [x2] at e4
  injection e4 with e4
  subst e4
  refine ⟨d, out, e1, e2, e5, ?_⟩
  intro n x hn
  obtain ⟨y, z, f1, f2, f3, f4, _, _, f5⟩ := e6 n x hn
  obtain ⟨z', g1, _, _, g2⟩ := x4 n (x.map Fl.val) (by simp [hn])
  rw [f2] at g1
  injection g1 with g1
  subst g1
  refine ⟨y, f1, f3, f4, ?_⟩
  intro i hi j hj
  have a1 := f5 i hi j hj
  have a3 := bound_linear hM0 hw (show 2 * b.params.steps ≤ 500000 by omega)
  rw [show 2 * (2 * b.params.steps) = 4 * b.params.steps by ring] at a3
  have a1 := a1.trans a3
  push_cast at a1
  have a2 := g2 i hi j hj
  rw [get_val Fl.val x hi hj, h1] at a2
  refine (abs_sub_le _ (z.get i j) _).trans ?_
  have a4 : (201 / 100 : ℝ) ^ (4 * b.params.steps) * (8 * (b.params.wtype + 2) * (2 * b.params.steps) / 2 ^ 24 * M +
      24 * b.params.wtype * (2 * b.params.steps) / 2 ^ 150) = (201 / 100) ^ (4 * b.params.steps) *
      (16 * (b.params.wtype + 2) * b.params.steps / 2 ^ 24 * M + 48 * b.params.wtype * b.params.steps / 2 ^ 150) := by ring
  linarith

/-- A picture of 12 x 20 pixels in two channels, DB2, two steps, for every IEEE rounding: with samples up to 1 nothing changes by more than
1/100. -/
example (r : Rounding) (hr : r.IEEE) (f g : ℕ → ℕ → ℝ) (hf : ∀ i j, |f i j| ≤ 1) (hg : ∀ i j, |g i j| ≤ 1) :
    let p : Params := ⟨[12, 20], 2, 2, 2⟩
    ∃ d y z, (Buffer.mk p (List.replicate 2 (List.replicate 7 Mat.empty)) : Buffer (Fl (Arith.rounded r.toFloat))).decompose (floatKit r)
        [Mat.ofFn 20 12 (fun i j => Fl.of (f i j)), Mat.ofFn 20 12 (fun i j => Fl.of (g i j))] nullDenoiser = .ok d true ∧
      (Buffer.mk p d).compose (floatKit r) 0 = .ok [y, z] ∧
      ∀ i < 20, ∀ j < 12, |(y.get i j).val - f i j| ≤ 1 / 100 ∧ |(z.get i j).val - g i j| ≤ 1 / 100 := by
  intro p
  obtain ⟨d, out, h1, h2, h3, h4⟩ := C85_code r hr (Buffer.mk p (List.replicate 2 (List.replicate 7 Mat.empty)))
    ⟨⟨by simp [p], by simp [p], by simp [p]⟩, by simp [p], by simp [p, subbandCount, detailsPerStep]⟩ rfl (by simp [p]) (by simp [p])
    (by simp [p]) [Mat.ofFn 20 12 (fun i j => Fl.of (f i j)), Mat.ofFn 20 12 (fun i j => Fl.of (g i j))] ⟨by simp [p], by simp [p, HasShape]⟩
    1 (by norm_num) (by
      intro x hx i hi j hj
      simp only [List.mem_cons, List.not_mem_nil, or_false] at hx
      rcases hx with rfl | rfl
      · simp only [Mat.rows_ofFn, Mat.cols_ofFn] at hi hj
        rw [Mat.get_ofFn hi hj]
        exact hf i j
      · simp only [Mat.rows_ofFn, Mat.cols_ofFn] at hi hj
        rw [Mat.get_ofFn hi hj]
        exact hg i j)
  obtain ⟨y, h5, _, _, h6⟩ := h4 0 _ rfl
  obtain ⟨z, h7, _, _, h8⟩ := h4 1 _ rfl
  have hout : out = [y, z] := by
    match out, h3, h5, h7 with
    | [_, _], _, h5, h7 => simp at h5 h7; rw [h5, h7]
  refine ⟨d, y, z, h1, by rw [h2, hout], ?_⟩
  have hN : ((p.shape.map (paddedSide p)).prod : ℕ) = 240 := by simp [p, paddedSide]
  have hs : Real.sqrt ((240 : ℕ) : ℝ) ≤ 16 := Real.sqrt_le_iff.2 ⟨by norm_num, by norm_num⟩
  have h0 : (0 : ℝ) ≤ (1 + 12 / 10 ^ 12 : ℝ) ^ 4 - 1 := by norm_num
  have hm := mul_le_mul_of_nonneg_left hs h0
  have fin : (201 / 100 : ℝ) ^ (4 * p.steps) * (16 * (p.wtype + 2) * p.steps / 2 ^ 24 * 1 + 48 * p.wtype * p.steps / 2 ^ 150) +
      ((1 + 12 / 10 ^ 12 : ℝ) ^ (2 * p.steps) - 1) * Real.sqrt ((p.shape.map (paddedSide p)).prod : ℕ) * 1 ≤ 1 / 100 := by
    rw [hN]
    simp only [p]
    norm_num at hm ⊢
    linarith
  intro i hi j hj
  have e1 := h6 i hi j hj
  have e2 := h8 i hi j hj
  rw [Mat.get_ofFn hi hj] at e1 e2
  exact ⟨e1.trans fin, e2.trans fin⟩

end WB.Props
