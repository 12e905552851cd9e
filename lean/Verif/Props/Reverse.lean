import Verif.Proof.Reverse
import Verif.Props.Moments

/-!
C100: composition followed by decomposition.
-/

set_option linter.unusedSectionVars false

namespace WB.Props

open Finset Spec

section Ring
variable {R : Type} [CommRing R] [Inhabited R]

/-- C100. If no padding is needed and the filter is orthonormal, the subbands of any buffer with the prescribed sizes, whatever their
values, are those of the signal it composes: `Decompose` (into any buffer with the same parameters) gives them back, and their
energy is the energy of the signal. -/
theorem C100_subbands_of_the_composed_signal (k : Kit R) (b : Buffer R) (hb : WellFormed b) (hk : FilterPresent k b.params)
    (ho : b.params.wtype ≠ 0 → EvenShiftOrthonormal (scalingFilter k b.params)) (hch : 0 < b.params.signalNumber)
    (hdvd : ∀ n ∈ b.params.shape, 2 ^ b.params.steps ∣ n) (hs : ∀ c ∈ b.decs, PrescribedShapes b.params c)
    (b' : Buffer R) (hb' : WellFormed b') (hp : b'.params = b.params) :
    ∃ out, b.compose k 0 = .ok out ∧ IsSignal b.params out ∧ b'.decompose k out nullDenoiser = .ok b.decs true ∧
      ∀ (n : ℕ) (c : List (Mat R)) (y : Mat R), b.decs[n]? = some c → out[n]? = some y → energy y = (c.map energy).sum := by
  have hv := hb.1
  have hok : OrthoKit k b.params := fun ht => ortho_of hk (ho ht) ht
  have hc : ∀ c ∈ b.decs, SizedChan b.params c := fun c h => (sized_iff hv c).2 (hs c h)
  have hsig : IsSignal b.params (b.decs.map (outP k b.params 0)) := by
    refine ⟨by rw [List.length_map]; exact hb.2.1, ?_⟩
    intro m hm
    obtain ⟨c, h1, rfl⟩ := List.mem_map.1 hm
    exact of_shaped hv (chanP_outP hv hk hok hdvd (hc c h1)).1
  have hdec : b'.decompose k (b.decs.map (outP k b.params 0)) nullDenoiser = .ok b.decs true := by
    rw [decompose_ok hb' (by rw [hp]; exact hk) (by rw [hp]; exact hch) (by rw [hp]; exact hsig) (fun _ => nullDenoiser_sized), hp,
      List.map_map]
    congr 1
    conv_rhs => rw [← List.map_id b.decs]
    apply List.map_congr_left
    intro c h
    exact (chanP_outP hv hk hok hdvd (hc c h)).2
  refine ⟨_, compose_ok hv hb.2.1 hk hc (Nat.zero_le _), hsig, hdec, ?_⟩
  intro n c y h1 h2
  obtain ⟨d, g1, _, g3⟩ := C10_energy_preserved_unpadded k b' hb' (by rw [hp]; exact hk) (by rw [hp]; exact ho) (by rw [hp]; exact hch)
    _ (by rw [hp]; exact hsig) (by rw [hp]; exact hdvd)
  rw [hdec] at g1
  injection g1 with g1
  obtain ⟨c', e1, e2⟩ := g3 n y h2
  rw [← g1, h1] at e1
  injection e1 with e1
  rw [e1, e2]

/-- Hence two buffers that compose to the same signal have the same subbands. -/
theorem C100_composition_is_injective (k : Kit R) (b b' : Buffer R) (hb : WellFormed b) (hb' : WellFormed b')
    (hp : b'.params = b.params) (hk : FilterPresent k b.params)
    (ho : b.params.wtype ≠ 0 → EvenShiftOrthonormal (scalingFilter k b.params)) (hch : 0 < b.params.signalNumber)
    (hdvd : ∀ n ∈ b.params.shape, 2 ^ b.params.steps ∣ n) (hs : ∀ c ∈ b.decs, PrescribedShapes b.params c)
    (hs' : ∀ c ∈ b'.decs, PrescribedShapes b.params c) (h : b.compose k 0 = b'.compose k 0) : b.decs = b'.decs := by
  obtain ⟨o, h1, _, h2, _⟩ := C100_subbands_of_the_composed_signal k b hb hk ho hch hdvd hs b hb rfl
  obtain ⟨o', h3, _, h4, _⟩ := C100_subbands_of_the_composed_signal k b' hb' (by rw [hp]; exact hk) (by rw [hp]; exact ho)
    (by rw [hp]; exact hch) (by rw [hp]; exact hdvd) (by rw [hp]; exact hs') b hb hp.symm
  rw [h1, h3] at h
  injection h with h
  rw [h, h4] at h2
  injection h2 with h2
  exact h2.symm

end Ring

/-- With padding this is false. Three samples, one step of the Haar wavelet of the code: the last detail of any signal is zero, because
the padding repeats the last sample, so a buffer whose last detail is 1 does not come back. -/
theorem C100_padding_counterexample : let p : Params := ⟨[3], 1, 1, 1⟩
    let b : Buffer ℝ := ⟨p, [[Mat.ofCol [0, 1], Mat.ofCol [0, 0]]]⟩
    WellFormed b ∧ (∀ c ∈ b.decs, PrescribedShapes p c) ∧ FilterPresent codeKit p ∧ EvenShiftOrthonormal (scalingFilter codeKit p) ∧
    ∃ out d, b.compose codeKit 0 = .ok out ∧ IsSignal p out ∧ b.decompose codeKit out nullDenoiser = .ok d true ∧ d ≠ b.decs := by
  intro p b
  have hv : ValidParams p := ⟨by simp [p], by simp [p], by simp [p]⟩
  have hb : WellFormed b := ⟨hv, by simp [b, p], by simp [b, p, subbandCount, detailsPerStep]⟩
  have hk : FilterPresent codeKit p := codeKit_present (by simp [p])
  have hps : ∀ c ∈ b.decs, PrescribedShapes p c := by
    intro c hc
    obtain rfl : c = [Mat.ofCol [0, 1], Mat.ofCol [0, 0]] := by simpa [b] using hc
    refine ⟨by simp [p, subbandCount, detailsPerStep], ?_, ?_⟩
    · intro s hs j hj m hm
      have hs0 : s = 0 := by simp [p] at hs; omega
      have hj0 : j = 0 := by simp [p, detailsPerStep] at hj; omega
      subst hs0 hj0
      obtain rfl : Mat.ofCol [0, 1] = m := by simpa using hm
      simp [p, HasShape, paddedSide]
    · intro m hm
      obtain rfl : Mat.ofCol [0, 0] = m := by simpa [p, detailsPerStep] using hm
      simp [p, HasShape, paddedSide]
  have hc : ∀ c ∈ b.decs, SizedChan b.params c := fun c h => (sized_iff hv c).2 (hps c h)
  have hsig : IsSignal p (b.decs.map (outP codeKit p 0)) := by
    refine ⟨by simp [b, p], ?_⟩
    intro m hm
    obtain ⟨c, h1, rfl⟩ := List.mem_map.1 hm
    have h2 := finishP_size (k := codeKit) hv (Nat.zero_le _) (reconP_fits (h := scaling codeKit p) hv (hc c h1) (Nat.zero_le _))
    have e : p.shape.map (· / 2 ^ 0) = p.shape := by simp
    rw [e] at h2
    exact of_shaped hv h2
  have hm : p.wtype ≠ 0 → VanishingMoments p.wtype (scalingFilter codeKit p) := by
    intro _ m hm
    have hm0 : m = 0 := by simp [p] at hm; omega
    subst hm0
    change ∑ u ∈ range 2, (-1) ^ u * (scaling codeKit p).getD u 0 * (u : ℝ) ^ 0 = 0
    have gsc : ∀ u, (scaling codeKit p).getD u 0 = Real.sqrt 2 * (((dbCoeffs 1).getD u 0 : ℚ) : ℝ) := getD_scaled _
    have c0 : (dbCoeffs 1).getD 0 0 = 1 / 2 := by decide +kernel
    have c1 : (dbCoeffs 1).getD 1 0 = 1 / 2 := by decide +kernel
    simp only [gsc, sum_range_succ, sum_range_zero, c0, c1]
    ring
  refine ⟨hb, hps, hk, haar_ortho p rfl, ?_⟩
  obtain ⟨d, d1, d2, d3⟩ := C99_polynomials_have_no_details codeKit b hb hk (by simp [b, p]) hm _ hsig
  refine ⟨_, d, compose_ok hv hb.2.1 hk hc (Nat.zero_le _), hsig, d1, ?_⟩
  intro hd
  obtain ⟨x, hx⟩ : ∃ x, b.decs.map (outP codeKit p 0) = [x] := ⟨_, rfl⟩
  rw [hx] at hsig
  have sx := hsig.2 x (by simp)
  obtain ⟨m, m1, m2⟩ := d3 0 x _ [Mat.ofCol [0, 1], Mat.ofCol [0, 0]] (by rw [hx]; rfl)
    (by rw [paddedShape_spec hv, addPadding_ok hv (shaped_of sx)]) (by rw [hd]; rfl) 0 (by simp [b, p]) 0 (by simp [b, p, detailsPerStep])
  obtain rfl : Mat.ofCol [0, 1] = m := by simpa using m1
  have := m2 1 (by simp) 0 (by simp) ?_
  · simp [Mat.ofCol, Mat.get] at this
  · refine ⟨fun _ _ => x.get 2 0, ?_⟩
    intro t ht t' ht'
    have ht : t ≤ 1 := by simpa [b, p] using ht
    have x1 : x.rows = 3 := sx.1
    have x2 : x.cols = 1 := sx.2
    have e1 : matRows (paddedShape p) = 4 := by decide +kernel
    have e2 : matCols (paddedShape p) = 1 := by decide +kernel
    have e : padOf b.params x = Mat.ofFn 4 1 fun i j => x.get (clampIdx 0 3 i) (clampIdx 0 1 j) := by
      unfold padOf
      rw [if_neg (by simp [b, p])]
      simp only [show b.params = p from rfl, e1, e2, x1, x2]
      rfl
    rw [e]
    simp only [Mat.rows_ofFn, Mat.cols_ofFn]
    rw [Mat.get_ofFn (by omega) (by omega)]
    have c1 : clampIdx 0 3 ((2 ^ (0 + 1) * 1 + t) % 4) = 2 := by unfold clampIdx; omega
    have c2 : clampIdx 0 1 ((2 ^ (0 + 1) * 0 + t') % 1) = 0 := by unfold clampIdx; omega
    rw [c1, c2]
    simp [b, p]

/-- The hypotheses of C100 for an image of 4 x 4 samples in one step of Haar wavelets and subbands that are not those of a constant. -/
example : let p : Params := ⟨[4, 4], 1, 1, 1⟩
    let m : ℝ → Mat ℝ := fun a => Mat.ofFn 2 2 fun i j => a * i + j
    let b : Buffer ℝ := ⟨p, [[m 1, m 2, m 3, m 4]]⟩
    WellFormed b ∧ FilterPresent codeKit p ∧ EvenShiftOrthonormal (scalingFilter codeKit p) ∧ (∀ n ∈ p.shape, 2 ^ p.steps ∣ n) ∧
      (∀ c ∈ b.decs, PrescribedShapes p c) := by
  intro p m b
  refine ⟨⟨⟨by simp [b, p], by simp [b, p], by simp [b, p]⟩, by simp [b, p], by simp [b, p, subbandCount, detailsPerStep]⟩,
    codeKit_present (by simp [p]), haar_ortho p rfl, by simp [p], ?_⟩
  intro c hc
  obtain rfl : c = [m 1, m 2, m 3, m 4] := by simpa [b] using hc
  have hm : ∀ a, HasShape [2, 2] (m a) := fun a => ⟨rfl, rfl⟩
  have all : ∀ (n : ℕ) (x : Mat ℝ), ([m 1, m 2, m 3, m 4] : List (Mat ℝ))[n]? = some x → HasShape [2, 2] x := by
    intro n x hx
    have := List.mem_of_getElem? hx
    simp only [List.mem_cons, List.not_mem_nil, or_false] at this
    rcases this with rfl | rfl | rfl | rfl <;> exact hm _
  refine ⟨by simp [p, subbandCount, detailsPerStep], ?_, ?_⟩
  · intro s hs j _ x hx
    have hs0 : s = 0 := by simp [p] at hs; omega
    subst hs0
    simpa [p, paddedSide] using all _ x hx
  · intro x hx
    simpa [p, paddedSide] using all _ x hx

end WB.Props
