import Verif.Proof.Dither
import Verif.Props.Fading

/-!
C145: noise in the coefficients and noise in the composed samples.
-/

set_option linter.unusedSectionVars false

namespace WB.Props

open Spec Finset MeasureTheory

/-- C145. If the coefficients (all subbands of all channels) are white noise, the samples composed from them at any scale are white noise, padding or
not; the variance is divided by 2 per scale and dimension. -/
theorem C145_white_composition {Ω : Type} [MeasurableSpace Ω] [Nonempty Ω] (μ : Measure Ω) (v : ℝ) (k : Kit ℝ) (hr : RealArithmetic k) (p : Params)
    (hv : ValidParams p) (hk : FilterPresent k p) (ho : p.wtype ≠ 0 → EvenShiftOrthonormal (scalingFilter k p)) (d : Ω → List (List (Mat ℝ)))
    (hl : ∀ ω, (d ω).length = p.signalNumber) (hc : ∀ ω, ∀ c ∈ d ω, PrescribedShapes p c) (hw : White μ v fun ω => (d ω).flatten)
    (s : ℕ) (hs : s ≤ p.steps) :
    ∃ y : Ω → List (Mat ℝ), (∀ ω, (Buffer.mk p (d ω)).compose k s = .ok (y ω)) ∧ White μ (v / 2 ^ (p.shape.length * s)) y := by
  have hok : OrthoKit k p := fun ht => ortho_of hk (ho ht) ht
  have hz : ∀ ω, ∀ c ∈ d ω, SizedChan p c := fun ω c h => (sized_iff hv c).2 (hc ω c h)
  refine ⟨fun ω => (d ω).map (outP k p s), fun ω => compose_ok hv (hl ω) hk (hz ω) hs, ?_⟩
  rcases Nat.eq_zero_or_pos p.signalNumber with h0 | hch
  · intro t i j _ _ _ hin
    obtain ⟨m, h1, _⟩ := hin (Classical.arbitrary Ω)
    have := (List.getElem?_eq_some_iff.1 h1).1
    rw [List.length_map, hl, h0] at this
    omega
  -- the padded signal
  set p0 : Params := { p with shape := paddedShape p, steps := p.steps } with hp0
  have d0 : p0.dimension = p.dimension := padded_length p
  have v0 : ValidParams p0 := coarse_valid hv le_rfl
  have k0 : FilterPresent k p0 := hk
  have o0 : OrthoKit k p0 := hok
  have dv0 : ∀ n ∈ p0.shape, 2 ^ p0.steps ∣ n := padded_dvd hv le_rfl
  have z0 : ∀ ω, ∀ c ∈ d ω, SizedChan p0 c := fun ω c h => padded_sized hv (hz ω c h)
  have w0 := white_composed v0 k0 o0 dv0 hl z0 hw
  have sc0 : scaling k p0 = scaling k p := rfl
  have out0 : ∀ ω, ∀ c ∈ d ω, outP k p0 0 c = reconP p (scaling k p) 0 c := by
    intro ω c h
    have hsf := shaped_fits v0 dv0 (reconP_fits (h := scaling k p0) v0 (z0 ω c h) (Nat.zero_le _))
    unfold outP finishP
    rw [if_neg (by omega), crop_nothing v0 hsf dv0, sc0]
    exact reconP_congr d0 rfl _ _ _
  -- its decomposition in `s` steps
  set p2 : Params := { p with shape := paddedShape p, steps := s } with hp2
  have d2 : p2.dimension = p.dimension := padded_length p
  have v2 : ValidParams p2 := coarse_valid hv hs
  have k2 : FilterPresent k p2 := hk
  have dv2 : ∀ n ∈ p2.shape, 2 ^ p2.steps ∣ n := padded_dvd hv hs
  have sc2 : scaling k p2 = scaling k p := rfl
  have sh2 : ∀ ω, ∀ c ∈ d ω, Shaped p2 (outP k p0 0 c) := fun ω c h => (chanP_outP v0 k0 o0 dv0 (z0 ω c h)).1
  have wf2 : WellFormed (Buffer.mk p2 (List.replicate p2.signalNumber (List.replicate (decompositionSize p2) default)) : Buffer ℝ) := by
    refine ⟨v2, by simp, ?_⟩
    intro c hc
    rw [List.eq_of_mem_replicate hc, List.length_replicate]
    rfl
  have sig2 : ∀ ω, IsSignal p2 ((d ω).map (outP k p0 0)) := by
    intro ω
    refine ⟨by rw [List.length_map]; exact hl ω, ?_⟩
    intro m hm
    rw [List.mem_map] at hm
    obtain ⟨c, h, rfl⟩ := hm
    exact of_shaped v2 (sh2 ω c h)
  obtain ⟨e, he, we⟩ := C141_white_noise μ v k _ wf2 k2 ho hch dv2 _ sig2 w0
  have e_eq : ∀ ω, e ω = ((d ω).map (outP k p0 0)).map (chanP p2 (scaling k p2) nullDenoiser) := by
    intro ω
    have h1 := he ω
    rw [decompose_ok wf2 k2 hch (sig2 ω) (fun _ => nullDenoiser_sized)] at h1
    injection h1 with h1
    exact h1.symm
  set N := decompositionSize p2 with hN
  have lenE : ∀ ω, ∀ c ∈ e ω, c.length = N := by
    intro ω c h
    rw [e_eq ω, List.mem_map] at h
    obtain ⟨m, _, rfl⟩ := h
    exact chanP_length ..
  have hlast : s * subbandsPerWT p2 < N := by rw [hN]; unfold decompositionSize; show s * _ < s * _ + 1; omega
  have coarse : ∀ ω, ∀ c ∈ d ω, (chanP p2 (scaling k p2) nullDenoiser (outP k p0 0 c)).getD (s * subbandsPerWT p2) default =
      reconP p (scaling k p) s c := by
    intro ω c h
    have h1 := chanP_last p2 (scaling k p2) nullDenoiser (outP k p0 0 c)
    rw [padOf_self v2 (sh2 ω c h) dv2, sc2, sig_congr d2, out0 ω c h] at h1
    rw [← sig_reconP hv hk hok (hz ω c h) hs, out0 ω c h]
    exact h1 default
  have atE : ∀ ω n c, (d ω)[n]? = some c → (e ω).flatten[n * N + s * subbandsPerWT p2]? = some (reconP p (scaling k p) s c) := by
    intro ω n c h
    rw [flatten_at (lenE ω) n _ hlast, e_eq ω, List.getElem?_map, List.getElem?_map, h]
    simp only [Option.map_some, Option.bind_some]
    have hlt : s * subbandsPerWT p2 < (chanP p2 (scaling k p2) nullDenoiser (outP k p0 0 c)).length := by rw [chanP_length]; exact hlast
    rw [← coarse ω c (List.mem_of_getElem? h), List.getD, List.getElem?_eq_getElem hlt, Option.getD_some]
  -- cropping and scaling
  set R := matRows (paddedShape p) / 2 ^ s with hR
  set C := (if p.dimension = 1 then 1 else matCols (paddedShape p) / 2 ^ s) with hC
  set r := matRows (p.shape.map (· / 2 ^ s)) with hrr
  set cc := matCols (p.shape.map (· / 2 ^ s)) with hcc
  have hg : ∀ f s (x : ℝ), k.divFactor f s x = x / (if f then 2 else Real.sqrt 2) ^ s := fun f s x => by rw [hr.2]; rfl
  set g : ℝ := (if p.dimension == 2 then 2 else Real.sqrt 2) ^ s with hgg
  set oi := if r * cc = 0 then 0 else padOffset .both R r with hoi
  set oj := if r * cc = 0 then 0 else padOffset .both C cc with hoj
  have room : ∀ {x y : ℕ}, y ≤ x → padOffset .both x y + y ≤ x := by
    intro x y h
    have : padOffset .both x y = (x - y) / 2 := rfl
    omega
  have fin : ∀ (ω : Ω) (n : ℕ) (c : Channel ℝ) (i j : ℕ), (d ω)[n]? = some c → i < (outP k p s c).rows → j < (outP k p s c).cols →
      oi + i < (reconP p (scaling k p) s c).rows ∧ oj + j < (reconP p (scaling k p) s c).cols ∧
      (outP k p s c).get i j = 1 / g * (reconP p (scaling k p) s c).get (oi + i) (oj + j) := by
    intro ω n c i j h hi hj
    have fit := reconP_fits (h := scaling k p) hv (hz ω c (List.mem_of_getElem? h)) hs
    obtain ⟨l1, l2⟩ := scaled_le hv fit
    set m := reconP p (scaling k p) s c with hm
    have fr : m.rows = R := fit.1
    have fc : m.cols = C := fit.2
    have cr : ∀ i j, i < (cropOf p s m).rows → j < (cropOf p s m).cols → oi + i < m.rows ∧ oj + j < m.cols ∧
        (cropOf p s m).get i j = m.get (oi + i) (oj + j) := by
      intro i j hi hj
      unfold cropOf at hi hj ⊢
      simp only at hi hj ⊢
      rw [hoi, hoj]
      by_cases hz : r * cc = 0
      · rw [if_pos hz] at hi hj ⊢
        rw [if_pos hz, if_pos hz, Nat.zero_add, Nat.zero_add]
        exact ⟨hi, hj, rfl⟩
      · rw [if_neg hz] at hi hj ⊢
        rw [if_neg hz, if_neg hz]
        simp only [Mat.rows_ofFn, Mat.cols_ofFn] at hi hj
        rw [Mat.get_ofFn hi hj, fr, fc]
        refine ⟨?_, ?_, rfl⟩
        · have : padOffset .both R r + r ≤ R := room (by rw [← fr]; exact l1)
          omega
        · have : padOffset .both C cc + cc ≤ C := room (by rw [← fc]; exact l2)
          omega
    unfold outP finishP at hi hj ⊢
    by_cases hs0 : s > 0
    · rw [if_pos hs0] at hi hj ⊢
      obtain ⟨g1, g2, g3⟩ := cr i j hi hj
      refine ⟨g1, g2, ?_⟩
      rw [Mat.get_map _ (cropOf p s m) hi hj, hg, g3]
      ring
    · rw [if_neg hs0] at hi hj ⊢
      obtain ⟨g1, g2, g3⟩ := cr i j hi hj
      refine ⟨g1, g2, ?_⟩
      obtain rfl : s = 0 := by omega
      rw [g3, hgg]
      simp
  have fin2 := white_sub (y := fun ω => (d ω).map (outP k p s)) we (fun t => t * N + s * subbandsPerWT p2) (fun i => oi + i) (fun j => oj + j)
    (fun a b h => by
      have h' : a * N + s * subbandsPerWT p2 = b * N + s * subbandsPerWT p2 := h
      exact Nat.eq_of_mul_eq_mul_right (by omega : 0 < N) (by omega))
    (fun a b h => Nat.add_left_cancel h) (fun a b h => Nat.add_left_cancel h) (1 / g) (by
      intro t i j hin ω
      obtain ⟨m, h1, h2, h3⟩ := hin ω
      have h1' := h1
      rw [List.getElem?_map] at h1
      obtain ⟨c, q1, rfl⟩ := Option.map_eq_some_iff.1 h1
      obtain ⟨f1, f2, f3⟩ := fin ω t c i j q1 h2 h3
      refine ⟨⟨_, atE ω t c q1, f1, f2⟩, ?_⟩
      unfold valueAt
      rw [List.getD, h1', Option.getD_some, List.getD, atE ω t c q1, Option.getD_some, f3])
  have gain : (1 / g) ^ 2 * v = v / 2 ^ (p.shape.length * s) := by
    have hh : Real.sqrt 2 ^ 2 = 2 := Real.sq_sqrt (by norm_num)
    have : g ^ 2 = 2 ^ (p.shape.length * s) := by
      rw [hgg, ← pow_mul, Nat.mul_comm s 2, pow_mul]
      rcases shape_cases hv with ⟨n, h1, h2⟩ | ⟨w, h, h1, h2⟩
      · rw [h2, h1]
        simp [hh]
      · rw [h2, h1]
        simp only [List.length_cons, List.length_nil]
        rw [pow_mul]
        norm_num
    rw [div_pow, one_pow, this]
    ring
  rwa [gain] at fin2

/-- Hence the mean energy of every composed channel is its size times that variance. -/
theorem C145_mean_energy {Ω : Type} [MeasurableSpace Ω] [Nonempty Ω] (μ : Measure Ω) (v : ℝ) (k : Kit ℝ) (hr : RealArithmetic k) (p : Params)
    (hv : ValidParams p) (hk : FilterPresent k p) (ho : p.wtype ≠ 0 → EvenShiftOrthonormal (scalingFilter k p)) (d : Ω → List (List (Mat ℝ)))
    (hl : ∀ ω, (d ω).length = p.signalNumber) (hc : ∀ ω, ∀ c ∈ d ω, PrescribedShapes p c) (hw : White μ v fun ω => (d ω).flatten)
    (s : ℕ) (hs : s ≤ p.steps) :
    ∃ y : Ω → List (Mat ℝ), (∀ ω, (Buffer.mk p (d ω)).compose k s = .ok (y ω)) ∧
      ∀ t r c : ℕ, (∀ ω, ∃ m, (y ω)[t]? = some m ∧ m.rows = r ∧ m.cols = c) →
        ∫ ω, energy ((y ω).getD t default) ∂μ = r * c * (v / 2 ^ (p.shape.length * s)) := by
  obtain ⟨y, h1, h2⟩ := C145_white_composition μ v k hr p hv hk ho d hl hc hw s hs
  exact ⟨y, h1, fun t r c h => white_energy μ _ _ h2 t r c h⟩

/-! ### A concrete case, with padding -/

/-- A single 1 at a random place among the four coefficients of three samples. -/
noncomputable def oneCoefficient (ω : Fin 4) : List (List (Mat ℝ)) :=
  [[Mat.ofFn 2 1 fun i _ => if i = ω then 1 else 0, Mat.ofFn 2 1 fun i _ => if 2 + i = ω then 1 else 0]]

/-- The hypotheses of C145: three samples, one step of the Haar wavelet of the code. -/
example : White Measure.count 1 (fun ω => (oneCoefficient ω).flatten) ∧ (∀ ω, (oneCoefficient ω).length = three.signalNumber) ∧
    (∀ ω, ∀ c ∈ oneCoefficient ω, PrescribedShapes three c) ∧ ValidParams three ∧ FilterPresent codeKit three ∧ RealArithmetic codeKit ∧
    EvenShiftOrthonormal (scalingFilter codeKit three) := by
  have hv : ValidParams three := ⟨by simp [three], by simp [three], by simp [three]⟩
  refine ⟨?_, fun ω => rfl, ?_, hv, codeKit_present (by simp [three]), ⟨rfl, rfl⟩, haar_ortho three rfl⟩
  · intro t i j t' i' j' h h'
    refine ⟨Integrable.of_finite, ?_⟩
    rw [integral_count]
    have pos : ∀ {t i j : ℕ}, (∀ ω, Inside (oneCoefficient ω).flatten t i j) → t < 2 ∧ i < 2 ∧ j = 0 := by
      intro t i j h
      obtain ⟨m, h1, h2, h3⟩ := h 0
      rcases t with _ | _ | t
      · obtain rfl : Mat.ofFn 2 1 (fun i _ => if i = ((0 : Fin 4) : ℕ) then (1 : ℝ) else 0) = m := by simpa [oneCoefficient] using h1
        simp only [Mat.rows_ofFn, Mat.cols_ofFn] at h2 h3
        omega
      · obtain rfl : Mat.ofFn 2 1 (fun i _ => if 2 + i = ((0 : Fin 4) : ℕ) then (1 : ℝ) else 0) = m := by simpa [oneCoefficient] using h1
        simp only [Mat.rows_ofFn, Mat.cols_ofFn] at h2 h3
        omega
      · simp [oneCoefficient] at h1
    have val : ∀ {t i : ℕ}, t < 2 → i < 2 → ∀ ω : Fin 4, valueAt (oneCoefficient ω).flatten t i 0 = if 2 * t + i = (ω : ℕ) then 1 else 0 := by
      intro t i ht hi ω
      unfold valueAt oneCoefficient
      rcases (by omega : t = 0 ∨ t = 1) with rfl | rfl
      · simp only [List.flatten_cons, List.flatten_nil, List.append_nil, List.getD_cons_zero]
        rw [Mat.get_ofFn hi (by omega)]
        simp
      · simp only [List.flatten_cons, List.flatten_nil, List.append_nil, List.getD_cons_zero, List.getD_cons_succ]
        rw [Mat.get_ofFn hi (by omega)]
    obtain ⟨ht, hi, rfl⟩ := pos h
    obtain ⟨ht', hi', rfl⟩ := pos h'
    simp only [val ht hi, val ht' hi', Fin.sum_univ_four]
    rcases (by omega : t = 0 ∨ t = 1) with rfl | rfl <;> rcases (by omega : t' = 0 ∨ t' = 1) with rfl | rfl <;>
      rcases (by omega : i = 0 ∨ i = 1) with rfl | rfl <;> rcases (by omega : i' = 0 ∨ i' = 1) with rfl | rfl <;> simp
  · intro ω c hc
    obtain rfl : c = [Mat.ofFn 2 1 fun i _ => if i = (ω : ℕ) then 1 else 0, Mat.ofFn 2 1 fun i _ => if 2 + i = (ω : ℕ) then 1 else 0] := by
      simpa [oneCoefficient] using hc
    have e1 : matRows (paddedShape three) = 4 := by decide +kernel
    refine (sized_iff hv _).1 ⟨rfl, ?_, ?_⟩
    · intro s hs j hj
      obtain rfl : s = 0 := by simp [three] at hs; omega
      obtain rfl : j = 0 := by simp [subbandsPerWT, three, Params.dimension] at hj; omega
      exact ⟨by rw [e1]; rfl, rfl⟩
    · exact ⟨by rw [e1]; rfl, rfl⟩

end WB.Props
