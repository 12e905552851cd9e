import Verif.Proof.Const
import Verif.Proof.Coarse

/-!
Properties of values: C10 (energy), C11 (linearity), C14 (constants).
-/

set_option linter.unusedSectionVars false

namespace WB.Props

open Finset Spec

section Ring
variable {R : Type} [CommRing R] [Inhabited R]

theorem paddedShape_spec {p : Params} (hv : ValidParams p) : p.shape.map (paddedSide p) = paddedShape p := by
  have h := paddedShape_map hv 1
  simpa using h.symm

/-- C10. With a filter that is orthonormal under even shifts and the null denoiser, the squares of all coefficients of a
channel sum up to the sum of the squares of the padded channel. -/
theorem C10_energy_preserved (k : Kit R) (b : Buffer R) (hb : WellFormed b) (hk : FilterPresent k b.params)
    (ho : b.params.wtype ≠ 0 → EvenShiftOrthonormal (scalingFilter k b.params))
    (hch : 0 < b.params.signalNumber) (data : List (Mat R)) (hd : IsSignal b.params data) :
    ∃ d, b.decompose k data nullDenoiser = .ok d true ∧ d.length = data.length ∧
      ∀ (i : ℕ) (m padded : Mat R), data[i]? = some m →
        addPadding m (b.params.shape.map (paddedSide b.params)) = .ok padded →
        ∃ c, d[i]? = some c ∧ (c.map energy).sum = energy padded := by
  have hv := hb.1
  have hok : OrthoKit k b.params := fun ht => ortho_of hk (ho ht) ht
  refine ⟨_, decompose_ok hb hk hch hd (fun _ => nullDenoiser_sized), by simp, ?_⟩
  intro i m padded hm hp
  have hmem : m ∈ data := List.mem_of_getElem? hm
  rw [paddedShape_spec hv, addPadding_ok hv (shaped_of (hd.2 m hmem))] at hp
  injection hp with hp
  refine ⟨chanP b.params (scaling k b.params) nullDenoiser m, by simp [hm], ?_⟩
  rw [← hp]
  have := energy_chan (k := k) hv hk hok (fits_padOf hv (shaped_of (hd.2 m hmem))) (le_refl b.params.steps)
  rw [← this]
  unfold chanP
  simp

/-- C10, sides that need no padding: the energy is that of the signal itself. -/
theorem C10_energy_preserved_unpadded (k : Kit R) (b : Buffer R) (hb : WellFormed b) (hk : FilterPresent k b.params)
    (ho : b.params.wtype ≠ 0 → EvenShiftOrthonormal (scalingFilter k b.params))
    (hch : 0 < b.params.signalNumber) (data : List (Mat R)) (hd : IsSignal b.params data)
    (hdvd : ∀ n ∈ b.params.shape, 2 ^ b.params.steps ∣ n) :
    ∃ d, b.decompose k data nullDenoiser = .ok d true ∧ d.length = data.length ∧
      ∀ (i : ℕ) (m : Mat R), data[i]? = some m → ∃ c, d[i]? = some c ∧ (c.map energy).sum = energy m := by
  obtain ⟨d, h1, h2, h3⟩ := C10_energy_preserved k b hb hk ho hch data hd
  refine ⟨d, h1, h2, fun i m hm => h3 i m m hm ?_⟩
  have hsame : b.params.shape.map (paddedSide b.params) = b.params.shape := by
    conv_rhs => rw [← List.map_id b.params.shape]
    apply List.map_congr_left
    intro n hn
    unfold paddedSide
    split_ifs
    · rfl
    · obtain ⟨q, hq⟩ := hdvd n hn
      have hpos : 0 < 2 ^ b.params.steps := by positivity
      have : (n + 2 ^ b.params.steps - 1) / 2 ^ b.params.steps = q := by
        rw [Nat.div_eq_iff hpos, hq, Nat.mul_comm q]; omega
      rw [this, hq, Nat.mul_comm]; rfl
  rw [hsame]
  have hsh := shaped_of (hd.2 m (List.mem_of_getElem? hm))
  exact extend_self _ _ _ hsh.1 hsh.2

/-- C11, decomposition. If `z = a x + b y` sample by sample, every coefficient of the decomposition of `z` is `a` times that
of `x` plus `b` times that of `y`, for every filter. -/
theorem C11_decomposition_linear (k : Kit R) (b : Buffer R) (hb : WellFormed b) (hk : FilterPresent k b.params)
    (hch : 0 < b.params.signalNumber) (x y z : List (Mat R)) (hx : IsSignal b.params x) (hy : IsSignal b.params y)
    (hz : IsSignal b.params z) (u v : R) (h : CombAll u v x y z) :
    ∃ dx dy dz, b.decompose k x nullDenoiser = .ok dx true ∧ b.decompose k y nullDenoiser = .ok dy true ∧
      b.decompose k z nullDenoiser = .ok dz true ∧ CombChannels u v dx dy dz := by
  refine ⟨_, _, _, decompose_ok hb hk hch hx (fun _ => nullDenoiser_sized), decompose_ok hb hk hch hy (fun _ => nullDenoiser_sized),
    decompose_ok hb hk hch hz (fun _ => nullDenoiser_sized), by simpa using h.1, by simpa using h.2.1, ?_⟩
  intro i cx cy cz ex ey ez
  simp only [List.getElem?_map, Option.map_eq_some_iff] at ex ey ez
  obtain ⟨mx, ex, rfl⟩ := ex
  obtain ⟨my, ey, rfl⟩ := ey
  obtain ⟨mz, ez, rfl⟩ := ez
  exact comb_chanP hb.1 hk (shaped_of (hx.2 _ (List.mem_of_getElem? ex))) (shaped_of (hy.2 _ (List.mem_of_getElem? ey)))
    (shaped_of (hz.2 _ (List.mem_of_getElem? ez))) (h.2.2 i mx my mz ex ey ez)

/-- C11, composition. If every coefficient of buffer `z` is `u` times that of `x` plus `v` times that of `y`, then so is every
composed sample, at every scale, for every filter (provided the gain respects linear combinations, as a division by a
constant does). -/
theorem C11_composition_linear (k : Kit R) (p : Params) (dx dy dz : Decs R) (hx : WellFormed (Buffer.mk p dx))
    (hy : WellFormed (Buffer.mk p dy)) (hz : WellFormed (Buffer.mk p dz)) (hk : FilterPresent k p)
    (sx : ∀ c ∈ dx, PrescribedShapes p c) (sy : ∀ c ∈ dy, PrescribedShapes p c) (sz : ∀ c ∈ dz, PrescribedShapes p c)
    (hgain : ∀ f s (a b x y : R), k.divFactor f s (a * x + b * y) = a * k.divFactor f s x + b * k.divFactor f s y)
    (u v : R) (h : CombChannels u v dx dy dz) (s : ℕ) (hs : s ≤ p.steps) :
    ∃ ox oy oz, (Buffer.mk p dx).compose k s = .ok ox ∧ (Buffer.mk p dy).compose k s = .ok oy ∧
      (Buffer.mk p dz).compose k s = .ok oz ∧ CombAll u v ox oy oz := by
  have hv : ValidParams p := hx.1
  have zx : ∀ c ∈ dx, SizedChan p c := fun c hc => (sized_iff hv c).2 (sx c hc)
  have zy : ∀ c ∈ dy, SizedChan p c := fun c hc => (sized_iff hv c).2 (sy c hc)
  have zz : ∀ c ∈ dz, SizedChan p c := fun c hc => (sized_iff hv c).2 (sz c hc)
  refine ⟨_, _, _, compose_ok (b := ⟨p, dx⟩) hv hx.2.1 hk zx hs, compose_ok (b := ⟨p, dy⟩) hv hy.2.1 hk zy hs,
    compose_ok (b := ⟨p, dz⟩) hv hz.2.1 hk zz hs,
    by simpa using h.1, by simpa using h.2.1, ?_⟩
  intro i mx my mz ex ey ez
  simp only [List.getElem?_map, Option.map_eq_some_iff] at ex ey ez
  obtain ⟨cx, ex, rfl⟩ := ex
  obtain ⟨cy, ey, rfl⟩ := ey
  obtain ⟨cz, ez, rfl⟩ := ez
  have hcx := zx _ (List.mem_of_getElem? ex)
  have hcy := zy _ (List.mem_of_getElem? ey)
  have hcz := zz _ (List.mem_of_getElem? ez)
  have hcomb : ∀ i < decompositionSize p, Comb u v (cx.getD i default) (cy.getD i default) (cz.getD i default) := by
    intro i' hi'
    have a1 : i' < cx.length := by rw [hcx.1]; exact hi'
    have a2 : i' < cy.length := by rw [hcy.1]; exact hi'
    have a3 : i' < cz.length := by rw [hcz.1]; exact hi'
    have := (h.2.2 i cx cy cz ex ey ez).2.2 i' cx[i'] cy[i'] cz[i'] (by simp) (by simp) (by simp)
    simpa [List.getD, a1, a2, a3] using this
  have fit := (composeChannel_ok hv hk (d := [cz]) (ch := 0) hs (by simp) hcz).2
  unfold outP
  refine comb_finish hv hgain fit ?_
  unfold reconP
  exact comb_recon hv hk hcx hcy hcz hcomb _ _ le_rfl (by omega) hcx.2.2 hcy.2.2 hcz.2.2
    (hcomb _ (by unfold decompositionSize; omega))

end Ring

/-! ### constants -/

/-- The kit computes with real numbers like the code, but with any filter table. -/
def RealArithmetic (k : Kit ℝ) : Prop := k.mulSqrt2 = codeKit.mulSqrt2 ∧ k.divFactor = codeKit.divFactor

theorem taps_scaling {k : Kit ℝ} (hr : RealArithmetic k) (p : Params) (t e : ℕ) :
    taps (scaling k p) t e = Real.sqrt 2 * taps (k.dbwavf p.wtype) t e := by
  unfold taps scaling
  rw [mul_sum]
  refine sum_congr rfl (fun q _ => ?_)
  rw [hr.1]
  simp only [List.getD, List.getElem?_map]
  cases (k.dbwavf p.wtype)[2 * q + e]? <;> simp [codeKit]

theorem sqrt2_pow (d : ℕ) : (2 * (Real.sqrt 2 * (1 / 2))) ^ d = Real.sqrt 2 ^ d := by
  congr 1; ring

/-- A constant signal, when both parities of the tabulated filter sum to one half. -/
theorem constant_signal (k : Kit ℝ) (hr : RealArithmetic k) (b : Buffer ℝ) (hb : WellFormed b) (hk : FilterPresent k b.params)
    (hw : b.params.wtype ≠ 0 → taps (k.dbwavf b.params.wtype) b.params.wtype 0 = 1 / 2 ∧
      taps (k.dbwavf b.params.wtype) b.params.wtype 1 = 1 / 2)
    (hch : 0 < b.params.signalNumber) (data : List (Mat ℝ)) (hd : IsSignal b.params data) (c : ℝ)
    (hc : ∀ m ∈ data, ConstMat c m) :
    ∃ d, b.decompose k data nullDenoiser = .ok d true ∧
      (∀ ch ∈ d, ∀ i < subbandCount b.params - 1, ∀ m, ch[i]? = some m → ConstMat 0 m) ∧
      ∀ s ≤ b.params.steps, ∃ out, (Buffer.mk b.params d).compose k s = .ok out ∧ out.length = data.length ∧
        ∀ m ∈ out, HasShape (b.params.shape.map (fun n => n / 2 ^ s)) m ∧ ConstMat c m := by
  have hv := hb.1
  set p := b.params with hp
  set σ : ℝ := Real.sqrt 2 * (1 / 2) with hσ
  have hbal : 0 < p.steps → BalancedTaps (scaling k p) p.wtype σ := by
    intro hs
    obtain ⟨h1, h2⟩ := hw (wavelet_of_steps hv hs)
    exact ⟨by rw [taps_scaling hr, h1], by rw [taps_scaling hr, h2]⟩
  have h2 : Real.sqrt 2 * Real.sqrt 2 = 2 := Real.mul_self_sqrt (by norm_num)
  have hprod : backOf p σ * gainOf p σ = 1 := by
    unfold backOf gainOf
    split_ifs
    · rw [hσ]; linear_combination (1 / 2) * h2
    · rw [hσ]
      have : (Real.sqrt 2 * (1 / 2) * (Real.sqrt 2 * (1 / 2))) * (2 * (Real.sqrt 2 * (1 / 2)) * (2 * (Real.sqrt 2 * (1 / 2)))) =
        (1 / 4) * (Real.sqrt 2 * Real.sqrt 2) * (Real.sqrt 2 * Real.sqrt 2) := by ring
      rw [this, h2]; norm_num
  have hpadc : ∀ m ∈ data, ConstMat c (padOf p m) := by
    intro m hm i hi j hj
    have hsh := shaped_of (hd.2 m hm)
    unfold padOf at hi hj ⊢
    split_ifs at hi hj ⊢ with ht
    · exact hc m hm i hi j hj
    · simp only [Mat.rows_ofFn, Mat.cols_ofFn] at hi hj
      obtain ⟨g1, g2, _⟩ := padded_ge hv ht
      rw [Mat.get_ofFn hi hj]
      exact hc m hm _ (by unfold clampIdx; rw [hsh.1]; omega) _ (by unfold clampIdx; rw [hsh.2]; omega)
  refine ⟨_, decompose_ok hb hk hch hd (fun _ => nullDenoiser_sized), ?_, ?_⟩
  · intro ch hchm i hi m hm
    rw [List.mem_map] at hchm
    obtain ⟨m0, hm0, rfl⟩ := hchm
    have hi' : i < decompositionSize p := by unfold subbandCount at hi; unfold decompositionSize; rw [subbandsPerWT_eq]; omega
    rcases sub_cases p hi' with rfl | ⟨s, hs, q, hq, rfl⟩
    · unfold subbandCount at hi; rw [subbandsPerWT_eq] at hi; omega
    · have e := chanP_detail p (scaling k p) nullDenoiser m0 hs hq default
      rw [List.getD, hm, Option.getD_some] at e
      have f0 := fits_padOf hv (shaped_of (hd.2 m0 hm0))
      have := (const_step hv hk (hbal (by omega)) hs (fits_sig (k := k) hv f0 hs.le)
        (const_sig hv hk hbal f0 (hpadc m0 hm0) hs.le)).2 q hq
      simp only [List.getD] at this
      rw [e]; exact this
  · intro s hs
    have hsz : ∀ ch ∈ data.map (chanP p (scaling k p) nullDenoiser), SizedChan p ch := by
      intro ch hchm
      rw [List.mem_map] at hchm
      obtain ⟨m0, hm0, rfl⟩ := hchm
      exact chanP_sized hv nullDenoiser_sized (shaped_of (hd.2 m0 hm0))
    refine ⟨_, compose_ok (b := ⟨p, data.map (chanP p (scaling k p) nullDenoiser)⟩) hv (by simpa using hd.1) hk hsz hs,
      by simp, ?_⟩
    intro m hm
    simp only [List.mem_map] at hm
    obtain ⟨ch, ⟨m0, hm0, rfl⟩, rfl⟩ := hm
    have hszc := chanP_sized (k := k) hv nullDenoiser_sized (shaped_of (hd.2 m0 hm0))
    have fit := (composeChannel_ok hv hk (d := [chanP p (scaling k p) nullDenoiser m0]) (ch := 0) hs (by simp) hszc).2
    simp only [List.getD, List.getElem?_cons_zero, Option.getD_some] at fit
    have f0 := fits_padOf hv (shaped_of (hd.2 m0 hm0))
    have hrec : ConstMat (gainOf p σ ^ s * c) (reconP p (scaling k p) s (chanP p (scaling k p) nullDenoiser m0)) := by
      unfold reconP
      have := const_chan hv hk hbal hprod f0 (hpadc m0 hm0) (ch := chanP p (scaling k p) nullDenoiser m0)
        (fun s' hs' => detailsAt_chanP p (scaling k p) nullDenoiser m0 hs') (p.steps - s) p.steps le_rfl (by omega)
        (x := (chanP p (scaling k p) nullDenoiser m0).getD (p.steps * subbandsPerWT p) default) hszc.2.2
        (by rw [chanP_last]; exact const_sig hv hk hbal f0 (hpadc m0 hm0) le_rfl)
      have e : p.steps - (p.steps - s) = s := by omega
      rwa [e] at this
    have hcrop : ConstMat (gainOf p σ ^ s * c) (cropOf p s (reconP p (scaling k p) s (chanP p (scaling k p) nullDenoiser m0))) := by
      unfold cropOf
      simp only
      split_ifs
      · exact hrec
      · intro i hi j hj
        simp only [Mat.rows_ofFn, Mat.cols_ofFn] at hi hj
        rw [Mat.get_ofFn hi hj]
        obtain ⟨l1, l2⟩ := scaled_le hv fit
        have o1 := padOffset_add_le .both l1
        have o2 := padOffset_add_le .both l2
        exact hrec _ (by omega) _ (by omega)
    have hgain : gainOf p σ ^ s * c = (if p.dimension = 2 then 2 else Real.sqrt 2) ^ s * c := by
      unfold gainOf
      rcases dim_cases hv with h1 | h1
      · rw [if_pos h1, if_neg (by omega)]; congr 2; rw [hσ]; ring
      · rw [if_neg (by omega), if_pos h1]; congr 2; rw [hσ]; linear_combination h2
    constructor
    · have h2 := finishP_size (k := k) hv hs fit
      unfold outP
      rcases shape_cases hv with ⟨n, hsh, hd⟩ | ⟨w, hh, hsh, hd⟩
      · rw [hsh] at h2 ⊢; exact h2
      · rw [hsh] at h2 ⊢; exact h2
    · unfold outP finishP
      split_ifs with h0
      · intro i hi j hj
        simp only [Mat.rows_map, Mat.cols_map] at hi hj
        rw [Mat.get_map _ _ hi hj, hcrop i hi j hj, hgain, hr.2]
        unfold codeKit
        simp only [beq_iff_eq]
        have : ((if p.dimension = 2 then 2 else Real.sqrt 2 : ℝ)) ^ s ≠ 0 := by
          apply pow_ne_zero
          split_ifs
          · norm_num
          · exact Real.sqrt_ne_zero'.2 (by norm_num)
        field_simp
      · have : s = 0 := by omega
        subst this
        simpa using hcrop

theorem foldl_sum_list (l : List ℝ) (t : ℕ) (h : l.length = 2 * t) : l.sum = taps l t 0 + taps l t 1 := by
  rw [← sum_taps l t, ← h]
  clear h
  induction l with
  | nil => simp
  | cons a l ih => rw [List.sum_cons, List.length_cons, sum_range_succ', ih]; simp [fl, add_comm]

/-- C14. A kit with any filter table that computes like the code with real numbers. If the tabulated filter sums to one and is
orthonormal under even shifts, decomposing a constant signal gives zero details only, and composing at every scale
gives the constant again. -/
theorem C14_constants_keep_amplitude (k : Kit ℝ) (hr : RealArithmetic k) (b : Buffer ℝ) (hb : WellFormed b)
    (hk : FilterPresent k b.params)
    (hsum : b.params.wtype ≠ 0 → (k.dbwavf b.params.wtype).sum = 1)
    (ho : b.params.wtype ≠ 0 → EvenShiftOrthonormal (scalingFilter k b.params))
    (hch : 0 < b.params.signalNumber) (data : List (Mat ℝ)) (hd : IsSignal b.params data) (c : ℝ)
    (hc : ∀ m ∈ data, ConstMat c m) :
    ∃ d, b.decompose k data nullDenoiser = .ok d true ∧
      (∀ ch ∈ d, ∀ i < subbandCount b.params - 1, ∀ m, ch[i]? = some m → ConstMat 0 m) ∧
      ∀ s ≤ b.params.steps, ∃ out, (Buffer.mk b.params d).compose k s = .ok out ∧ out.length = data.length ∧
        ∀ m ∈ out, HasShape (b.params.shape.map (fun n => n / 2 ^ s)) m ∧ ConstMat c m := by
  refine constant_signal k hr b hb hk ?_ hch data hd c hc
  intro ht
  have h1 := ortho_taps _ _ (length_scaling hk ht) (ortho_of hk (ho ht) ht)
  rw [taps_scaling hr, taps_scaling hr] at h1
  have h2 := foldl_sum_list _ _ (hk ht)
  rw [hsum ht] at h2
  generalize taps (k.dbwavf b.params.wtype) b.params.wtype 0 = e at h1 h2
  generalize taps (k.dbwavf b.params.wtype) b.params.wtype 1 = o at h1 h2
  have hq : Real.sqrt 2 * Real.sqrt 2 = 2 := Real.mul_self_sqrt (by norm_num)
  have h3 : 2 * (e * e + o * o) = 1 := by
    rw [← h1]
    linear_combination (-(e * e + o * o)) * hq
  have h4 : (e - o) * (e - o) = 0 := by nlinarith
  have h5 : e - o = 0 := by simpa using h4
  constructor <;> linarith

/-- C14 for the filters in the code: the decimals of DB1, DB2 and DB4 sum to exactly one half over the even and over the odd
positions, so that constants are reproduced exactly with them although DB2 and DB4 are not exactly orthonormal. -/
theorem C14_code_filters (b : Buffer ℝ) (hb : WellFormed b)
    (hw : b.params.wtype = 0 ∨ b.params.wtype = 1 ∨ b.params.wtype = 2 ∨ b.params.wtype = 4)
    (hch : 0 < b.params.signalNumber) (data : List (Mat ℝ)) (hd : IsSignal b.params data) (c : ℝ)
    (hc : ∀ m ∈ data, ConstMat c m) :
    ∃ d, b.decompose codeKit data nullDenoiser = .ok d true ∧
      (∀ ch ∈ d, ∀ i < subbandCount b.params - 1, ∀ m, ch[i]? = some m → ConstMat 0 m) ∧
      ∀ s ≤ b.params.steps, ∃ out, (Buffer.mk b.params d).compose codeKit s = .ok out ∧ out.length = data.length ∧
        ∀ m ∈ out, HasShape (b.params.shape.map (fun n => n / 2 ^ s)) m ∧ ConstMat c m := by
  refine constant_signal codeKit ⟨rfl, rfl⟩ b hb (codeKit_present (by omega)) ?_ hch data hd c hc
  intro h0
  rcases hw with hw | hw | hw | hw
  · exact absurd hw h0
  all_goals
    rw [hw]
    simp only [codeKit, dbCoeffs, taps, List.map_cons, List.map_nil, sum_range_succ, sum_range_zero, List.getD]
    norm_num

/-! ### examples -/

/-- The hypotheses of C10, C14 hold for the Haar filter in the code. -/
example : (codeKit.dbwavf 1).sum = 1 ∧ EvenShiftOrthonormal (scalingFilter codeKit ⟨[8, 8], 2, 2, 1⟩) := by
  refine ⟨?_, haar_ortho _ rfl⟩
  simp [codeKit, dbCoeffs]; norm_num

/-- The hypotheses of C11 on a concrete pair of signals, with the filter of the code. -/
example : CombAll (2 : ℝ) (-1) [⟨2, 1, [1, 5], rfl⟩] [⟨2, 1, [7, 3], rfl⟩] [⟨2, 1, [-5, 7], rfl⟩] ∧
    ∀ f s (a b x y : ℝ), codeKit.divFactor f s (a * x + b * y) = a * codeKit.divFactor f s x + b * codeKit.divFactor f s y := by
  refine ⟨⟨rfl, rfl, ?_⟩, fun f s a b x y => by simp only [codeKit]; ring⟩
  intro i x y z hx hy hz
  match i with
  | 0 =>
    simp only [List.getElem?_cons_zero, Option.some.injEq] at hx hy hz
    subst hx; subst hy; subst hz
    refine ⟨rfl, rfl, rfl, rfl, ?_⟩
    intro i hi j hj
    have hi : i = 0 ∨ i = 1 := by simp at hi; omega
    have hj : j = 0 := by simp at hj; omega
    rcases hi with rfl | rfl <;> subst hj <;> simp [Mat.get] <;> norm_num
  | i + 1 => simp at hx

end WB.Props
