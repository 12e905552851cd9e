import Verif.Proof.RoundingOut
import Verif.Spec.Metrics

/-!
How much a change of the coefficients changes the composed samples.
-/

set_option linter.unusedSectionVars false

namespace WB

open Finset Spec

/-- Squares of the details of one step. -/
noncomputable def stepEnergy (p : Params) (c : Channel ℝ) (s : ℕ) : ℝ :=
  ∑ q ∈ range (subbandsPerWT p), energy (c.getD (s * subbandsPerWT p + q) default)

theorem stepEnergy_nonneg (p : Params) (c : Channel ℝ) (s : ℕ) : 0 ≤ stepEnergy p c s :=
  sum_nonneg fun _ _ => energy_nonneg _

/-- One synthesis step multiplies the squares at most by the growth factor. -/
theorem energy_synth {k : Kit ℝ} {p : Params} (hv : ValidParams p) (hf : FilterLen k p) {s : ℕ} (hs : s < p.steps)
    {m : Mat ℝ} (hm : Fits p (s + 1) m) {ds : List (Mat ℝ)} (hds : ∀ j < subbandsPerWT p, Fits p (s + 1) (ds.getD j default)) :
    energy (synthStep p (scaling k p) m ds) ≤ growth p (dev p.wtype (scaling k p)) *
      (energy m + ∑ q ∈ range (subbandsPerWT p), energy (ds.getD q default)) := by
  have hfit := fits_synth hv (scaling k p) hs hm ds
  rw [synth_glue hv hf hs hm hds] at hfit ⊢
  have hg : Fits p s (glue p m ds) := hfit
  obtain ⟨g1, g2⟩ := near_kernels (k := k) hv hf hs hg
  have h := nrm_sepOp (x := glue p m ds) (bd_tr (bd_of_gram g1)) (bd_tr (bd_of_gram g2))
  rw [sqrt_growth p (dev_nonneg _ _)] at h
  have h2 := mul_self_le_mul_self (nrm_nonneg _) h
  rw [nrm_sq] at h2
  refine h2.trans (le_of_eq ?_)
  have hA := growth_ge (p := p) (dev_nonneg p.wtype (scaling k p))
  rw [← energy_glue (dim_cases hv) (parts_of_fits hm hds), ← nrm_sq (glue p m ds)]
  rw [show ∀ a b : ℝ, a * b * (a * b) = a * a * (b * b) from fun a b => by ring, Real.mul_self_sqrt (by linarith)]

theorem energy_recon {k : Kit ℝ} {p : Params} (hv : ValidParams p) (hf : FilterLen k p) {c : Channel ℝ} (hc : SizedChan p c)
    (n i : ℕ) (hi : i ≤ p.steps) (hn : n ≤ i) {m : Mat ℝ} (hm : Fits p i m) :
    energy (reconFrom p (scaling k p) c n i m) ≤ growth p (dev p.wtype (scaling k p)) ^ n *
      (energy m + ∑ s ∈ Ico (i - n) i, stepEnergy p c s) := by
  set A := growth p (dev p.wtype (scaling k p)) with hA
  have hA1 : 1 ≤ A := growth_ge (dev_nonneg _ _)
  induction n generalizing i m with
  | zero => simp [reconFrom]
  | succ n ih =>
    obtain ⟨j, rfl⟩ : ∃ j, i = j + 1 := ⟨i - 1, by omega⟩
    have hs : j < p.steps := by omega
    simp only [reconFrom, Nat.add_sub_cancel]
    have hds : ∀ q < subbandsPerWT p, Fits p (j + 1) ((detailsAt p c j).getD q default) := by
      intro q hq
      rw [detailsAt_getD p c j hq]
      exact hc.2.1 j hs q hq
    have h1 := energy_synth (k := k) hv hf hs hm hds
    rw [← hA] at h1
    have h2 := ih j (by omega) (by omega) (fits_synth hv (scaling k p) hs hm (detailsAt p c j))
    refine h2.trans ?_
    have e : ∑ q ∈ range (subbandsPerWT p), energy ((detailsAt p c j).getD q default) = stepEnergy p c j :=
      sum_congr rfl fun q hq => by rw [detailsAt_getD p c j (mem_range.1 hq)]
    rw [e] at h1
    rw [show j + 1 - (n + 1) = j - n by omega, sum_Ico_succ_top (by omega), pow_succ, mul_assoc]
    refine mul_le_mul_of_nonneg_left ?_ (by positivity)
    have h3 : 0 ≤ ∑ s ∈ Ico (j - n) j, stepEnergy p c s := sum_nonneg fun s _ => stepEnergy_nonneg p c s
    nlinarith

/-- All squares of a channel, step by step. -/
theorem sum_energies {p : Params} {c : Channel ℝ} (hc : c.length = decompositionSize p) :
    (c.map energy).sum = energy (c.getD (p.steps * subbandsPerWT p) default) + ∑ s ∈ range p.steps, stepEnergy p c s := by
  have e1 : (c.map energy).sum = ∑ i ∈ range c.length, energy (c.getD i default) := by
    rw [Finset.sum_range, ← List.sum_ofFn]
    congr 1
    apply List.ext_getElem
    · simp
    · intro i h1 h2
      simp at h1
      simp [List.getD]
  have e2 : ∀ n, ∑ i ∈ range (n * subbandsPerWT p), energy (c.getD i default) = ∑ s ∈ range n, stepEnergy p c s := by
    intro n
    induction n with
    | zero => simp
    | succ n ih => rw [Nat.succ_mul, sum_range_add, ih, sum_range_succ]; rfl
  have e3 : decompositionSize p = p.steps * subbandsPerWT p + 1 := by unfold decompositionSize; ring
  rw [e1, hc, e3, sum_range_succ, e2, add_comm]

theorem energy_reconP {k : Kit ℝ} {p : Params} (hv : ValidParams p) (hf : FilterLen k p) {c : Channel ℝ} (hc : SizedChan p c)
    {s : ℕ} (hs : s ≤ p.steps) :
    energy (reconP p (scaling k p) s c) ≤ growth p (dev p.wtype (scaling k p)) ^ (p.steps - s) * (c.map energy).sum := by
  unfold reconP
  refine (energy_recon hv hf hc _ _ le_rfl (by omega) hc.2.2).trans ?_
  rw [sum_energies hc.1]
  have hA1 : 1 ≤ growth p (dev p.wtype (scaling k p)) := growth_ge (dev_nonneg _ _)
  refine mul_le_mul_of_nonneg_left ?_ (by positivity)
  have : ∑ s ∈ Ico (p.steps - (p.steps - s)) p.steps, stepEnergy p c s ≤ ∑ s ∈ range p.steps, stepEnergy p c s := by
    refine sum_le_sum_of_subset_of_nonneg ?_ fun i _ _ => stepEnergy_nonneg p c i
    intro i hi
    rw [mem_Ico] at hi
    rw [mem_range]; omega
  linarith

theorem energy_map_div (m : Mat ℝ) (g : ℝ) : energy (m.map (· / g)) = energy m / (g * g) := by
  unfold energy
  simp only [Mat.rows_map, Mat.cols_map]
  rw [sum_div]
  refine sum_congr rfl fun i hi => ?_
  rw [sum_div]
  refine sum_congr rfl fun j hj => ?_
  rw [Mat.get_map _ _ (mem_range.1 hi) (mem_range.1 hj)]
  rw [div_mul_div_comm]

theorem energy_crop {p : Params} (hv : ValidParams p) {s : ℕ} {m : Mat ℝ} (hm : Fits p s m) : energy (cropOf p s m) ≤ energy m := by
  obtain ⟨l1, l2⟩ := scaled_le hv hm
  unfold cropOf
  simp only
  split_ifs with h0
  · exact le_rfl
  · exact energy_rect_le m (padOffset_add_le .both l1) (padOffset_add_le .both l2)

/-- Cropping and the gain. -/
theorem energy_finish {k : Kit ℝ} {p : Params} (hv : ValidParams p)
    (hg : ∀ f s (x : ℝ), k.divFactor f s x = x / (if f then 2 else Real.sqrt 2) ^ s) {s : ℕ} {m : Mat ℝ} (hm : Fits p s m) :
    energy (finishP k p s m) ≤ energy m / 2 ^ (p.dimension * s) := by
  unfold finishP
  split_ifs with h
  · have e : (cropOf p s m).map (k.divFactor (p.dimension == 2) s) =
        (cropOf p s m).map (· / (if (p.dimension == 2) = true then 2 else Real.sqrt 2) ^ s) := by
      congr 1; funext x; exact hg _ _ _
    rw [e, energy_map_div, ← mul_pow]
    have e2 : ((if (p.dimension == 2) = true then (2 : ℝ) else Real.sqrt 2) * (if (p.dimension == 2) = true then (2 : ℝ) else Real.sqrt 2)) ^ s =
        2 ^ (p.dimension * s) := by
      rcases dim_cases hv with h1 | h1
      · rw [h1]; simp
      · rw [h1]; norm_num [pow_mul]
    rw [e2]
    exact div_le_div_of_nonneg_right (energy_crop hv hm) (by positivity)
  · have : s = 0 := by omega
    subst this
    simpa using energy_crop hv hm

theorem sqDist_energy {x y z : Mat ℝ} (h : Comb 1 (-1) x y z) : sqDist x y = energy z := by
  unfold sqDist energy
  rw [h.1, h.2.1]
  refine sum_congr rfl fun i hi => sum_congr rfl fun j hj => ?_
  rw [h.2.2.2.2 i (mem_range.1 hi) j (mem_range.1 hj)]; ring

theorem comb_diff {x y : Mat ℝ} (hr : y.rows = x.rows) (hc : y.cols = x.cols) : Comb 1 (-1) x y (msub x y) := by
  refine ⟨rfl, rfl, hr, hc, ?_⟩
  intro i hi j hj
  rw [msub_get (x := x) (y := y) hi hj]; ring

/-- The composed samples of two channels differ by at most what the coefficients differ by, times the growth. -/
theorem out_stable {k : Kit ℝ} {p : Params} (hv : ValidParams p) (hf : FilterLen k p)
    (hg : ∀ f s (x : ℝ), k.divFactor f s x = x / (if f then 2 else Real.sqrt 2) ^ s) {x y : Channel ℝ}
    (hx : SizedChan p x) (hy : SizedChan p y) {s : ℕ} (hs : s ≤ p.steps) :
    SameSize (outP k p s x) (outP k p s y) ∧
    sqDist (outP k p s x) (outP k p s y) ≤
      growth p (dev p.wtype (scaling k p)) ^ (p.steps - s) / 2 ^ (p.dimension * s) * (List.zipWith sqDist x y).sum := by
  set z : Channel ℝ := List.zipWith msub x y with hz
  have hzl : z.length = decompositionSize p := by rw [hz, List.length_zipWith, hx.1, hy.1, min_self]
  have hget : ∀ i < decompositionSize p, z.getD i default = msub (x.getD i default) (y.getD i default) := by
    intro i hi
    have a1 : i < x.length := by rw [hx.1]; exact hi
    have a2 : i < y.length := by rw [hy.1]; exact hi
    simp [hz, List.getD, a1, a2]
  have hpos : 0 < subbandsPerWT p := by unfold subbandsPerWT; split_ifs <;> omega
  have hidx : ∀ s < p.steps, ∀ q < subbandsPerWT p, s * subbandsPerWT p + q < decompositionSize p := by
    intro s hs q hq
    have := Nat.mul_le_mul_right (subbandsPerWT p) (show s + 1 ≤ p.steps by omega)
    rw [Nat.succ_mul] at this
    unfold decompositionSize; omega
  have hlast : p.steps * subbandsPerWT p < decompositionSize p := by unfold decompositionSize; omega
  have hzs : SizedChan p z := by
    refine ⟨hzl, ?_, ?_⟩
    · intro s hs q hq
      rw [hget _ (hidx s hs q hq)]
      exact hx.2.1 s hs q hq
    · rw [hget _ hlast]; exact hx.2.2
  have hdims : ∀ i < decompositionSize p, (y.getD i default).rows = (x.getD i default).rows ∧
      (y.getD i default).cols = (x.getD i default).cols := by
    intro i hi
    rcases sub_cases p hi with rfl | ⟨s, hs, q, hq, rfl⟩
    · exact ⟨by rw [hx.2.2.1, hy.2.2.1], by rw [hx.2.2.2, hy.2.2.2]⟩
    · exact ⟨by rw [(hx.2.1 s hs q hq).1, (hy.2.1 s hs q hq).1], by rw [(hx.2.1 s hs q hq).2, (hy.2.1 s hs q hq).2]⟩
  have hcomb : ∀ i < decompositionSize p, Comb 1 (-1) (x.getD i default) (y.getD i default) (z.getD i default) := by
    intro i hi
    rw [hget i hi]
    exact comb_diff (hdims i hi).1 (hdims i hi).2
  have fit := (composeChannel_ok hv hf (d := [z]) (ch := 0) hs (by simp) hzs).2
  simp only [List.getD, List.getElem?_cons_zero, Option.getD_some] at fit
  have hgain : LinearGain k := by
    intro f s a b x y
    rw [hg, hg, hg]; ring
  have hout : Comb 1 (-1) (outP k p s x) (outP k p s y) (outP k p s z) := by
    unfold outP
    refine comb_finish hv hgain fit ?_
    unfold reconP
    exact comb_recon hv hf hx hy hzs hcomb _ _ le_rfl (by omega) hx.2.2 hy.2.2 hzs.2.2 (hcomb _ hlast)
  refine ⟨⟨by rw [hout.1, hout.2.2.1], by rw [hout.2.1, hout.2.2.2.1]⟩, ?_⟩
  rw [sqDist_energy hout]
  have e1 : (List.zipWith sqDist x y).sum = (z.map energy).sum := by
    congr 1
    apply List.ext_getElem
    · simp [hz]
    · intro i h1 h2
      simp at h1
      have := sqDist_energy (hcomb i (by rw [← hx.1]; exact h1.1))
      simpa [List.getD, h1.1, h1.2, hzl, ← hx.1] using this
  rw [e1]
  unfold outP
  refine (energy_finish hv hg fit).trans ?_
  rw [div_mul_eq_mul_div]
  exact div_le_div_of_nonneg_right (energy_reconP hv hf hzs hs) (by positivity)

theorem dev_ortho {k : Kit ℝ} {p : Params} (ho : OrthoKit k p) (ht : p.wtype ≠ 0) : dev p.wtype (scaling k p) = 0 := by
  unfold dev
  have h := ho ht
  rw [h 0, sum_eq_zero (fun s _ => by rw [h (s + 1)]; simp)]
  simp

/-- Squares of the decomposed difference. -/
theorem energy_pair {k : Kit ℝ} {p : Params} (hv : ValidParams p) (hf : FilterLen k p) (ho : OrthoKit k p) {x y : Mat ℝ}
    (hx : Shaped p x) (hy : Shaped p y) :
    (List.zipWith sqDist (chanP p (scaling k p) nullDenoiser x) (chanP p (scaling k p) nullDenoiser y)).sum =
      sqDist (padOf p x) (padOf p y) := by
  have hxy : Comb 1 (-1) x y (msub x y) := comb_diff (by rw [hx.1, hy.1]) (by rw [hx.2, hy.2])
  have hz : Shaped p (msub x y) := hx
  rw [sqDist_energy (comb_padOf hv hx hy hz hxy), ← energy_chan hv hf ho (fits_padOf hv hz) (le_refl p.steps)]
  have e : (chanP p (scaling k p) nullDenoiser (msub x y)).map energy =
      List.zipWith sqDist (chanP p (scaling k p) nullDenoiser x) (chanP p (scaling k p) nullDenoiser y) := by
    have hc := comb_chanP hv hf hx hy hz hxy
    apply List.ext_getElem
    · simp [chanP_length]
    · intro i h1 h2
      simp only [List.length_map] at h1
      simp only [List.getElem_map, List.getElem_zipWith]
      exact (sqDist_energy (hc.2.2 i _ _ _ (by simp) (by simp) (by simp))).symm
  rw [← e]
  unfold chanP
  simp

theorem sqDist_nrm {x y : Mat ℝ} (h : SameSize x y) : Real.sqrt (sqDist x y) = nrm (msub x y) := by
  rw [sqDist_energy (comb_diff h.1.symm h.2.symm)]; rfl

theorem sqDist_triangle {x y z : Mat ℝ} (h1 : SameSize x y) (h2 : SameSize y z) :
    Real.sqrt (sqDist x z) ≤ Real.sqrt (sqDist x y) + Real.sqrt (sqDist y z) := by
  have h3 : SameSize x z := ⟨h1.1.trans h2.1, h1.2.trans h2.2⟩
  rw [sqDist_nrm h1, sqDist_nrm h2, sqDist_nrm h3]
  refine nrm_comb (x := msub x y) (y := msub y z) ⟨rfl, rfl, h1.1.symm, h1.2.symm, ?_⟩
  intro i hi j hj
  have hi' : i < x.rows := hi
  have hj' : j < x.cols := hj
  rw [msub_get hi' hj', msub_get hi' hj', msub_get (by rw [← h1.1]; exact hi') (by rw [← h1.2]; exact hj')]
  ring

/-- The round trip without denoising. -/
theorem trip_nrm {k : Kit ℝ} {p : Params} (hv : ValidParams p) (hf : FilterLen k p) {x : Mat ℝ} (hx : Shaped p x) :
    SameSize (outP k p 0 (chanP p (scaling k p) nullDenoiser x)) x ∧
    Real.sqrt (sqDist (outP k p 0 (chanP p (scaling k p) nullDenoiser x)) x) ≤
      (growth p (dev p.wtype (scaling k p)) ^ p.steps - 1) * nrm (padOf p x) := by
  obtain ⟨h1, h2, -⟩ := sample_err (k := k) hv hf hx
  refine ⟨⟨h1, h2⟩, ?_⟩
  rw [sqDist_nrm ⟨h1, h2⟩]
  have hsz := chanP_sized (k := k) hv nullDenoiser_sized hx
  have fit := (composeChannel_ok hv hf (d := [chanP p (scaling k p) nullDenoiser x]) (ch := 0) (Nat.zero_le p.steps)
    (by simp) hsz).2
  simp only [List.getD, List.getElem?_cons_zero, Option.getD_some] at fit
  have h3 := nrm_crop_le hv fit (fits_padOf hv hx)
  rw [cropOf_padOf hv hx] at h3
  have h4 := roundtrip_err (k := k) hv hf hx
  unfold outP finishP
  rw [if_neg (by omega)]
  exact h3.trans h4

/-- The round trip with any change of the coefficients in between. -/
theorem changed_trip {k : Kit ℝ} {p : Params} (hv : ValidParams p) (hf : FilterLen k p)
    (hg : ∀ f s (x : ℝ), k.divFactor f s x = x / (if f then 2 else Real.sqrt 2) ^ s) {x : Mat ℝ} (hx : Shaped p x)
    {c : Channel ℝ} (hc : SizedChan p c) :
    SameSize (outP k p 0 c) x ∧
    Real.sqrt (sqDist (outP k p 0 c) x) ≤ Real.sqrt (growth p (dev p.wtype (scaling k p)) ^ p.steps) *
        Real.sqrt (List.zipWith sqDist c (chanP p (scaling k p) nullDenoiser x)).sum +
      (growth p (dev p.wtype (scaling k p)) ^ p.steps - 1) * nrm (padOf p x) := by
  obtain ⟨h1, h2⟩ := out_stable hv hf hg hc (chanP_sized (k := k) hv nullDenoiser_sized hx) (Nat.zero_le p.steps)
  obtain ⟨h3, h4⟩ := trip_nrm (k := k) hv hf hx
  refine ⟨⟨h1.1.trans h3.1, h1.2.trans h3.2⟩, (sqDist_triangle h1 h3).trans (add_le_add ?_ h4)⟩
  have hA1 : 1 ≤ growth p (dev p.wtype (scaling k p)) := growth_ge (dev_nonneg _ _)
  rw [← Real.sqrt_mul (by positivity)]
  apply Real.sqrt_le_sqrt
  simpa using h2

/-! ### number of coefficients -/

theorem level_size {p : Params} (hv : ValidParams p) {s : ℕ} (hs : s < p.steps) :
    lvlR p s * lvlC p s = (subbandsPerWT p + 1) * (lvlR p (s + 1) * lvlC p (s + 1)) := by
  have hm : Fits p s (Mat.ofFn (lvlR p s) (lvlC p s) fun _ _ => (0 : ℝ)) := ⟨rfl, rfl⟩
  rcases fits_halves hv (wavelet_of_steps hv hs) hs hm with ⟨hd, n2, h1, h2, h3, h4⟩ | ⟨hd, sh, sw, h1, h2, h3, h4, h5, h6, _⟩
  · simp only [Mat.rows_ofFn, Mat.cols_ofFn] at h1 h2
    rw [h1, h2]
    unfold lvlR lvlC subbandsPerWT
    rw [h4, if_pos hd, if_pos hd]; ring
  · simp only [Mat.rows_ofFn, Mat.cols_ofFn] at h1 h2
    rw [h1, h2]
    unfold lvlR lvlC subbandsPerWT
    rw [h5, h6, if_neg (by omega), if_neg (by omega)]; ring

theorem levels_sum {p : Params} (hv : ValidParams p) {n : ℕ} (hn : n ≤ p.steps) :
    ∑ s ∈ range n, subbandsPerWT p * (lvlR p (s + 1) * lvlC p (s + 1)) + lvlR p n * lvlC p n = lvlR p 0 * lvlC p 0 := by
  induction n with
  | zero => simp
  | succ n ih =>
    rw [← ih (by omega), level_size hv (show n < p.steps by omega), sum_range_succ]
    ring

theorem padded_size {p : Params} (hv : ValidParams p) : lvlR p 0 * lvlC p 0 = (p.shape.map (paddedSide p)).prod := by
  have hF : Fits p 0 (Mat.ofFn (lvlR p 0) (lvlC p 0) fun _ _ => (0 : ℝ)) := ⟨rfl, rfl⟩
  rw [fits_iff hv] at hF
  rcases shape_cases hv with ⟨n, hs, _⟩ | ⟨w, hh, hs, _⟩
  · rw [hs] at hF ⊢
    simp only [List.map_cons, List.map_nil, HasShape, pow_zero, Nat.div_one, Mat.rows_ofFn, Mat.cols_ofFn] at hF
    rw [hF.1, hF.2]; simp
  · rw [hs] at hF ⊢
    simp only [List.map_cons, List.map_nil, HasShape, pow_zero, Nat.div_one, Mat.rows_ofFn, Mat.cols_ofFn] at hF
    rw [hF.1, hF.2]; simp [mul_comm]

end WB
