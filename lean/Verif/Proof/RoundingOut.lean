import Verif.Proof.RoundingTrip

/-!
From the padded matrices to the samples.
-/

set_option linter.unusedSectionVars false

namespace WB

open Finset Spec

theorem sum_shift_le {g : ℕ → ℝ} (h0 : ∀ i, 0 ≤ g i) {o r R : ℕ} (h : o + r ≤ R) : ∑ i ∈ range r, g (o + i) ≤ ∑ i ∈ range R, g i := by
  have e : ∑ i ∈ range r, g (o + i) = ∑ i ∈ Ico o (o + r), g i := by rw [sum_Ico_eq_sum_range]; simp
  rw [e]
  refine sum_le_sum_of_subset_of_nonneg ?_ fun i _ _ => h0 i
  intro i hi
  rw [mem_Ico] at hi
  rw [mem_range]
  omega

theorem energy_rect_le (m : Mat ℝ) {o1 o2 r c : ℕ} (h1 : o1 + r ≤ m.rows) (h2 : o2 + c ≤ m.cols) :
    energy (Mat.ofFn r c fun i j => m.get (o1 + i) (o2 + j)) ≤ energy m := by
  unfold energy
  simp only [Mat.rows_ofFn, Mat.cols_ofFn]
  calc _ = ∑ i ∈ range r, ∑ j ∈ range c, m.get (o1 + i) (o2 + j) * m.get (o1 + i) (o2 + j) := by
        refine sum_congr rfl fun i hi => sum_congr rfl fun j hj => ?_
        rw [Mat.get_ofFn (mem_range.1 hi) (mem_range.1 hj)]
    _ ≤ ∑ i ∈ range r, ∑ j ∈ range m.cols, m.get (o1 + i) j * m.get (o1 + i) j :=
        sum_le_sum fun i _ => sum_shift_le (g := fun j => m.get (o1 + i) j * m.get (o1 + i) j) (fun j => mul_self_nonneg _) h2
    _ ≤ _ := sum_shift_le (g := fun i => ∑ j ∈ range m.cols, m.get i j * m.get i j) (fun i => sum_nonneg fun j _ => mul_self_nonneg _) h1

theorem nrm_le_const {m : Mat ℝ} {M : ℝ} (hM : 0 ≤ M) (h : ∀ i < m.rows, ∀ j < m.cols, |m.get i j| ≤ M) {N : ℕ} (hN : m.rows * m.cols ≤ N) :
    nrm m ≤ Real.sqrt N * M := by
  rw [nrm_len]
  refine (len_mono (g := fun _ => M) ?_).trans ?_
  · intro q hq
    rw [mem_product, mem_range, mem_range] at hq
    exact h _ hq.1 _ hq.2
  · rw [len_const _ _ hM, mul_comm]
    refine mul_le_mul_of_nonneg_right (Real.sqrt_le_sqrt ?_) hM
    exact_mod_cast hN

/-- Cropping does not increase the distance. -/
theorem nrm_crop_le {p : Params} (hv : ValidParams p) {a b : Mat ℝ} (ha : Fits p 0 a) (hb : Fits p 0 b) :
    nrm (msub (cropOf p 0 a) (cropOf p 0 b)) ≤ nrm (msub a b) := by
  have hmap : p.shape.map (· / 2 ^ 0) = p.shape := by simp
  obtain ⟨l1, l2⟩ := scaled_le hv ha
  unfold cropOf
  simp only [hmap] at l1 l2 ⊢
  have hr : b.rows = a.rows := by rw [ha.1, hb.1]
  have hc : b.cols = a.cols := by rw [ha.2, hb.2]
  have o1 := padOffset_add_le .both l1
  have o2 := padOffset_add_le .both l2
  rw [hr, hc]
  generalize matRows p.shape = r at *
  generalize matCols p.shape = c at *
  split_ifs with h0
  · exact le_rfl
  · unfold nrm
    refine Real.sqrt_le_sqrt ?_
    refine le_trans (le_of_eq ?_) (energy_rect_le (msub a b) o1 o2)
    congr 1
    refine Mat.ext' rfl rfl ?_
    intro i hi j hj
    have hi' : i < r := hi
    have hj' : j < c := hj
    rw [msub_get (x := Mat.ofFn r c _) hi' hj', Mat.get_ofFn hi' hj', Mat.get_ofFn hi' hj', Mat.get_ofFn hi' hj', msub_get (by omega) (by omega)]

section Values
variable {α : Type} [Zero α] [Add α] [Mul α] [Neg α] [Inhabited α] {u ω Ω η S : ℝ} {sc : Scalars α u ω Ω} {p : Params}

theorem pad_get (hv : ValidParams p) {x : Mat α} (hx : Shaped p x) {i j : ℕ} (hi : i < (padOf p x).rows) (hj : j < (padOf p x).cols) :
    ∃ a < x.rows, ∃ b < x.cols, (padOf p x).get i j = x.get a b ∧ ∀ (γ : Type) [Inhabited γ] (v : α → γ), (padOf p (x.map v)).get i j = (x.map v).get a b := by
  unfold padOf at hi hj
  by_cases ht : p.wtype = 0
  · rw [if_pos ht] at hi hj
    exact ⟨i, hi, j, hj, by unfold padOf; rw [if_pos ht], fun γ _ v => by unfold padOf; rw [if_pos ht]⟩
  · rw [if_neg ht] at hi hj
    simp only [Mat.rows_ofFn, Mat.cols_ofFn] at hi hj
    obtain ⟨g1, g2, _⟩ := padded_ge hv ht
    refine ⟨clampIdx (padOffset .both (matRows (paddedShape p)) x.rows) x.rows i, by unfold clampIdx; rw [hx.1]; omega,
      clampIdx (padOffset .both (matCols (paddedShape p)) x.cols) x.cols j, by unfold clampIdx; rw [hx.2]; omega, ?_, ?_⟩
    · unfold padOf
      rw [if_neg ht, Mat.get_ofFn hi hj]
    · intro γ _ v
      unfold padOf
      rw [if_neg ht, Mat.get_ofFn hi hj]
      rfl

theorem pad_V (hv : ValidParams p) {x : Mat α} (hx : Shaped p x) : (padOf p x).map sc.val = padOf p (x.map sc.val) := by
  have h1 := fits_padOf hv hx
  have h2 := fits_padOf hv (show Shaped p (x.map sc.val) from hx)
  refine Mat.ext' (by rw [h2.1]; exact h1.1) (by rw [h2.2]; exact h1.2) ?_
  intro i hi j hj
  obtain ⟨a, ha, b, hb, e1, e2⟩ := pad_get hv hx hi hj
  rw [get_V sc _ hi hj, e1, e2 ℝ sc.val, get_V sc _ ha hb]

theorem crop_V (hv : ValidParams p) {x : Mat α} (hx : Fits p 0 x) : (cropOf p 0 x).map sc.val = cropOf p 0 (x.map sc.val) := by
  have hmap : p.shape.map (· / 2 ^ 0) = p.shape := by simp
  obtain ⟨l1, l2⟩ := scaled_le hv hx
  unfold cropOf
  simp only [hmap] at l1 l2 ⊢
  have o1 := padOffset_add_le .both l1
  have o2 := padOffset_add_le .both l2
  split_ifs with h0
  · rfl
  · refine Mat.ext' rfl rfl ?_
    intro i hi j hj
    have hi' : i < matRows p.shape := hi
    have hj' : j < matCols p.shape := hj
    rw [get_V sc _ hi hj, Mat.get_ofFn hi' hj', Mat.get_ofFn hi' hj']
    simp only [Mat.rows_map, Mat.cols_map]
    rw [get_V sc x (by omega) (by omega)]

theorem fin_crop (hv : ValidParams p) {x : Mat α} (hx : Fits p 0 x) (h : FinV sc x) : FinV sc (cropOf p 0 x) := by
  have hmap : p.shape.map (· / 2 ^ 0) = p.shape := by simp
  obtain ⟨l1, l2⟩ := scaled_le hv hx
  unfold cropOf
  simp only [hmap] at l1 l2 ⊢
  have o1 := padOffset_add_le .both l1
  have o2 := padOffset_add_le .both l2
  split_ifs with h0
  · exact h
  · intro i hi j hj
    have hi' : i < matRows p.shape := hi
    have hj' : j < matCols p.shape := hj
    rw [Mat.get_ofFn hi' hj']
    exact h _ (by omega) _ (by omega)

/-- The round trip of one channel. -/
theorem out_norm {kF : Kit α} {k : Kit ℝ} (hv : ValidParams p) (hkF : FilterLen kF p) (hk : FilterLen k p)
    (c : p.steps ≠ 0 → Coef sc η S p.wtype (scaling kF p) (scaling k p)) {τ M : ℝ} (hτ0 : 0 ≤ τ) (hM : 0 ≤ M)
    (hτ : lw u ω p.wtype * Real.sqrt (padSize p) ≤ τ) {x : Mat α} (hx : Shaped p x)
    (hb : ∀ i < x.rows, ∀ j < x.cols, sc.fin (x.get i j) ∧ |sc.val (x.get i j)| ≤ M)
    (hΩ : p.steps ≠ 0 → gr u ω η S p.wtype (nit (sg u η S p (scaling k p)) (st u η S τ p (scaling k p)) (2 * p.steps) (Real.sqrt (padSize p) * M)) ≤ Ω) :
    (∀ m ∈ chanP p (scaling kF p) nullDenoiser x, FinV sc m) ∧
    (outP kF p 0 (chanP p (scaling kF p) nullDenoiser x)).rows = x.rows ∧
    (outP kF p 0 (chanP p (scaling kF p) nullDenoiser x)).cols = x.cols ∧
    FinV sc (outP kF p 0 (chanP p (scaling kF p) nullDenoiser x)) ∧
    nrm (msub ((outP kF p 0 (chanP p (scaling kF p) nullDenoiser x)).map sc.val) (x.map sc.val)) ≤
      if p.steps = 0 then 0 else nit (sg u η S p (scaling k p)) (st u η S τ p (scaling k p)) (2 * p.steps) (Real.sqrt (padSize p) * M) -
        Real.sqrt (padSize p) * M := by
  have fp := fits_padOf hv hx
  have hpf : FinV sc (padOf p x) := by
    intro i hi j hj
    obtain ⟨a, ha, b, hb', e1, _⟩ := pad_get hv hx hi hj
    rw [e1]
    exact (hb a ha b hb').1
  have hpn : nrm ((padOf p x).map sc.val) ≤ Real.sqrt (padSize p) * M := by
    refine nrm_le_const hM ?_ (size_le fp)
    intro i hi j hj
    have hi' : i < (padOf p x).rows := hi
    have hj' : j < (padOf p x).cols := hj
    obtain ⟨a, ha, b, hb', e1, _⟩ := pad_get hv hx hi' hj'
    rw [get_V sc _ hi' hj', e1]
    exact (hb a ha b hb').2
  have hcp : cropOf p 0 (padOf p (x.map sc.val)) = x.map sc.val := cropOf_padOf hv (show Shaped p (x.map sc.val) from hx)
  -- before cropping
  have main : (∀ m ∈ chanP p (scaling kF p) nullDenoiser x, FinV sc m) ∧
      FinV sc (reconP p (scaling kF p) 0 (chanP p (scaling kF p) nullDenoiser x)) ∧
      nrm (msub ((reconP p (scaling kF p) 0 (chanP p (scaling kF p) nullDenoiser x)).map sc.val) ((padOf p x).map sc.val)) ≤
      if p.steps = 0 then 0 else nit (sg u η S p (scaling k p)) (st u η S τ p (scaling k p)) (2 * p.steps) (Real.sqrt (padSize p) * M) -
        Real.sqrt (padSize p) * M := by
    unfold reconP
    rw [chanP_last]
    by_cases h0 : p.steps = 0
    · refine ⟨?_, ?_, ?_⟩
      · intro m hm
        simp only [chanP, h0, List.range_zero, List.flatMap_nil, List.nil_append, List.mem_singleton, sig] at hm
        subst hm
        exact hpf
      · rw [h0]; exact hpf
      · rw [if_pos h0, h0]
        simp only [Nat.sub_zero, reconFrom, sig]
        rw [nrm_msub_self]
    · have cc := c h0
      have hΩ := hΩ h0
      rw [if_neg h0]
      have hg := cc.one_le_pg
      have hG : 1 ≤ sg u η S p (scaling k p) := by unfold sg; split_ifs <;> nlinarith
      have hT : 0 ≤ st u η S τ p (scaling k p) := by unfold st; split_ifs <;> nlinarith
      have hΩ' : gr u ω η S p.wtype (nit (sg u η S p (scaling k p)) (st u η S τ p (scaling k p)) (2 * p.steps) (nrm ((padOf p x).map sc.val))) ≤ Ω :=
        (gr_mono' cc (nit_mono (by linarith) _ hpn)).trans hΩ
      have sgn := sig_norm hv cc hτ0 hτ hpf fp hΩ'
      have tr := trip_norm hv hk cc hτ0 hτ fp p.steps 0 (by omega) hpf hΩ'
      rw [Nat.zero_add] at tr
      refine ⟨?_, tr.2.1, tr.2.2.trans (nit_grow hG _ hpn)⟩
      intro m hm
      rw [chanP, List.mem_append, List.mem_flatMap, List.mem_singleton] at hm
      rcases hm with ⟨s, hs, hm⟩ | rfl
      · rw [List.mem_range] at hs
        obtain ⟨q, hq, rfl⟩ := List.mem_iff_getElem.1 hm
        have hq' : q < subbandsPerWT p := by rwa [length_detailStep] at hq
        have := ((sgn s hs.le (by omega)).2.2 hs (by omega) q hq').1
        rwa [List.getD, List.getElem?_eq_getElem hq] at this
      · exact (sgn _ le_rfl (by omega)).1
  obtain ⟨m1, m2, m3⟩ := main
  have fit := (composeChannel_ok hv hkF (d := [chanP p (scaling kF p) nullDenoiser x]) (ch := 0) (Nat.zero_le p.steps)
    (by simp) (chanP_sized (k := kF) hv nullDenoiser_sized hx)).2
  simp only [List.getD, List.getElem?_cons_zero, Option.getD_some] at fit
  have eo : outP kF p 0 (chanP p (scaling kF p) nullDenoiser x) = cropOf p 0 (reconP p (scaling kF p) 0 (chanP p (scaling kF p) nullDenoiser x)) := by
    unfold outP finishP
    rw [if_neg (by omega)]
  rw [eo]
  have hcr := crop_V (sc := sc) hv fit
  have e3 := nrm_crop_le hv (a := (reconP p (scaling kF p) 0 (chanP p (scaling kF p) nullDenoiser x)).map sc.val) (b := (padOf p x).map sc.val) fit fp
  rw [pad_V hv hx, hcp, ← hcr] at e3
  rw [pad_V hv hx] at m3
  have hmap : p.shape.map (· / 2 ^ 0) = p.shape := by simp
  have sz := finishP_size (k := kF) hv (Nat.zero_le _) fit
  have ef : finishP kF p 0 (reconP p (scaling kF p) 0 (chanP p (scaling kF p) nullDenoiser x)) =
      cropOf p 0 (reconP p (scaling kF p) 0 (chanP p (scaling kF p) nullDenoiser x)) := by
    unfold finishP
    rw [if_neg (by omega)]
  rw [ef, hmap] at sz
  exact ⟨m1, sz.1.trans hx.1.symm, sz.2.trans hx.2.symm, fin_crop hv fit m2, e3.trans m3⟩

end Values

end WB
