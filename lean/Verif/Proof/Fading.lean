import Verif.Spec.Fading
import Verif.Proof.Reverse
import Verif.Proof.Stability

/-! Energy of previews. -/

set_option linter.unusedSectionVars false

namespace WB

open Finset Spec Props

theorem energy_recon_step {k : Kit ℝ} {p : Params} (hv : ValidParams p) (hf : FilterLen k p) (ho : OrthoKit k p) {s : ℕ} (hs : s < p.steps)
    {c : Channel ℝ} (hc : SizedChan p c) :
    energy (reconP p (scaling k p) s c) = energy (reconP p (scaling k p) (s + 1) c) +
      ∑ q ∈ range (subbandsPerWT p), energy (c.getD (s * subbandsPerWT p + q) default) := by
  have f1 := reconP_fits (h := scaling k p) hv hc (show s + 1 ≤ p.steps by omega)
  obtain ⟨a1, a2⟩ := analysis_synth_step hv hf ho hs f1 (detailsAt_fits hc hs)
  have e := energy_step hv hf ho hs (reconP_fits (h := scaling k p) hv hc hs.le)
  rw [e]
  congr 1
  · rw [reconP_step hs, a1]
  · refine sum_congr rfl fun q hq => ?_
    rw [reconP_step hs, a2 q (mem_range.1 hq), detailsAt_getD p c s (mem_range.1 hq)]

theorem energy_contents {k : Kit ℝ} {p : Params} (hv : ValidParams p) (hf : FilterLen k p) (ho : OrthoKit k p) {c : Channel ℝ}
    (hc : SizedChan p c) {s : ℕ} (hs : s ≤ p.steps) : energy (reconP p (scaling k p) s c) = contents p s c := by
  induction hn : p.steps - s generalizing s with
  | zero =>
    obtain rfl : s = p.steps := by omega
    unfold contents reconP
    simp [reconFrom, subbandsPerWT_eq]
  | succ n ih =>
    rw [energy_recon_step hv hf ho (by omega) hc, ih (by omega) (by omega)]
    unfold contents
    rw [sum_eq_sum_Ico_succ_bot (show s < p.steps by omega), subbandsPerWT_eq]
    ring

theorem padded_self {p : Params} (hv : ValidParams p) (hdvd : ∀ n ∈ p.shape, 2 ^ p.steps ∣ n) : paddedShape p = p.shape := by
  rw [← paddedShape_spec hv]
  conv_rhs => rw [← List.map_id p.shape]
  apply List.map_congr_left
  intro n hn
  unfold paddedSide
  split_ifs
  · rfl
  · obtain ⟨c, rfl⟩ := hdvd n hn
    have h2 : 0 < 2 ^ p.steps := by positivity
    have : (2 ^ p.steps * c + 2 ^ p.steps - 1) / 2 ^ p.steps = c := by
      rw [Nat.add_sub_assoc h2, Nat.mul_add_div h2, Nat.div_eq_of_lt (by omega)]; rfl
    rw [this, Nat.mul_comm]; rfl

theorem crop_scaled {p : Params} (hv : ValidParams p) (hdvd : ∀ n ∈ p.shape, 2 ^ p.steps ∣ n) {s : ℕ} {m : Mat ℝ} (hm : Fits p s m) :
    cropOf p s m = m := by
  obtain ⟨h1, h2⟩ := hm
  rw [padded_self hv hdvd] at h1 h2
  have e : matRows (p.shape.map (· / 2 ^ s)) = m.rows ∧ matCols (p.shape.map (· / 2 ^ s)) = m.cols := by
    rw [h1, h2]
    rcases shape_cases hv with ⟨n, hsh, hd⟩ | ⟨w, hh, hsh, hd⟩
    · rw [if_pos hd, hsh]; exact ⟨rfl, rfl⟩
    · rw [if_neg (by omega), hsh]; exact ⟨rfl, rfl⟩
  unfold cropOf
  simp only [e.1, e.2]
  split_ifs with h0
  · rfl
  · refine Mat.ext' rfl rfl ?_
    intro i hi j hj
    rw [Mat.get_ofFn (r := m.rows) (c := m.cols) hi hj]
    simp [padOffset]

/-- Nothing is cropped. -/
theorem energy_finish_eq {k : Kit ℝ} {p : Params} (hv : ValidParams p) (hdvd : ∀ n ∈ p.shape, 2 ^ p.steps ∣ n)
    (hg : ∀ f s (x : ℝ), k.divFactor f s x = x / (if f then 2 else Real.sqrt 2) ^ s) {s : ℕ} {m : Mat ℝ} (hm : Fits p s m) :
    energy (finishP k p s m) = energy m / 2 ^ (p.dimension * s) := by
  unfold finishP
  rw [crop_scaled hv hdvd hm]
  split_ifs with h
  · have e : m.map (k.divFactor (p.dimension == 2) s) = m.map (· / (if (p.dimension == 2) = true then 2 else Real.sqrt 2) ^ s) := by
      congr 1; funext x; exact hg _ _ _
    rw [e, energy_map_div, ← mul_pow]
    congr 1
    rcases dim_cases hv with h1 | h1
    · rw [h1]; simp
    · rw [h1]; norm_num [pow_mul]
  · have : s = 0 := by omega
    subst this
    simp

/-- Number of samples of a preview. -/
theorem preview_count {k : Kit ℝ} {p : Params} (hv : ValidParams p) (hdvd : ∀ n ∈ p.shape, 2 ^ p.steps ∣ n) {s : ℕ} (hs : s ≤ p.steps)
    {m : Mat ℝ} (hm : Fits p s m) : (finishP k p s m).rows * (finishP k p s m).cols * 2 ^ (p.dimension * s) = p.shape.prod := by
  obtain ⟨h1, h2⟩ := finishP_size (k := k) hv hs hm
  rw [h1, h2]
  have hd : ∀ n ∈ p.shape, n / 2 ^ s * 2 ^ s = n := fun n hn => Nat.div_mul_cancel ((pow_dvd_pow 2 hs).trans (hdvd n hn))
  rcases shape_cases hv with ⟨n, hsh, hd1⟩ | ⟨w, hh, hsh, hd1⟩
  · rw [hd1, hsh]
    have := hd n (by simp [hsh])
    simp [matRows, matCols, this]
  · rw [hd1, hsh]
    have a := hd w (by simp [hsh])
    have b := hd hh (by simp [hsh])
    simp only [List.map_cons, List.map_nil, matRows, matCols, List.prod_cons, List.prod_nil, Nat.mul_one]
    calc hh / 2 ^ s * (w / 2 ^ s) * 2 ^ (2 * s) = (w / 2 ^ s * 2 ^ s) * (hh / 2 ^ s * 2 ^ s) := by rw [two_mul, pow_add]; ring
      _ = w * hh := by rw [a, b]

end WB
