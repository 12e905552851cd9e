import Verif.Proof.Stability
import Verif.Proof.Denoise

/-!
What dropping the smallest coefficients costs.
-/

set_option linter.unusedSectionVars false

namespace WB

open Finset Spec

/-- Dropping `n - k` entries that are not larger than the others loses at most that share of the squares. -/
theorem drop_share {ι : Type} [DecidableEq ι] (S K : Finset ι) (hK : K ⊆ S) (f : ι → ℝ) (h : ∀ a ∈ K, ∀ b ∈ S \ K, |f b| ≤ |f a|) :
    (S.card : ℝ) * ∑ b ∈ S \ K, f b * f b ≤ ((S.card : ℝ) - K.card) * ∑ b ∈ S, f b * f b := by
  have hsplit : ∑ b ∈ S, f b * f b = ∑ b ∈ S \ K, f b * f b + ∑ b ∈ K, f b * f b := (sum_sdiff hK).symm
  have hcard : ((S \ K).card : ℝ) = S.card - K.card := by
    rw [card_sdiff_of_subset hK, Nat.cast_sub (card_le_card hK)]
  have hpair : (K.card : ℝ) * ∑ b ∈ S \ K, f b * f b ≤ ((S \ K).card : ℝ) * ∑ a ∈ K, f a * f a := by
    have e1 : (K.card : ℝ) * ∑ b ∈ S \ K, f b * f b = ∑ _a ∈ K, ∑ b ∈ S \ K, f b * f b := by rw [sum_const, nsmul_eq_mul]
    have e2 : ((S \ K).card : ℝ) * ∑ a ∈ K, f a * f a = ∑ a ∈ K, ∑ _b ∈ S \ K, f a * f a := by
      rw [mul_sum]; exact sum_congr rfl fun a _ => by rw [sum_const, nsmul_eq_mul]
    rw [e1, e2]
    refine sum_le_sum fun a ha => sum_le_sum fun b hb => ?_
    rw [← abs_mul_abs_self (f b), ← abs_mul_abs_self (f a)]
    exact mul_self_le_mul_self (abs_nonneg _) (h a ha b hb)
  rw [hcard] at hpair
  rw [hsplit]
  linarith

/-- One subband. -/
theorem drop_le {data r : Mat ℝ} {cut : ℕ} {level : ℝ} (hcut : (cut : ℝ) ≤ ((data.rows * data.cols : ℕ) : ℝ) * level)
    (hle : cut ≤ data.rows * data.cols) (h : KeepsLargest (fun x : ℝ => |x|) (data.rows * data.cols - cut) data r) :
    sqDist r data ≤ level * energy data := by
  obtain ⟨hr, hc, kept, hin, hcard, hval, hmax⟩ := h
  set S := range data.rows ×ˢ range data.cols with hS
  have hsub : kept ⊆ S := by
    intro q hq
    have := hin q hq
    rw [hS, mem_product, mem_range, mem_range]; exact this
  have hSc : S.card = data.rows * data.cols := by rw [hS, card_product, card_range, card_range]
  have hd := drop_share S kept hsub (fun q => data.get q.1 q.2) (by
    intro a ha b hb
    rw [mem_sdiff, hS, mem_product, mem_range, mem_range] at hb
    exact not_lt.1 (hmax a ha b.1 hb.1.1 b.2 hb.1.2 hb.2))
  have e1 : sqDist r data = ∑ b ∈ S \ kept, data.get b.1 b.2 * data.get b.1 b.2 := by
    unfold sqDist
    rw [hr, hc, ← sum_product', ← hS, ← sum_sdiff hsub]
    have z : ∑ q ∈ kept, (r.get q.1 q.2 - data.get q.1 q.2) ^ 2 = 0 := by
      refine sum_eq_zero fun q hq => ?_
      have := hin q hq
      rw [hval _ this.1 _ this.2, if_pos (by simpa using hq)]; ring
    rw [z, add_zero]
    refine sum_congr rfl fun q hq => ?_
    rw [mem_sdiff, hS, mem_product, mem_range, mem_range] at hq
    rw [hval _ hq.1.1 _ hq.1.2, if_neg (by simpa using hq.2)]; ring
  have e2 : energy data = ∑ b ∈ S, data.get b.1 b.2 * data.get b.1 b.2 := energy_prod data
  rw [← e1, ← e2, hSc, hcard, Nat.cast_sub hle] at hd
  have hE := energy_nonneg data
  by_cases h0 : data.rows * data.cols = 0
  · have hS0 : S = ∅ := by rw [← card_eq_zero, hSc, h0]
    rw [e1, e2, hS0]; simp
  · have hpos : (0 : ℝ) < ((data.rows * data.cols : ℕ) : ℝ) := by exact_mod_cast Nat.pos_of_ne_zero h0
    have h2 : ((data.rows * data.cols : ℕ) : ℝ) * sqDist r data ≤ ((data.rows * data.cols : ℕ) : ℝ) * (level * energy data) := by
      calc _ ≤ _ := hd
        _ = (cut : ℝ) * energy data := by ring
        _ ≤ ((data.rows * data.cols : ℕ) : ℝ) * level * energy data := mul_le_mul_of_nonneg_right hcut hE
        _ = _ := by ring
    exact le_of_mul_le_mul_left h2 hpos

/-- One analysis step multiplies the squares at most by the growth factor. -/
theorem energy_analysis {k : Kit ℝ} {p : Params} (hv : ValidParams p) (hf : FilterLen k p) {s : ℕ} (hs : s < p.steps) {m : Mat ℝ}
    (hm : Fits p s m) : energy (approxStep p (scaling k p) m) +
      ∑ q ∈ range (subbandsPerWT p), energy ((detailStep p (scaling k p) nullDenoiser s m).getD q default) ≤
      growth p (dev p.wtype (scaling k p)) * energy m := by
  rw [← energy_glue (dim_cases hv) (analysis_parts (k := k) hv hs hm), glue_analysis hv hf hs hm]
  obtain ⟨h1, h2⟩ := near_kernels (k := k) hv hf hs hm
  have h := nrm_sepOp (x := m) (bd_of_gram h1) (bd_of_gram h2)
  rw [sqrt_growth p (dev_nonneg _ _)] at h
  have h3 := mul_self_le_mul_self (nrm_nonneg _) h
  have hA := growth_ge (p := p) (dev_nonneg p.wtype (scaling k p))
  rw [show ∀ a b : ℝ, a * b * (a * b) = a * a * (b * b) from fun a b => by ring, Real.mul_self_sqrt (by linarith), nrm_sq, nrm_sq] at h3
  exact h3

theorem energy_chan_le {k : Kit ℝ} {p : Params} (hv : ValidParams p) (hf : FilterLen k p) {m : Mat ℝ} (hm : Fits p 0 m) {n : ℕ}
    (hn : n ≤ p.steps) :
    ∑ s ∈ range n, ∑ q ∈ range (subbandsPerWT p), energy ((detailStep p (scaling k p) nullDenoiser s (sig p (scaling k p) m s)).getD q default) +
      energy (sig p (scaling k p) m n) ≤ growth p (dev p.wtype (scaling k p)) ^ n * energy m := by
  have hA := growth_ge (p := p) (dev_nonneg p.wtype (scaling k p))
  set A := growth p (dev p.wtype (scaling k p))
  induction n with
  | zero => simp [sig]
  | succ n ih =>
    have h1 := energy_analysis (k := k) hv hf (show n < p.steps by omega) (fits_sig (k := k) hv hm (show n ≤ p.steps by omega))
    have h2 := ih (by omega)
    rw [sum_range_succ, pow_succ]
    have h0 : 0 ≤ ∑ s ∈ range n, ∑ q ∈ range (subbandsPerWT p), energy ((detailStep p (scaling k p) nullDenoiser s (sig p (scaling k p) m s)).getD q default) :=
      sum_nonneg fun _ _ => sum_nonneg fun _ _ => energy_nonneg _
    have e : sig p (scaling k p) m (n + 1) = approxStep p (scaling k p) (sig p (scaling k p) m n) := rfl
    rw [e]
    have hE := energy_nonneg (sig p (scaling k p) m n)
    nlinarith

/-- Squared changes when every detail loses at most the share `level` of its squares. -/
theorem share_change {k : Kit ℝ} {p : Params} (hv : ValidParams p) (hf : FilterLen k p) {den : Denoiser ℝ} {x : Mat ℝ} (hx : Shaped p x)
    {level : ℝ} (h0 : 0 ≤ level)
    (h : ∀ s < p.steps, ∀ q < subbandsPerWT p,
      sqDist ((detailStep p (scaling k p) den s (sig p (scaling k p) (padOf p x) s)).getD q default)
        ((detailStep p (scaling k p) nullDenoiser s (sig p (scaling k p) (padOf p x) s)).getD q default) ≤
      level * energy ((detailStep p (scaling k p) nullDenoiser s (sig p (scaling k p) (padOf p x) s)).getD q default)) :
    (List.zipWith sqDist (chanP p (scaling k p) den x) (chanP p (scaling k p) nullDenoiser x)).sum ≤
      level * (growth p (dev p.wtype (scaling k p)) ^ p.steps * energy (padOf p x)) := by
  set c := chanP p (scaling k p) den x with hc
  set c0 := chanP p (scaling k p) nullDenoiser x with hc0
  have hlen : c.length = decompositionSize p := chanP_length _ _ _ _
  have hlen0 : c0.length = decompositionSize p := chanP_length _ _ _ _
  set F : ℕ → ℝ := fun i => sqDist (c.getD i default) (c0.getD i default) with hF
  have e1 : (List.zipWith sqDist c c0).sum = ∑ i ∈ range (decompositionSize p), F i := by
    rw [← hlen, Finset.sum_range, ← List.sum_ofFn]
    congr 1
    apply List.ext_getElem
    · simp [hlen, hlen0]
    · intro i h1 h2
      have h3 : i < c.length := by simpa using h2
      have h4 : i < c0.length := by omega
      simp [hF, List.getD, h4]
  have e2 : ∀ n, ∑ i ∈ range (n * subbandsPerWT p), F i = ∑ s ∈ range n, ∑ q ∈ range (subbandsPerWT p), F (s * subbandsPerWT p + q) := by
    intro n
    induction n with
    | zero => simp
    | succ n ih => rw [Nat.succ_mul, sum_range_add, ih, sum_range_succ]
  have e3 : decompositionSize p = p.steps * subbandsPerWT p + 1 := by unfold decompositionSize; ring
  have e4 : F (p.steps * subbandsPerWT p) = 0 := by
    simp only [hF]; rw [hc, hc0, chanP_last, chanP_last]; simp [sqDist]
  rw [e1, e3, sum_range_succ, e2, e4, add_zero]
  have hE := energy_chan_le (k := k) hv hf (fits_padOf hv hx) (le_refl p.steps)
  have hlast := energy_nonneg (sig p (scaling k p) (padOf p x) p.steps)
  calc _ ≤ ∑ s ∈ range p.steps, ∑ q ∈ range (subbandsPerWT p), level *
          energy ((detailStep p (scaling k p) nullDenoiser s (sig p (scaling k p) (padOf p x) s)).getD q default) := by
        refine sum_le_sum fun s hs => sum_le_sum fun q hq => ?_
        simp only [hF]
        rw [hc, hc0, chanP_detail p _ _ _ (mem_range.1 hs) (mem_range.1 hq), chanP_detail p _ _ _ (mem_range.1 hs) (mem_range.1 hq)]
        exact h s (mem_range.1 hs) q (mem_range.1 hq)
    _ = level * ∑ s ∈ range p.steps, ∑ q ∈ range (subbandsPerWT p),
          energy ((detailStep p (scaling k p) nullDenoiser s (sig p (scaling k p) (padOf p x) s)).getD q default) := by
        rw [mul_sum]; exact sum_congr rfl fun s _ => by rw [mul_sum]
    _ ≤ _ := mul_le_mul_of_nonneg_left (by linarith) h0

end WB
