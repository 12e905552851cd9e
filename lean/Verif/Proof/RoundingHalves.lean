import Verif.Proof.Stability
import Verif.Proof.SimpleLoss

/-!
The two halves of the round trip on their own: rounded against exact coefficients, and rounded against exact composition of
arbitrary coefficients.
-/

set_option linter.unusedSectionVars false

namespace WB

open Finset Spec

theorem msub_of_comb {x y z : Mat ℝ} (h : Comb 1 (-1) x y z) : msub x y = z := by
  refine Mat.ext' h.1 h.2.1 ?_
  intro i hi j hj
  have hi' : i < x.rows := hi
  have hj' : j < x.cols := hj
  rw [msub_get hi' hj', h.2.2.2.2 i (by rw [← h.1]; exact hi') j (by rw [← h.2.1]; exact hj')]
  ring

theorem sepOp_msub {KH KW : ℕ → ℕ → ℝ} {W V : Mat ℝ} (h1 : V.rows = W.rows) (h2 : V.cols = W.cols) :
    msub (sepOp KH KW W) (sepOp KH KW V) = sepOp KH KW (msub W V) := msub_of_comb (comb_sepOp (comb_diff h1 h2))

theorem energy_glue_msub {p : Params} (hd : p.dimension = 1 ∨ p.dimension = 2) {r c : ℕ} {x y : Mat ℝ} {dx dy : List (Mat ℝ)}
    (hx : Parts p r c x dx) (hy : Parts p r c y dy) :
    energy (msub (glue p x dx) (glue p y dy)) = energy (msub x y) +
      ∑ q ∈ range (subbandsPerWT p), energy (msub (dx.getD q default) (dy.getD q default)) := by
  set zs : List (Mat ℝ) := (List.range (subbandsPerWT p)).map (fun q => msub (dx.getD q default) (dy.getD q default)) with hzs
  have hz : ∀ q < subbandsPerWT p, zs.getD q default = msub (dx.getD q default) (dy.getD q default) := fun q hq => by
    rw [hzs, getD_map_range' _ _ _ hq]
  have hp : Parts p r c (msub x y) zs := ⟨hx.1, hx.2.1, hx.2.2.1, fun q hq => by rw [hz q hq]; exact hx.2.2.2 q hq⟩
  have hc : Comb 1 (-1) (glue p x dx) (glue p y dy) (glue p (msub x y) zs) := by
    refine comb_glue hd hx hy hp (comb_diff (by rw [hx.1, hy.1]) (by rw [hx.2.1, hy.2.1])) fun q hq => ?_
    rw [hz q hq]
    exact comb_diff (by rw [(hx.2.2.2 q hq).1, (hy.2.2.2 q hq).1]) (by rw [(hx.2.2.2 q hq).2, (hy.2.2.2 q hq).2])
  rw [msub_of_comb hc, energy_glue hd hp]
  congr 1
  exact sum_congr rfl fun q hq => by rw [hz q (mem_range.1 hq)]

theorem widen {A E y r g b : ℝ} (hA : 1 ≤ A) (hE : 0 ≤ E) (hr : 0 ≤ r) (hg : 0 ≤ g) (hb0 : 0 ≤ b) (hb : b ≤ g + A * y)
    (h : y * y + r ≤ E * E) : b * b + r ≤ (g + A * E) * (g + A * E) := by
  have hyE : y ≤ E := by nlinarith
  have h1 : b * b ≤ (g + A * y) * (g + A * y) := mul_self_le_mul_self hb0 hb
  have h2 : A * g * y ≤ A * g * E := mul_le_mul_of_nonneg_left hyE (by positivity)
  have h3 : A * A * (y * y + r) ≤ A * A * (E * E) := mul_le_mul_of_nonneg_left h (by positivity)
  have h4 : r ≤ A * A * r := by nlinarith [mul_le_mul hA hA zero_le_one (by linarith)]
  nlinarith

section Values
variable {α : Type} [Zero α] [Add α] [Mul α] [Neg α] [Inhabited α] {u ω Ω η S : ℝ} {sc : Scalars α u ω Ω}
variable {kF : Kit α} {k : Kit ℝ} {p : Params}

theorem Coef.sides (c : Coef sc η S p.wtype (scaling kF p) (scaling k p)) {τ : ℝ} (hτ0 : 0 ≤ τ) :
    1 ≤ sa p (scaling k p) ∧ sa p (scaling k p) ≤ sg u η S p (scaling k p) ∧ 0 ≤ st u η S τ p (scaling k p) := by
  have hg := c.one_le_pg
  have hag := c.pa_le_pg
  have ha := one_le_pa p.wtype (scaling k p)
  refine ⟨?_, ?_, ?_⟩
  · unfold sa; split_ifs <;> nlinarith
  · unfold sa sg
    split_ifs
    · exact hag
    · exact mul_le_mul hag hag (by linarith) (by linarith)
  · unfold st; split_ifs <;> nlinarith

theorem nit_ge_pow {A G T q : ℝ} (hA : 1 ≤ A) (hAG : A ≤ G) (hT : 0 ≤ T) (hq : 0 ≤ q) (k : ℕ) : A ^ k * q ≤ nit G T k q := by
  unfold nit
  have h1 := mul_le_mul_of_nonneg_right (pow_le_pow_left₀ (by linarith) hAG k) hq
  have h2 : 0 ≤ T * ∑ j ∈ range k, G ^ j := mul_nonneg hT (sum_nonneg fun j _ => pow_nonneg (by linarith) j)
  linarith

/-- Norm of the exact operators of one level. -/
theorem level_bounds (hv : ValidParams p) (hk : FilterLen k p) {s : ℕ} (hs : s < p.steps) {m x : Mat ℝ} (hm : Fits p s m) (hr : x.rows = m.rows)
    (hc : x.cols = m.cols) :
    nrm (sepOp (kR p (scaling k p) m.rows) (kC p (scaling k p) m.cols) x) ≤ sa p (scaling k p) * nrm x ∧
    nrm (sepOp (tr (kR p (scaling k p) m.rows)) (tr (kC p (scaling k p) m.cols)) x) ≤ sa p (scaling k p) * nrm x := by
  obtain ⟨g1, g2⟩ := near_kernels (k := k) hv hk hs hm
  have ha := one_le_pa p.wtype (scaling k p)
  have hA : 1 ≤ sa p (scaling k p) := by unfold sa; split_ifs <;> nlinarith
  have hsqrt : Real.sqrt (1 + dev p.wtype (scaling k p)) * Real.sqrt (1 + (if p.dimension = 1 then 0 else dev p.wtype (scaling k p))) =
      sa p (scaling k p) := by
    rw [sqrt_growth p (dev_nonneg _ _), ← sa_sq, Real.sqrt_mul_self (by linarith)]
  rw [← hr] at g1
  rw [← hc] at g2
  rw [← hr, ← hc]
  have h1 := nrm_sepOp (x := x) (bd_of_gram g1) (bd_of_gram g2)
  have h2 := nrm_sepOp (x := x) (bd_tr (bd_of_gram g1)) (bd_tr (bd_of_gram g2))
  rw [hsqrt] at h1 h2
  exact ⟨h1, h2⟩

/-- Rounded and exact coefficients. -/
theorem sig_apart (hv : ValidParams p) (hk : FilterLen k p) (c : Coef sc η S p.wtype (scaling kF p) (scaling k p)) {τ : ℝ} (hτ0 : 0 ≤ τ)
    (hτ : lw u ω p.wtype * Real.sqrt (padSize p) ≤ τ) {x : Mat α} (hx : FinV sc x) (hm : Fits p 0 x) {K : ℕ}
    (hΩ : gr u ω η S p.wtype (nit (sg u η S p (scaling k p)) (st u η S τ p (scaling k p)) K (nrm (x.map sc.val))) ≤ Ω) :
    ∀ s ≤ p.steps, s ≤ K →
      energy (msub ((sig p (scaling kF p) x s).map sc.val) (sig p (scaling k p) (x.map sc.val) s)) +
        ∑ j ∈ range s, ∑ q ∈ range (subbandsPerWT p),
          energy (msub (((detailStep p (scaling kF p) nullDenoiser j (sig p (scaling kF p) x j)).getD q default).map sc.val)
            ((detailStep p (scaling k p) nullDenoiser j (sig p (scaling k p) (x.map sc.val) j)).getD q default)) ≤
      (nit (sg u η S p (scaling k p)) (st u η S τ p (scaling k p)) s (nrm (x.map sc.val)) - sa p (scaling k p) ^ s * nrm (x.map sc.val)) *
      (nit (sg u η S p (scaling k p)) (st u η S τ p (scaling k p)) s (nrm (x.map sc.val)) - sa p (scaling k p) ^ s * nrm (x.map sc.val)) := by
  obtain ⟨hA, hAG, hT⟩ := c.sides hτ0
  have hG := hA.trans hAG
  have hn := nrm_nonneg (x.map sc.val)
  have main := sig_norm hv c hτ0 hτ hx hm hΩ
  set f := scaling kF p with hf
  set F := scaling k p with hF
  set A := sa p F with hAdef
  set G := sg u η S p F with hGdef
  set T := st u η S τ p F with hTdef
  intro s
  induction s with
  | zero =>
    intro _ _
    simp only [sig, range_zero, sum_empty, add_zero, nit_zero, pow_zero, one_mul, sub_self, mul_zero]
    rw [← nrm_sq, nrm_msub_self, mul_zero]
  | succ s ih =>
    intro h1 h2
    have ih := ih (by omega) (by omega)
    obtain ⟨m1, m2, _⟩ := main s (by omega) (by omega)
    have hs : s < p.steps := by omega
    have ht := wavelet_of_steps hv hs
    have fit := fits_sig (k := kF) hv hm hs.le
    have fitR := fits_sig (k := k) hv (show Fits p 0 (x.map sc.val) from hm) hs.le
    rw [← hf] at fit
    rw [← hF] at fitR
    rw [sum_range_succ]
    set rest := ∑ j ∈ range s, ∑ q ∈ range (subbandsPerWT p),
          energy (msub (((detailStep p f nullDenoiser j (sig p f x j)).getD q default).map sc.val)
            ((detailStep p F nullDenoiser j (sig p F (x.map sc.val) j)).getD q default)) with hrest
    have hrest0 : 0 ≤ rest := sum_nonneg fun _ _ => sum_nonneg fun _ _ => energy_nonneg _
    rw [show sig p f x (s + 1) = approxStep p f (sig p f x s) from rfl,
      show sig p F (x.map sc.val) (s + 1) = approxStep p F (sig p F (x.map sc.val) s) from rfl]
    generalize hy : sig p f x s = y at *
    generalize hY : sig p F (x.map sc.val) s = Y at *
    generalize hq : nrm (x.map sc.val) = q at *
    have hz : G * nrm (y.map sc.val) + T ≤ nit G T (s + 1) q := by
      rw [nit_succ]
      have := mul_le_mul_of_nonneg_left m2 (show 0 ≤ G by linarith)
      linarith
    obtain ⟨a1, a2, a3⟩ := ana_level hv c hτ0 m1 hs fit (tau_le fit (lw_nonneg c.hu c.hω _) hτ)
      (hz.trans (nit_le hG hT hn h2)) hΩ
    rw [← hAdef, ← hGdef, ← hTdef] at a3
    have hpF : Parts p (lvlR p (s + 1)) (lvlC p (s + 1)) ((approxStep p f y).map sc.val) (VL sc (detailStep p f nullDenoiser s y)) := by
      refine parts_of_fits (fits_approx (k := kF) hv ht hs fit) ?_
      intro q hq
      rw [getD_VL]
      exact detailStep_fits (k := kF) hv nullDenoiser_sized hs fit hq
    have hpR := analysis_parts (k := k) hv hs fitR
    rw [← hF] at hpR
    have eg := energy_glue_msub (dim_cases hv) hpF hpR
    have efull := glue_analysis (k := k) hv hk hs fitR
    rw [← hF] at efull
    rw [efull] at eg
    simp only [getD_VL] at eg
    have dr : Y.rows = y.rows := by rw [fitR.1, fit.1]
    have dc : Y.cols = y.cols := by rw [fitR.2, fit.2]
    have t1 : nrm (msub (fullStep p F (y.map sc.val)) (fullStep p F Y)) ≤ A * nrm (msub (y.map sc.val) Y) := by
      unfold fullStep
      rw [dr, dc]
      change nrm (msub (sepOp (kR p F y.rows) (kC p F y.cols) (y.map sc.val)) _) ≤ _
      rw [sepOp_msub (W := y.map sc.val) dr dc]
      exact (level_bounds (k := k) hv hk hs (m := y.map sc.val) (x := msub (y.map sc.val) Y) fit rfl rfl).1
    have t2 := nrm_tri (X := glue p ((approxStep p f y).map sc.val) (VL sc (detailStep p f nullDenoiser s y)))
      (Y := fullStep p F (y.map sc.val)) (Z := fullStep p F Y) a3.1 a3.2.1 dr.symm dc.symm
    have key := widen (A := A) (E := nit G T s q - A ^ s * q) (y := nrm (msub (y.map sc.val) Y)) (r := rest)
      (g := (G - A) * nit G T s q + T)
      (b := nrm (msub (glue p ((approxStep p f y).map sc.val) (VL sc (detailStep p f nullDenoiser s y))) (fullStep p F Y)))
      hA (by have := nit_ge_pow hA hAG hT hn s; linarith) hrest0
      (by
        have h0 : 0 ≤ nit G T s q := (nrm_nonneg _).trans m2
        have := mul_nonneg (show 0 ≤ G - A by linarith) h0
        linarith) (nrm_nonneg _) (by
        have := mul_le_mul_of_nonneg_left m2 (show 0 ≤ G - A by linarith)
        linarith [a3.2.2.2]) (by rw [nrm_sq]; exact ih)
    rw [nrm_sq, eg] at key
    refine le_trans (le_of_eq ?_) (key.trans (le_of_eq ?_))
    · ring
    · rw [nit_succ, pow_succ]; ring

theorem detailsAt_VL (c : Channel α) (s : ℕ) : detailsAt p (VL sc c) s = VL sc (detailsAt p c s) := by
  unfold detailsAt VL
  rw [List.map_map]
  refine List.map_congr_left fun j _ => ?_
  exact getD_VL sc c _

theorem sized_VL {c : Channel α} (h : SizedChan p c) : SizedChan p (VL sc c) := by
  refine ⟨by unfold VL; rw [List.length_map]; exact h.1, ?_, ?_⟩
  · intro s hs j hj
    rw [getD_VL]
    exact h.2.1 s hs j hj
  · rw [getD_VL]
    exact h.2.2

/-- Rounded and exact composition of the same coefficients. -/
theorem recon_apart (hv : ValidParams p) (hk : FilterLen k p) (c : Coef sc η S p.wtype (scaling kF p) (scaling k p)) {τ : ℝ} (hτ0 : 0 ≤ τ)
    (hτ : lw u ω p.wtype * Real.sqrt (padSize p) ≤ τ) {ch : Channel α} (hch : SizedChan p ch) (hfin : ∀ m ∈ ch, FinV sc m)
    {Q : ℝ} (hQ0 : 0 ≤ Q) (hQ : ((VL sc ch).map energy).sum ≤ Q * Q) {K : ℕ}
    (hΩ : gr u ω η S p.wtype (nit (sg u η S p (scaling k p)) (st u η S τ p (scaling k p)) K Q) ≤ Ω) :
    ∀ n ≤ p.steps, n ≤ K →
      Fits p (p.steps - n) (reconFrom p (scaling kF p) ch n p.steps (ch.getD (p.steps * subbandsPerWT p) default)) ∧
      FinV sc (reconFrom p (scaling kF p) ch n p.steps (ch.getD (p.steps * subbandsPerWT p) default)) ∧
      Fits p (p.steps - n) (reconFrom p (scaling k p) (VL sc ch) n p.steps ((VL sc ch).getD (p.steps * subbandsPerWT p) default)) ∧
      nrm (reconFrom p (scaling k p) (VL sc ch) n p.steps ((VL sc ch).getD (p.steps * subbandsPerWT p) default)) ≤ sa p (scaling k p) ^ n * Q ∧
      nrm (msub ((reconFrom p (scaling kF p) ch n p.steps (ch.getD (p.steps * subbandsPerWT p) default)).map sc.val)
        (reconFrom p (scaling k p) (VL sc ch) n p.steps ((VL sc ch).getD (p.steps * subbandsPerWT p) default))) ≤
        nit (sg u η S p (scaling k p)) (st u η S τ p (scaling k p)) n Q - sa p (scaling k p) ^ n * Q := by
  obtain ⟨hA, hAG, hT⟩ := c.sides hτ0
  have hG := hA.trans hAG
  have hAA := sa_sq p (scaling k p)
  have hV := sized_VL (sc := sc) hch
  have mem : ∀ i < decompositionSize p, FinV sc (ch.getD i default) := by
    intro i hi
    have : i < ch.length := by rw [hch.1]; exact hi
    rw [List.getD, List.getElem?_eq_getElem this]
    exact hfin _ (List.getElem_mem _)
  have hidx : ∀ s < p.steps, ∀ q < subbandsPerWT p, s * subbandsPerWT p + q < decompositionSize p := by
    intro s hs q hq
    have := Nat.mul_le_mul_right (subbandsPerWT p) (show s + 1 ≤ p.steps by omega)
    rw [Nat.succ_mul] at this
    unfold decompositionSize; omega
  have hlast : p.steps * subbandsPerWT p < decompositionSize p := by
    have hpos : 0 < subbandsPerWT p := by unfold subbandsPerWT; split_ifs <;> omega
    unfold decompositionSize; omega
  -- exact norms
  have exact1 : ∀ n ≤ p.steps,
      energy (reconFrom p (scaling k p) (VL sc ch) n p.steps ((VL sc ch).getD (p.steps * subbandsPerWT p) default)) +
        (if n < p.steps then stepEnergy p (VL sc ch) (p.steps - n - 1) else 0) ≤
      (sa p (scaling k p) ^ n * Q) * (sa p (scaling k p) ^ n * Q) := by
    intro n hn
    have h1 := energy_recon hv hk hV n p.steps le_rfl hn hV.2.2
    rw [← hAA] at h1
    have hb : 1 ≤ (sa p (scaling k p) * sa p (scaling k p)) ^ n := one_le_pow₀ (by nlinarith)
    have h2 : (if n < p.steps then stepEnergy p (VL sc ch) (p.steps - n - 1) else 0) ≤
        (sa p (scaling k p) * sa p (scaling k p)) ^ n * (if n < p.steps then stepEnergy p (VL sc ch) (p.steps - n - 1) else 0) := by
      refine le_mul_of_one_le_left ?_ hb
      split_ifs
      · exact stepEnergy_nonneg _ _ _
      · exact le_rfl
    have h3 : ∑ s ∈ Ico (p.steps - n) p.steps, stepEnergy p (VL sc ch) s +
        (if n < p.steps then stepEnergy p (VL sc ch) (p.steps - n - 1) else 0) ≤ ∑ s ∈ range p.steps, stepEnergy p (VL sc ch) s := by
      have sub : ∀ o, ∑ s ∈ Ico o p.steps, stepEnergy p (VL sc ch) s ≤ ∑ s ∈ range p.steps, stepEnergy p (VL sc ch) s := by
        intro o
        refine sum_le_sum_of_subset_of_nonneg ?_ fun i _ _ => stepEnergy_nonneg p _ i
        intro i hi
        rw [mem_Ico] at hi
        rw [mem_range]; omega
      split_ifs with h
      · rw [add_comm]
        have := sum_eq_sum_Ico_succ_bot (show p.steps - n - 1 < p.steps by omega) (stepEnergy p (VL sc ch))
        rw [show p.steps - n - 1 + 1 = p.steps - n by omega] at this
        rw [← this]
        exact sub _
      · rw [add_zero]
        exact sub _
    rw [sum_energies hV.1] at hQ
    have h4 := mul_le_mul_of_nonneg_left hQ (show 0 ≤ (sa p (scaling k p) * sa p (scaling k p)) ^ n by linarith)
    have h5 := mul_le_mul_of_nonneg_left h3 (show 0 ≤ (sa p (scaling k p) * sa p (scaling k p)) ^ n by linarith)
    rw [show sa p (scaling k p) ^ n * Q * (sa p (scaling k p) ^ n * Q) = (sa p (scaling k p) * sa p (scaling k p)) ^ n * (Q * Q) by
      rw [mul_pow]; ring]
    linarith
  set f := scaling kF p with hf
  set F := scaling k p with hF
  set A := sa p F with hAdef
  set G := sg u η S p F with hGdef
  set T := st u η S τ p F with hTdef
  have nexact : ∀ n ≤ p.steps, nrm (reconFrom p F (VL sc ch) n p.steps ((VL sc ch).getD (p.steps * subbandsPerWT p) default)) ≤ A ^ n * Q := by
    intro n hn
    have := exact1 n hn
    have h0 : 0 ≤ A ^ n * Q := by positivity
    refine abs_le_of_sq_le_sq' ?_ h0 |>.2
    rw [sq, sq, nrm_sq]
    refine le_trans ?_ this
    split_ifs
    · have := stepEnergy_nonneg p (VL sc ch) (p.steps - n - 1); linarith
    · linarith
  intro n
  induction n with
  | zero =>
    intro _ _
    refine ⟨hch.2.2, mem _ hlast, hV.2.2, nexact 0 (by omega), ?_⟩
    simp only [reconFrom, nit_zero, pow_zero, one_mul, sub_self]
    rw [getD_VL, nrm_msub_self]
  | succ n ih =>
    intro h1 h2
    obtain ⟨i1, i2, i3, i4, i5⟩ := ih (by omega) (by omega)
    have ex := exact1 n (by omega)
    rw [if_pos (by omega)] at ex
    refine ⟨?_, ?_, ?_, nexact (n + 1) h1, ?_⟩ <;> simp only [reconFrom_last]
    all_goals
      obtain ⟨s, hs⟩ : ∃ s, p.steps = s + 1 + n := ⟨p.steps - n - 1, by omega⟩
      have hs' : s < p.steps := by omega
      have e0 : p.steps - n - 1 = s := by omega
      have e1 : p.steps - n = s + 1 := by omega
      have e2 : p.steps - (n + 1) = s := by omega
      rw [e0] at ex ⊢
      rw [e1] at i1 i3
      try rw [e2]
    · exact fits_synth hv _ hs' i1 _
    all_goals
      have hfd : ∀ q < subbandsPerWT p, Fits p (s + 1) ((detailsAt p ch s).getD q default) := by
        intro q hq
        unfold detailsAt
        rw [getD_map_range' _ _ _ hq]
        exact hch.2.1 s hs' q hq
      have hff : ∀ q < subbandsPerWT p, FinV sc ((detailsAt p ch s).getD q default) := by
        intro q hq
        unfold detailsAt
        rw [getD_map_range' _ _ _ hq]
        exact mem _ (hidx s hs' q hq)
      have edet : ∑ q ∈ range (subbandsPerWT p), energy ((detailsAt p (VL sc ch) s).getD q default) = stepEnergy p (VL sc ch) s :=
        sum_congr rfl fun q hq => by rw [detailsAt_getD p _ s (mem_range.1 hq)]
      rw [← edet] at ex
      rw [detailsAt_VL] at ex
      try rw [detailsAt_VL]
      generalize reconFrom p f ch n p.steps (ch.getD (p.steps * subbandsPerWT p) default) = r at *
      generalize reconFrom p F (VL sc ch) n p.steps ((VL sc ch).getD (p.steps * subbandsPerWT p) default) = R at *
      generalize detailsAt p ch s = ds at *
      have hfv : ∀ q < subbandsPerWT p, Fits p (s + 1) ((VL sc ds).getD q default) := by
        intro q hq
        rw [getD_VL]
        exact hfd q hq
      have hpF : Parts p (lvlR p (s + 1)) (lvlC p (s + 1)) (r.map sc.val) (VL sc ds) := parts_of_fits i1 hfv
      have hpR : Parts p (lvlR p (s + 1)) (lvlC p (s + 1)) R (VL sc ds) := parts_of_fits i3 hfv
      rw [← energy_glue (dim_cases hv) hpR, ← nrm_sq] at ex
      have nR : nrm (glue p R (VL sc ds)) ≤ A ^ n * Q := by
        refine abs_le_of_sq_le_sq' ?_ (by positivity) |>.2
        rw [sq, sq]; exact ex
      have dif : nrm (msub (glue p (r.map sc.val) (VL sc ds)) (glue p R (VL sc ds))) ≤ nit G T n Q - A ^ n * Q := by
        rw [energy_msub_glue (dim_cases hv) hpF hpR]; exact i5
      have dr : (glue p R (VL sc ds)).rows = (glue p (r.map sc.val) (VL sc ds)).rows := by rw [glue_rows, glue_rows, hpF.1, hpR.1]
      have dc : (glue p R (VL sc ds)).cols = (glue p (r.map sc.val) (VL sc ds)).cols := by rw [glue_cols p hpF, glue_cols p hpR]
      have nW : nrm (glue p (r.map sc.val) (VL sc ds)) ≤ nit G T n Q := by
        have := nrm_comb (comb_msub (X := glue p (r.map sc.val) (VL sc ds)) (Y := glue p R (VL sc ds)) dr.symm dc.symm)
        linarith
      have hWB : G * nrm (glue p (r.map sc.val) (VL sc ds)) + T ≤ nit G T K Q := by
        refine le_trans ?_ (nit_le hG hT hQ0 h2)
        rw [nit_succ]
        have := mul_le_mul_of_nonneg_left nW (show 0 ≤ G by linarith)
        linarith
      have esR := synth_glue (k := k) hv hk hs' i3 hfv
      rw [← hF] at esR
      have fsR := fits_synth hv F hs' i3 (VL sc ds)
      have fitW : Fits p s (glue p (r.map sc.val) (VL sc ds)) := by
        rw [esR] at fsR
        exact ⟨dr.symm.trans fsR.1, dc.symm.trans fsR.2⟩
      obtain ⟨b1, b2⟩ := syn_level (s := s) hv c hτ0 hs' i2 i1 hff hfd rfl (tau_le fitW (lw_nonneg c.hu c.hω _) hτ) hWB hΩ
      rw [← hAdef, ← hGdef, ← hTdef] at b2
    · exact b1
    · exact fsR
    · have t1 : nrm (msub (sepOp (tr (kR p F (glue p (r.map sc.val) (VL sc ds)).rows)) (tr (kC p F (glue p (r.map sc.val) (VL sc ds)).cols))
          (glue p (r.map sc.val) (VL sc ds))) (synthStep p F R (VL sc ds))) ≤ A * (nit G T n Q - A ^ n * Q) := by
        rw [esR, dr, dc, sepOp_msub dr dc]
        refine le_trans ?_ (mul_le_mul_of_nonneg_left dif (by linarith))
        exact (level_bounds (k := k) hv hk hs' (x := msub _ _) fitW rfl rfl).2
      have t2 := nrm_tri (X := (synthStep p f r ds).map sc.val)
        (Y := sepOp (tr (kR p F (glue p (r.map sc.val) (VL sc ds)).rows)) (tr (kC p F (glue p (r.map sc.val) (VL sc ds)).cols))
          (glue p (r.map sc.val) (VL sc ds))) (Z := synthStep p F R (VL sc ds)) b2.1 b2.2.1
        (by rw [esR]; exact dr.symm) (by rw [esR]; exact dc.symm)
      have t3 := mul_le_mul_of_nonneg_left nW (show 0 ≤ G - A by linarith)
      rw [nit_succ, pow_succ]
      linarith [b2.2.2.2]

end Values

/-! ### distances of channels -/

theorem sum_subbands (p : Params) (g : ℕ → ℝ) :
    ∑ i ∈ range (decompositionSize p), g i = g (p.steps * subbandsPerWT p) +
      ∑ s ∈ range p.steps, ∑ q ∈ range (subbandsPerWT p), g (s * subbandsPerWT p + q) := by
  have e2 : ∀ n, ∑ i ∈ range (n * subbandsPerWT p), g i = ∑ s ∈ range n, ∑ q ∈ range (subbandsPerWT p), g (s * subbandsPerWT p + q) := by
    intro n
    induction n with
    | zero => simp
    | succ n ih => rw [Nat.succ_mul, sum_range_add, ih, sum_range_succ]
  have e3 : decompositionSize p = p.steps * subbandsPerWT p + 1 := by unfold decompositionSize; ring
  rw [e3, sum_range_succ, e2, add_comm]

/-- Euclidean distance of two channels. -/
noncomputable def apart (p : Params) (x y : Channel ℝ) : ℝ :=
  len (range (decompositionSize p)) fun i => nrm (msub (x.getD i default) (y.getD i default))

/-- Euclidean norm of a channel. -/
noncomputable def total (p : Params) (x : Channel ℝ) : ℝ := len (range (decompositionSize p)) fun i => nrm (x.getD i default)

theorem apart_nonneg (p : Params) (x y : Channel ℝ) : 0 ≤ apart p x y := len_nonneg _ _

theorem total_nonneg (p : Params) (x : Channel ℝ) : 0 ≤ total p x := len_nonneg _ _

theorem sum_getD {x : Channel ℝ} {n : ℕ} (h : x.length = n) (g : Mat ℝ → ℝ) : (x.map g).sum = ∑ i ∈ range n, g (x.getD i default) := by
  subst h
  rw [Finset.sum_range, ← List.sum_ofFn]
  congr 1
  apply List.ext_getElem
  · simp
  · intro i h1 h2
    simp at h1
    simp [List.getD]

theorem total_sq {p : Params} {x : Channel ℝ} (h : x.length = decompositionSize p) : total p x * total p x = (x.map energy).sum := by
  rw [total, len_sq, sum_getD h]
  exact sum_congr rfl fun i _ => nrm_sq _

theorem sized_dims {α β : Type} [Inhabited α] [Inhabited β] {p : Params} {x : Channel α} {y : Channel β} (hx : SizedChan p x) (hy : SizedChan p y)
    {i : ℕ} (hi : i < decompositionSize p) :
    (x.getD i default).rows = (y.getD i default).rows ∧ (x.getD i default).cols = (y.getD i default).cols := by
  rcases sub_cases p hi with rfl | ⟨s, hs, q, hq, rfl⟩
  · exact ⟨by rw [hx.2.2.1, hy.2.2.1], by rw [hx.2.2.2, hy.2.2.2]⟩
  · exact ⟨by rw [(hx.2.1 s hs q hq).1, (hy.2.1 s hs q hq).1], by rw [(hx.2.1 s hs q hq).2, (hy.2.1 s hs q hq).2]⟩

theorem apart_sq {p : Params} {x y : Channel ℝ} (hx : SizedChan p x) (hy : SizedChan p y) :
    apart p x y * apart p x y = (List.zipWith sqDist x y).sum := by
  rw [apart, len_sq]
  have e : (List.zipWith sqDist x y) = (List.range (decompositionSize p)).map fun i => sqDist (x.getD i default) (y.getD i default) := by
    apply List.ext_getElem
    · simp [hx.1, hy.1]
    · intro i h1 h2
      simp [hx.1, hy.1] at h1
      simp [List.getD, hx.1, hy.1, h1]
  rw [e, Finset.sum_range, ← List.sum_ofFn]
  congr 1
  apply List.ext_getElem
  · simp
  · intro i h1 h2
    simp at h1
    have d := sized_dims hx hy h1
    rw [List.getElem_ofFn, List.getElem_map, List.getElem_range, nrm_sq, sqDist_energy (comb_diff d.1.symm d.2.symm)]

theorem apart_tri {p : Params} {x y z : Channel ℝ} (hx : SizedChan p x) (hy : SizedChan p y) (hz : SizedChan p z) :
    apart p x z ≤ apart p x y + apart p y z := by
  unfold apart
  refine le_trans (len_mono fun i hi => ?_) (len_add _ _ _)
  rw [abs_of_nonneg (nrm_nonneg _)]
  have h1 := sized_dims hx hy (mem_range.1 hi)
  have h2 := sized_dims hy hz (mem_range.1 hi)
  exact nrm_tri h1.1 h1.2 h2.1 h2.2

theorem total_le {p : Params} {x y : Channel ℝ} (hx : SizedChan p x) (hy : SizedChan p y) : total p x ≤ apart p x y + total p y := by
  unfold apart total
  refine le_trans (len_mono fun i hi => ?_) (len_add _ _ _)
  rw [abs_of_nonneg (nrm_nonneg _)]
  have h1 := sized_dims hx hy (mem_range.1 hi)
  exact nrm_comb (comb_msub h1.1 h1.2)

/-! ### cropping and the gain -/

theorem nrm_crop_le' {p : Params} (hv : ValidParams p) {s : ℕ} {a b : Mat ℝ} (ha : Fits p s a) (hb : Fits p s b) :
    nrm (msub (cropOf p s a) (cropOf p s b)) ≤ nrm (msub a b) := by
  obtain ⟨l1, l2⟩ := scaled_le hv ha
  unfold cropOf
  simp only
  have hr : b.rows = a.rows := by rw [ha.1, hb.1]
  have hc : b.cols = a.cols := by rw [ha.2, hb.2]
  have o1 := padOffset_add_le .both l1
  have o2 := padOffset_add_le .both l2
  rw [hr, hc]
  generalize matRows (p.shape.map (· / 2 ^ s)) = r at *
  generalize matCols (p.shape.map (· / 2 ^ s)) = c at *
  split_ifs with h0
  · exact le_rfl
  · unfold nrm
    refine Real.sqrt_le_sqrt ?_
    refine le_trans (le_of_eq ?_) (energy_rect_le (msub a b) o1 o2)
    congr 1
    refine Mat.ext' rfl rfl ?_
    intro i hi j hj
    have hi' : i < r := hi
    have hj' : j < c := hj
    rw [msub_get (x := Mat.ofFn r c _) hi' hj', Mat.get_ofFn hi' hj', Mat.get_ofFn hi' hj', Mat.get_ofFn hi' hj', msub_get (by omega) (by omega)]

section Values
variable {α : Type} [Zero α] [Add α] [Mul α] [Neg α] [Inhabited α] {u ω Ω η S : ℝ} {sc : Scalars α u ω Ω}
variable {kF : Kit α} {k : Kit ℝ} {p : Params}

theorem crop_V' (hv : ValidParams p) {s : ℕ} {x : Mat α} (hx : Fits p s x) : (cropOf p s x).map sc.val = cropOf p s (x.map sc.val) := by
  obtain ⟨l1, l2⟩ := scaled_le hv hx
  unfold cropOf
  simp only
  have o1 := padOffset_add_le .both l1
  have o2 := padOffset_add_le .both l2
  simp only [Mat.rows_map, Mat.cols_map]
  generalize matRows (p.shape.map (· / 2 ^ s)) = r at *
  generalize matCols (p.shape.map (· / 2 ^ s)) = c at *
  split_ifs with h0
  · rfl
  · refine Mat.ext' rfl rfl ?_
    intro i hi j hj
    have hi' : i < r := hi
    have hj' : j < c := hj
    rw [get_V sc _ hi hj, Mat.get_ofFn hi' hj', Mat.get_ofFn hi' hj']
    rw [get_V sc x (by omega) (by omega)]

theorem fin_crop' (hv : ValidParams p) {s : ℕ} {x : Mat α} (hx : Fits p s x) (h : FinV sc x) : FinV sc (cropOf p s x) := by
  obtain ⟨l1, l2⟩ := scaled_le hv hx
  unfold cropOf
  simp only
  have o1 := padOffset_add_le .both l1
  have o2 := padOffset_add_le .both l2
  generalize matRows (p.shape.map (· / 2 ^ s)) = r at *
  generalize matCols (p.shape.map (· / 2 ^ s)) = c at *
  split_ifs with h0
  · exact h
  · intro i hi j hj
    have hi' : i < r := hi
    have hj' : j < c := hj
    rw [Mat.get_ofFn hi' hj']
    exact h _ (by omega) _ (by omega)

theorem crop_size (hv : ValidParams p) {s : ℕ} {x : Mat α} (hx : Fits p s x) : (cropOf p s x).rows * (cropOf p s x).cols ≤ padSize p := by
  obtain ⟨l1, l2⟩ := scaled_le hv hx
  refine le_trans ?_ (size_le hx)
  unfold cropOf
  simp only
  split_ifs
  · exact le_rfl
  · exact Nat.mul_le_mul l1 l2

/-- The division by the gain is correctly rounded. -/
def GainOk (sc : Scalars α u ω Ω) (kF : Kit α) (u' ω' : ℝ) : Prop :=
  ∀ (b : Bool) (s : ℕ) (x : α), sc.fin x → |sc.val x| ≤ Ω → sc.fin (kF.divFactor b s x) ∧
    |sc.val (kF.divFactor b s x) - sc.val x / (if b then 2 else Real.sqrt 2) ^ s| ≤ u' * |sc.val x / (if b then 2 else Real.sqrt 2) ^ s| + ω'

theorem gain_eq (hv : ValidParams p) (s : ℕ) : (if (p.dimension == 2) = true then (2 : ℝ) else Real.sqrt 2) ^ s = Real.sqrt 2 ^ (p.dimension * s) := by
  rcases dim_cases hv with h1 | h1
  · rw [h1]; simp
  · rw [h1, pow_mul, Real.sq_sqrt (by norm_num)]; simp

theorem finish_apart (hv : ValidParams p) (hg : ∀ f s (x : ℝ), k.divFactor f s x = x / (if f then 2 else Real.sqrt 2) ^ s)
    {u' ω' : ℝ} (hu : 0 ≤ u') (hω : 0 ≤ ω') (hgF : GainOk sc kF u' ω') {s : ℕ} {m : Mat α} (hm : Fits p s m) (hf : FinV sc m) {M : Mat ℝ} (hM : Fits p s M)
    (hΩ : s ≠ 0 → nrm (m.map sc.val) ≤ Ω) :
    (finishP kF p s m).rows = (finishP k p s M).rows ∧ (finishP kF p s m).cols = (finishP k p s M).cols ∧ FinV sc (finishP kF p s m) ∧
    nrm (msub ((finishP kF p s m).map sc.val) (finishP k p s M)) ≤ nrm (msub (m.map sc.val) M) / Real.sqrt 2 ^ (p.dimension * s) +
      (if s = 0 then 0 else u' * nrm (m.map sc.val) / Real.sqrt 2 ^ (p.dimension * s) + ω' * Real.sqrt (padSize p)) := by
  have e1 := nrm_crop_le' hv (a := m.map sc.val) hm hM
  rw [← crop_V' hv hm] at e1
  have f1 := fin_crop' hv hm hf
  have n1 : nrm ((cropOf p s m).map sc.val) ≤ nrm (m.map sc.val) := by
    rw [crop_V' hv hm]
    exact Real.sqrt_le_sqrt (energy_crop hv (m := m.map sc.val) hm)
  have sz := crop_size hv hm
  have d : (cropOf p s m).rows = (cropOf p s M).rows ∧ (cropOf p s m).cols = (cropOf p s M).cols := by
    unfold cropOf
    simp only
    split_ifs
    · exact ⟨by rw [hm.1, hM.1], by rw [hm.2, hM.2]⟩
    · exact ⟨rfl, rfl⟩
  unfold finishP
  by_cases h0 : s = 0
  · subst h0
    simp only [gt_iff_lt, lt_irrefl, if_false, Nat.mul_zero, pow_zero, div_one, if_true, add_zero]
    exact ⟨d.1, d.2, f1, e1⟩
  rw [if_pos (by omega), if_pos (by omega), if_neg h0]
  generalize cropOf p s m = y at *
  generalize cropOf p s M = Y at *
  rw [← gain_eq hv]
  set b := (p.dimension == 2) with hb
  set g : ℝ := (if b = true then (2 : ℝ) else Real.sqrt 2) ^ s with hgd
  have hg0 : 0 < g := by
    rw [hgd]
    refine pow_pos ?_ _
    split_ifs
    · norm_num
    · exact Real.sqrt_pos.2 (by norm_num)
  have key : ∀ i < y.rows, ∀ j < y.cols, sc.fin (kF.divFactor b s (y.get i j)) ∧
      |sc.val (kF.divFactor b s (y.get i j)) - sc.val (y.get i j) / g| ≤ u' * |sc.val (y.get i j) / g| + ω' := by
    intro i hi j hj
    refine hgF b s _ (f1 i hi j hj) ?_
    have := abs_le_nrm (m := y.map sc.val) (i := i) (j := j) hi hj
    rw [get_V sc _ hi hj] at this
    linarith [hΩ h0]
  refine ⟨d.1, d.2, ?_, ?_⟩
  · intro i hi j hj
    have hi' : i < y.rows := hi
    have hj' : j < y.cols := hj
    rw [Mat.get_map _ _ hi' hj']
    exact (key i hi' j hj').1
  · rw [nrm_len]
    have hR : (msub ((y.map (kF.divFactor b s)).map sc.val) (Y.map (k.divFactor b s))).rows = y.rows := rfl
    have hC : (msub ((y.map (kF.divFactor b s)).map sc.val) (Y.map (k.divFactor b s))).cols = y.cols := rfl
    rw [hR, hC]
    refine le_trans (len_mono (g := fun q => 1 / g * |(msub (y.map sc.val) Y).get q.1 q.2| + (u' / g * |(y.map sc.val).get q.1 q.2| + ω')) ?_) ?_
    · intro q hq
      rw [mem_product, mem_range, mem_range] at hq
      obtain ⟨hi, hj⟩ := hq
      have hi2 : q.1 < (y.map (kF.divFactor b s)).rows := hi
      have hj2 : q.2 < (y.map (kF.divFactor b s)).cols := hj
      rw [msub_get (x := (y.map (kF.divFactor b s)).map sc.val) hi2 hj2, get_V sc _ hi2 hj2, Mat.get_map _ _ hi hj,
        Mat.get_map _ _ (by rw [← d.1]; exact hi) (by rw [← d.2]; exact hj), hg, ← hgd, msub_get (x := y.map sc.val) hi hj, get_V sc _ hi hj]
      have := (key _ hi _ hj).2
      rw [abs_div, abs_of_pos hg0] at this
      have t : sc.val (kF.divFactor b s (y.get q.1 q.2)) - Y.get q.1 q.2 / g =
          (sc.val (kF.divFactor b s (y.get q.1 q.2)) - sc.val (y.get q.1 q.2) / g) + (sc.val (y.get q.1 q.2) - Y.get q.1 q.2) / g := by ring
      rw [t]
      refine (abs_add_le _ _).trans ?_
      rw [abs_div, abs_of_pos hg0]
      rw [show 1 / g * |sc.val (y.get q.1 q.2) - Y.get q.1 q.2| = |sc.val (y.get q.1 q.2) - Y.get q.1 q.2| / g by ring,
        show u' / g * |sc.val (y.get q.1 q.2)| = u' * (|sc.val (y.get q.1 q.2)| / g) by ring]
      linarith
    · refine (len_add _ _ _).trans (add_le_add ?_ ((len_add _ _ _).trans (add_le_add ?_ ?_)))
      · rw [len_smul, abs_of_pos (by positivity)]
        have e : len (range y.rows ×ˢ range y.cols) (fun q => |(msub (y.map sc.val) Y).get q.1 q.2|) = nrm (msub (y.map sc.val) Y) := by
          rw [nrm_len]; unfold len; simp only [abs_mul_abs_self]; rfl
        rw [e, show 1 / g * nrm (msub (y.map sc.val) Y) = nrm (msub (y.map sc.val) Y) / g by ring]
        exact div_le_div_of_nonneg_right e1 hg0.le
      · rw [len_smul, abs_of_nonneg (by positivity)]
        have e : len (range y.rows ×ˢ range y.cols) (fun q => |(y.map sc.val).get q.1 q.2|) = nrm (y.map sc.val) := by
          rw [nrm_len]; unfold len; simp only [abs_mul_abs_self]; rfl
        rw [e, show u' / g * nrm (y.map sc.val) = u' * nrm (y.map sc.val) / g by ring]
        exact div_le_div_of_nonneg_right (mul_le_mul_of_nonneg_left n1 hu) hg0.le
      · rw [len_const _ _ hω]
        refine mul_le_mul_of_nonneg_left (Real.sqrt_le_sqrt ?_) hω
        exact_mod_cast sz

/-! ### one channel -/

theorem nit_apart_mono {A G T q q' : ℝ} (hA : 1 ≤ A) (hAG : A ≤ G) (k : ℕ) (h : q ≤ q') :
    nit G T k q - A ^ k * q ≤ nit G T k q' - A ^ k * q' := by
  unfold nit
  have := mul_le_mul_of_nonneg_left h (show 0 ≤ G ^ k - A ^ k by have := pow_le_pow_left₀ (show 0 ≤ A by linarith) hAG k; linarith)
  linarith

theorem pad_fin (hv : ValidParams p) {x : Mat α} (hx : Shaped p x) {M : ℝ} (hM : 0 ≤ M)
    (hb : ∀ i < x.rows, ∀ j < x.cols, sc.fin (x.get i j) ∧ |sc.val (x.get i j)| ≤ M) :
    FinV sc (padOf p x) ∧ nrm ((padOf p x).map sc.val) ≤ Real.sqrt (padSize p) * M := by
  have fp := fits_padOf hv hx
  refine ⟨?_, nrm_le_const hM ?_ (size_le fp)⟩
  · intro i hi j hj
    obtain ⟨a, ha, b, hb', e1, _⟩ := pad_get hv hx hi hj
    rw [e1]
    exact (hb a ha b hb').1
  · intro i hi j hj
    have hi' : i < (padOf p x).rows := hi
    have hj' : j < (padOf p x).cols := hj
    obtain ⟨a, ha, b, hb', e1, _⟩ := pad_get hv hx hi' hj'
    rw [get_V sc _ hi' hj', e1]
    exact (hb a ha b hb').2

/-- The coefficients of one channel. -/
theorem chan_apart (hv : ValidParams p) (hk : FilterLen k p)
    (c : p.steps ≠ 0 → Coef sc η S p.wtype (scaling kF p) (scaling k p)) {τ q : ℝ} (hτ0 : 0 ≤ τ)
    (hτ : lw u ω p.wtype * Real.sqrt (padSize p) ≤ τ) {x : Mat α} (hx : Shaped p x) (hf : FinV sc (padOf p x))
    (hq : nrm ((padOf p x).map sc.val) ≤ q)
    (hΩ : p.steps ≠ 0 → gr u ω η S p.wtype (nit (sg u η S p (scaling k p)) (st u η S τ p (scaling k p)) p.steps q) ≤ Ω) :
    (∀ m ∈ chanP p (scaling kF p) nullDenoiser x, FinV sc m) ∧
    total p (chanP p (scaling k p) nullDenoiser (x.map sc.val)) ≤ sa p (scaling k p) ^ p.steps * q ∧
    apart p (VL sc (chanP p (scaling kF p) nullDenoiser x)) (chanP p (scaling k p) nullDenoiser (x.map sc.val)) ≤
      if p.steps = 0 then 0 else
        nit (sg u η S p (scaling k p)) (st u η S τ p (scaling k p)) p.steps q - sa p (scaling k p) ^ p.steps * q := by
  have hxV : Shaped p (x.map sc.val) := hx
  have fp := fits_padOf hv hx
  have fpR := fits_padOf hv hxV
  have hn := nrm_nonneg ((padOf p x).map sc.val)
  have szF := chanP_sized (k := kF) hv nullDenoiser_sized hx
  have szR := chanP_sized (k := k) hv nullDenoiser_sized hxV
  have ha := one_le_pa p.wtype (scaling k p)
  have hA : 1 ≤ sa p (scaling k p) := by unfold sa; split_ifs <;> nlinarith
  have eF : ∀ s < p.steps, ∀ q < subbandsPerWT p, (chanP p (scaling kF p) nullDenoiser x).getD (s * subbandsPerWT p + q) default =
      (detailStep p (scaling kF p) nullDenoiser s (sig p (scaling kF p) (padOf p x) s)).getD q default := fun s hs q hq => chanP_detail _ _ _ _ hs hq _
  have eR : ∀ s < p.steps, ∀ q < subbandsPerWT p, (chanP p (scaling k p) nullDenoiser (x.map sc.val)).getD (s * subbandsPerWT p + q) default =
      (detailStep p (scaling k p) nullDenoiser s (sig p (scaling k p) (padOf p (x.map sc.val)) s)).getD q default :=
    fun s hs q hq => chanP_detail _ _ _ _ hs hq _
  have tot : total p (chanP p (scaling k p) nullDenoiser (x.map sc.val)) ≤ sa p (scaling k p) ^ p.steps * q := by
    have h0 : 0 ≤ sa p (scaling k p) ^ p.steps * q := by have := hn.trans hq; positivity
    refine abs_le_of_sq_le_sq' ?_ h0 |>.2
    rw [sq, sq, total, len_sq, sum_subbands]
    simp only [nrm_sq]
    rw [chanP_last, sum_congr rfl fun s hs => sum_congr rfl fun q hq => by rw [eR s (mem_range.1 hs) q (mem_range.1 hq)], add_comm]
    refine (energy_chan_le (k := k) hv hk fpR le_rfl).trans ?_
    rw [← sa_sq, ← pad_V hv hx, ← nrm_sq, mul_pow]
    have := mul_self_le_mul_self (by positivity) (mul_le_mul_of_nonneg_left hq (show 0 ≤ sa p (scaling k p) ^ p.steps by positivity))
    linarith
  by_cases h0 : p.steps = 0
  · have e1 : ∀ (β : Type) [Zero β] [Add β] [Mul β] [Neg β] [Inhabited β] (f : List β) (y : Mat β), chanP p f nullDenoiser y = [padOf p y] := by
      intro β _ _ _ _ _ f y
      simp only [chanP, h0, List.range_zero, List.flatMap_nil, List.nil_append, sig]
    refine ⟨?_, tot, ?_⟩
    · intro m hm
      rw [e1, List.mem_singleton] at hm
      subst hm
      exact hf
    · rw [if_pos h0, e1, e1]
      have e2 : VL sc [padOf p x] = [padOf p (x.map sc.val)] := by simp [VL, pad_V hv hx]
      rw [e2]
      unfold apart
      refine le_of_eq ?_
      have : len (range (decompositionSize p)) (fun i => nrm (msub (([padOf p (x.map sc.val)] : List (Mat ℝ)).getD i default)
          (([padOf p (x.map sc.val)] : List (Mat ℝ)).getD i default))) = len (range (decompositionSize p)) (fun _ => 0) :=
        len_congr fun i _ => nrm_msub_self _
      rw [this]; simp [len]
  · have cc := c h0
    obtain ⟨_, hAG, hT⟩ := cc.sides hτ0
    have hG := hA.trans hAG
    have hΩ' : gr u ω η S p.wtype (nit (sg u η S p (scaling k p)) (st u η S τ p (scaling k p)) p.steps (nrm ((padOf p x).map sc.val))) ≤ Ω :=
      (gr_mono' cc (nit_mono (by linarith) _ hq)).trans (hΩ h0)
    have sgn := sig_norm hv cc hτ0 hτ hf fp hΩ'
    refine ⟨?_, tot, ?_⟩
    · intro m hm
      rw [chanP, List.mem_append, List.mem_flatMap, List.mem_singleton] at hm
      rcases hm with ⟨s, hs, hm⟩ | rfl
      · rw [List.mem_range] at hs
        obtain ⟨q, hq, rfl⟩ := List.mem_iff_getElem.1 hm
        have hq' : q < subbandsPerWT p := by rwa [length_detailStep] at hq
        have := ((sgn s hs.le hs.le).2.2 hs hs q hq').1
        rwa [List.getD, List.getElem?_eq_getElem hq] at this
      · exact (sgn _ le_rfl le_rfl).1
    · rw [if_neg h0]
      refine le_trans ?_ (nit_apart_mono hA hAG p.steps hq)
      have key := sig_apart hv hk cc hτ0 hτ hf fp hΩ' p.steps le_rfl le_rfl
      have hge := nit_ge_pow hA hAG hT hn p.steps
      refine abs_le_of_sq_le_sq' ?_ (by linarith) |>.2
      rw [sq, sq, apart, len_sq, sum_subbands]
      simp only [nrm_sq, getD_VL]
      rw [chanP_last, chanP_last, sum_congr rfl fun s hs => sum_congr rfl fun q hq => by
        rw [eF s (mem_range.1 hs) q (mem_range.1 hq), eR s (mem_range.1 hs) q (mem_range.1 hq)], ← pad_V hv hx]
      exact key

/-- The composition of one channel at a scale. -/
theorem out_apart (hv : ValidParams p) (hk : FilterLen k p)
    (c : p.steps ≠ 0 → Coef sc η S p.wtype (scaling kF p) (scaling k p)) {τ : ℝ} (hτ0 : 0 ≤ τ)
    (hτ : lw u ω p.wtype * Real.sqrt (padSize p) ≤ τ) {ch : Channel α} (hch : SizedChan p ch) (hfin : ∀ m ∈ ch, FinV sc m)
    {Q : ℝ} (hQ0 : 0 ≤ Q) (hQ : total p (VL sc ch) ≤ Q) {s : ℕ} (hs : s ≤ p.steps)
    (hg : ∀ f s (x : ℝ), k.divFactor f s x = x / (if f then 2 else Real.sqrt 2) ^ s)
    {u' ω' : ℝ} (hu' : 0 ≤ u') (hω' : 0 ≤ ω') (hgF : GainOk sc kF u' ω')
    (hΩ : p.steps ≠ 0 → gr u ω η S p.wtype (nit (sg u η S p (scaling k p)) (st u η S τ p (scaling k p)) (p.steps - s) Q) ≤ Ω)
    (hΩ' : s ≠ 0 → (if p.steps = s then Q else nit (sg u η S p (scaling k p)) (st u η S τ p (scaling k p)) (p.steps - s) Q) ≤ Ω) :
    (outP kF p s ch).rows = (outP k p s (VL sc ch)).rows ∧ (outP kF p s ch).cols = (outP k p s (VL sc ch)).cols ∧ FinV sc (outP kF p s ch) ∧
    nrm (msub ((outP kF p s ch).map sc.val) (outP k p s (VL sc ch))) ≤
      (if p.steps = s then 0 else nit (sg u η S p (scaling k p)) (st u η S τ p (scaling k p)) (p.steps - s) Q -
        sa p (scaling k p) ^ (p.steps - s) * Q) / Real.sqrt 2 ^ (p.dimension * s) +
      (if s = 0 then 0 else u' * (if p.steps = s then Q else nit (sg u η S p (scaling k p)) (st u η S τ p (scaling k p)) (p.steps - s) Q) /
        Real.sqrt 2 ^ (p.dimension * s) + ω' * Real.sqrt (padSize p)) := by
  have hV := sized_VL (sc := sc) hch
  have hgp : 0 < Real.sqrt 2 ^ (p.dimension * s) := pow_pos (Real.sqrt_pos.2 (by norm_num)) _
  have hQ2 : ((VL sc ch).map energy).sum ≤ Q * Q := by
    rw [← total_sq hV.1]
    exact mul_self_le_mul_self (total_nonneg _ _) hQ
  have hlast : p.steps * subbandsPerWT p < decompositionSize p := by
    have hpos : 0 < subbandsPerWT p := by unfold subbandsPerWT; split_ifs <;> omega
    unfold decompositionSize; omega
  unfold outP reconP
  have main : Fits p s (reconFrom p (scaling kF p) ch (p.steps - s) p.steps (ch.getD (p.steps * subbandsPerWT p) default)) ∧
      FinV sc (reconFrom p (scaling kF p) ch (p.steps - s) p.steps (ch.getD (p.steps * subbandsPerWT p) default)) ∧
      Fits p s (reconFrom p (scaling k p) (VL sc ch) (p.steps - s) p.steps ((VL sc ch).getD (p.steps * subbandsPerWT p) default)) ∧
      nrm (msub ((reconFrom p (scaling kF p) ch (p.steps - s) p.steps (ch.getD (p.steps * subbandsPerWT p) default)).map sc.val)
        (reconFrom p (scaling k p) (VL sc ch) (p.steps - s) p.steps ((VL sc ch).getD (p.steps * subbandsPerWT p) default))) ≤
        (if p.steps = s then 0 else nit (sg u η S p (scaling k p)) (st u η S τ p (scaling k p)) (p.steps - s) Q -
        sa p (scaling k p) ^ (p.steps - s) * Q) ∧
      nrm ((reconFrom p (scaling kF p) ch (p.steps - s) p.steps (ch.getD (p.steps * subbandsPerWT p) default)).map sc.val) ≤
        (if p.steps = s then Q else nit (sg u η S p (scaling k p)) (st u η S τ p (scaling k p)) (p.steps - s) Q) := by
    by_cases h0 : p.steps = s
    · rw [if_pos h0, if_pos h0, show p.steps - s = 0 by omega]
      simp only [reconFrom]
      refine ⟨h0 ▸ hch.2.2, ?_, h0 ▸ hV.2.2, ?_, ?_⟩
      · have : p.steps * subbandsPerWT p < ch.length := by rw [hch.1]; exact hlast
        rw [List.getD, List.getElem?_eq_getElem this]
        exact hfin _ (List.getElem_mem _)
      · rw [getD_VL, nrm_msub_self]
      · rw [← getD_VL]
        refine le_trans ?_ hQ
        unfold total
        have := abs_le_len (S := range (decompositionSize p)) (fun i => nrm ((VL sc ch).getD i default)) (mem_range.2 hlast)
        rwa [abs_of_nonneg (nrm_nonneg _)] at this
    · rw [if_neg h0, if_neg h0]
      obtain ⟨r1, r2, r3, r4, r5⟩ := recon_apart hv hk (c (by omega)) hτ0 hτ hch hfin hQ0 hQ2 (hΩ (by omega)) (p.steps - s) (by omega) le_rfl
      rw [show p.steps - (p.steps - s) = s by omega] at r1 r3
      refine ⟨r1, r2, r3, r5, ?_⟩
      generalize reconFrom p (scaling kF p) ch (p.steps - s) p.steps (ch.getD (p.steps * subbandsPerWT p) default) = y at *
      generalize reconFrom p (scaling k p) (VL sc ch) (p.steps - s) p.steps ((VL sc ch).getD (p.steps * subbandsPerWT p) default) = Y at *
      have := nrm_comb (comb_msub (X := y.map sc.val) (Y := Y) (by rw [r3.1]; exact r1.1) (by rw [r3.2]; exact r1.2))
      linarith
  obtain ⟨m1, m2, m3, m4, m5⟩ := main
  obtain ⟨f1, f2, f3, f4⟩ := finish_apart (k := k) (kF := kF) hv hg hu' hω' hgF m1 m2 m3 (fun h => m5.trans (hΩ' h))
  refine ⟨f1, f2, f3, f4.trans (add_le_add (div_le_div_of_nonneg_right m4 hgp.le) ?_)⟩
  split_ifs with h0 h1
  · exact le_rfl
  · rw [if_pos h1] at m5
    exact add_le_add (div_le_div_of_nonneg_right (mul_le_mul_of_nonneg_left m5 hu') hgp.le) le_rfl
  · rw [if_neg h1] at m5
    exact add_le_add (div_le_div_of_nonneg_right (mul_le_mul_of_nonneg_left m5 hu') hgp.le) le_rfl

theorem nit_add (G T : ℝ) (k : ℕ) (a b : ℝ) : nit G T k (a + b) = G ^ k * a + nit G T k b := by
  unfold nit
  ring

theorem nit_nit (G T q : ℝ) (k m : ℕ) : nit G T k (nit G T m q) = nit G T (k + m) q := by
  induction m generalizing q with
  | zero => rw [nit_zero, Nat.add_zero]
  | succ m ih => rw [← nit_succ', ih, nit_succ', Nat.add_assoc]

/-- Down, a change of the coefficients, and back; the arithmetic may be another one on the way back. -/
theorem trip_changed2 {α' : Type} [Zero α'] [Add α'] [Mul α'] [Neg α'] [Inhabited α'] {sc' : Scalars α' u ω Ω} {kF' : Kit α'} (hv : ValidParams p) (hk : FilterLen k p)
    (c : p.steps ≠ 0 → Coef sc η S p.wtype (scaling kF p) (scaling k p)) 
    (c' : p.steps ≠ 0 → Coef sc' η S p.wtype (scaling kF' p) (scaling k p)) {τ q P : ℝ} (hτ0 : 0 ≤ τ)
    (hτ : lw u ω p.wtype * Real.sqrt (padSize p) ≤ τ) {x : Mat α} (hx : Shaped p x) (hf : FinV sc (padOf p x))
    (hq : nrm ((padOf p x).map sc.val) ≤ q) (hP0 : 0 ≤ P) {ch : Channel α'} (hch : SizedChan p ch) (hfin : ∀ m ∈ ch, FinV sc' m)
    (hP : apart p (VL sc' ch) (VL sc (chanP p (scaling kF p) nullDenoiser x)) ≤ P)
    (hg : ∀ f s (x : ℝ), k.divFactor f s x = x / (if f then 2 else Real.sqrt 2) ^ s)
    {u' ω' : ℝ} (hu' : 0 ≤ u') (hω' : 0 ≤ ω') (hgF : GainOk sc' kF' u' ω')
    (hΩ : p.steps ≠ 0 → gr u ω η S p.wtype (nit (sg u η S p (scaling k p)) (st u η S τ p (scaling k p)) (2 * p.steps) q +
      sg u η S p (scaling k p) ^ p.steps * P) ≤ Ω) :
    (outP kF' p 0 ch).rows = x.rows ∧ (outP kF' p 0 ch).cols = x.cols ∧ FinV sc' (outP kF' p 0 ch) ∧
    nrm (msub ((outP kF' p 0 ch).map sc'.val) (x.map sc.val)) ≤
      if p.steps = 0 then P else nit (sg u η S p (scaling k p)) (st u η S τ p (scaling k p)) (2 * p.steps) q - q +
        sg u η S p (scaling k p) ^ p.steps * P := by
  have hxV : Shaped p (x.map sc.val) := hx
  have hn := nrm_nonneg ((padOf p x).map sc.val)
  have hq0 := hn.trans hq
  have szF := chanP_sized (k := kF) hv nullDenoiser_sized hx
  have szR := chanP_sized (k := k) hv nullDenoiser_sized hxV
  have szFV := sized_VL (sc := sc) szF
  have hchV := sized_VL (sc := sc') hch
  have ha := one_le_pa p.wtype (scaling k p)
  have hA : 1 ≤ sa p (scaling k p) := by unfold sa; split_ifs <;> nlinarith
  have hG : p.steps ≠ 0 → 1 ≤ sg u η S p (scaling k p) ∧ 0 ≤ st u η S τ p (scaling k p) ∧ sa p (scaling k p) ≤ sg u η S p (scaling k p) := by
    intro h
    obtain ⟨h1, h2, h3⟩ := (c h).sides hτ0
    exact ⟨h1.trans h2, h3, h2⟩
  obtain ⟨c1, c2, c3⟩ := chan_apart (q := q) hv hk c hτ0 hτ hx hf hq (by
    intro h0
    obtain ⟨g1, g2, _⟩ := hG h0
    refine (gr_mono' (c h0) ?_).trans (hΩ h0)
    have := nit_le g1 g2 hq0 (show p.steps ≤ 2 * p.steps by omega)
    have : 0 ≤ sg u η S p (scaling k p) ^ p.steps * P := by positivity
    linarith)
  set F := scaling k p with hF
  set A := sa p F with hAdef
  set G := sg u η S p F with hGdef
  set T := st u η S τ p F with hTdef
  set D := chanP p F nullDenoiser (x.map sc.val) with hD
  set E := VL sc (chanP p (scaling kF p) nullDenoiser x) with hE
  -- distances of the coefficients
  have a1 := apart_tri hchV szFV szR
  have a2 := total_le hchV szR
  have crop := cropOf_padOf hv hxV
  have eo : ∀ (β : Type) [Zero β] [Add β] [Mul β] [Neg β] [Inhabited β] (kk : Kit β) (cc : Channel β), outP kk p 0 cc =
      cropOf p 0 (reconP p (scaling kk p) 0 cc) := by
    intro β _ _ _ _ _ kk cc
    unfold outP finishP
    rw [if_neg (by omega)]
  -- exact stability
  have st0 := out_stable (k := k) hv hk hg hchV szR (Nat.zero_le p.steps)
  obtain ⟨s1, s2⟩ := st0
  rw [← apart_sq hchV szR, Nat.sub_zero, Nat.mul_zero, pow_zero, div_one, ← sa_sq, ← hAdef] at s2
  have s3 : nrm (msub (outP k p 0 (VL sc' ch)) (outP k p 0 D)) ≤ A ^ p.steps * apart p (VL sc' ch) D := by
    refine abs_le_of_sq_le_sq' ?_ (mul_nonneg (by positivity) (apart_nonneg _ _ _)) |>.2
    rw [sq, sq, nrm_sq, ← sqDist_energy (comb_diff s1.1.symm s1.2.symm)]
    refine s2.trans (le_of_eq ?_)
    rw [mul_pow]; ring
  -- exact round trip
  have fitD := (composeChannel_ok hv hk (d := [D]) (ch := 0) (Nat.zero_le p.steps) (by simp) szR).2
  simp only [List.getD, List.getElem?_cons_zero, Option.getD_some] at fitD
  have r1 := roundtrip_err (k := k) hv hk hxV
  rw [← sa_sq, ← hAdef] at r1
  have r2 := nrm_crop_le' hv fitD (fits_padOf hv hxV)
  rw [← hF, crop] at r2
  rw [hF, ← eo ℝ k D] at r2
  have hAK : 1 ≤ (A * A) ^ p.steps := one_le_pow₀ (by nlinarith)
  have r3 : nrm (msub (outP k p 0 D) (x.map sc.val)) ≤ ((A * A) ^ p.steps - 1) * q := by
    refine r2.trans (r1.trans ?_)
    rw [← pad_V hv hx]
    exact mul_le_mul_of_nonneg_left hq (by linarith)
  have dimD : (outP k p 0 D).rows = x.rows ∧ (outP k p 0 D).cols = x.cols := by
    have hmap : p.shape.map (· / 2 ^ 0) = p.shape := by simp
    have sz := finishP_size (k := k) hv (Nat.zero_le _) fitD
    rw [hmap] at sz
    exact ⟨sz.1.trans hx.1.symm, sz.2.trans hx.2.symm⟩
  have fin : ∀ {e : ℝ}, (outP kF' p 0 ch).rows = (outP k p 0 (VL sc' ch)).rows → (outP kF' p 0 ch).cols = (outP k p 0 (VL sc' ch)).cols →
      nrm (msub ((outP kF' p 0 ch).map sc'.val) (outP k p 0 (VL sc' ch))) ≤ e →
      (outP kF' p 0 ch).rows = x.rows ∧ (outP kF' p 0 ch).cols = x.cols ∧
      nrm (msub ((outP kF' p 0 ch).map sc'.val) (x.map sc.val)) ≤ e + A ^ p.steps * apart p (VL sc' ch) D + ((A * A) ^ p.steps - 1) * q := by
    intro e h1 h2 h3
    have d1 : (outP kF' p 0 ch).rows = x.rows := by rw [h1, s1.1, dimD.1]
    have d2 : (outP kF' p 0 ch).cols = x.cols := by rw [h2, s1.2, dimD.2]
    refine ⟨d1, d2, ?_⟩
    have t1 := nrm_tri (X := (outP kF' p 0 ch).map sc'.val) (Y := outP k p 0 (VL sc' ch)) (Z := x.map sc.val) h1 h2 (by rw [← h1]; exact d1)
      (by rw [← h2]; exact d2)
    have t2 := nrm_tri (X := outP k p 0 (VL sc' ch)) (Y := outP k p 0 D) (Z := x.map sc.val) s1.1 s1.2 dimD.1 dimD.2
    linarith
  by_cases h0 : p.steps = 0
  · rw [if_pos h0] at c3 ⊢
    obtain ⟨o1, o2, o3, o4⟩ := out_apart (k := k) (kF := kF') (s := 0) hv hk c' hτ0 hτ hch hfin (total_nonneg p (VL sc' ch)) le_rfl (by omega) hg hu' hω' hgF
      (fun h => absurd h0 h) (fun h => absurd rfl h)
    rw [if_pos h0, if_pos rfl] at o4
    obtain ⟨z1, z2, z3⟩ := fin o1 o2 o4
    refine ⟨z1, z2, o3, z3.trans ?_⟩
    rw [h0]
    simp only [Nat.mul_zero, pow_zero]
    linarith
  · rw [if_neg h0] at c3 ⊢
    obtain ⟨g1, g2, g3⟩ := hG h0
    have tot : total p (VL sc' ch) ≤ P + nit G T p.steps q := by linarith
    have en : nit G T p.steps (P + nit G T p.steps q) = nit G T (2 * p.steps) q + G ^ p.steps * P := by
      rw [nit_add, nit_nit, show p.steps + p.steps = 2 * p.steps by ring, add_comm]
    have hQ0 : 0 ≤ P + nit G T p.steps q := (total_nonneg _ _).trans tot
    obtain ⟨o1, o2, o3, o4⟩ := out_apart (k := k) (kF := kF') (s := 0) (Q := P + nit G T p.steps q) hv hk c' hτ0 hτ hch hfin hQ0 tot (by omega) hg hu' hω' hgF
      (fun h => by rw [Nat.sub_zero, ← hF, ← hGdef, ← hTdef, en]; exact hΩ h) (fun h => absurd rfl h)
    rw [if_neg h0, if_pos rfl, Nat.sub_zero, ← hF, ← hAdef, ← hGdef, ← hTdef, en, Nat.mul_zero, pow_zero, div_one, add_zero] at o4
    obtain ⟨z1, z2, z3⟩ := fin o1 o2 o4
    refine ⟨z1, z2, o3, z3.trans ?_⟩
    have h5 : apart p (VL sc' ch) D ≤ P + (nit G T p.steps q - A ^ p.steps * q) := by linarith
    have h6 := mul_le_mul_of_nonneg_left h5 (show 0 ≤ A ^ p.steps by positivity)
    rw [mul_pow]
    nlinarith

/-- Down, a change of the coefficients, and back. -/
theorem trip_changed (hv : ValidParams p) (hk : FilterLen k p)
    (c : p.steps ≠ 0 → Coef sc η S p.wtype (scaling kF p) (scaling k p)) {τ q P : ℝ} (hτ0 : 0 ≤ τ)
    (hτ : lw u ω p.wtype * Real.sqrt (padSize p) ≤ τ) {x : Mat α} (hx : Shaped p x) (hf : FinV sc (padOf p x))
    (hq : nrm ((padOf p x).map sc.val) ≤ q) (hP0 : 0 ≤ P) {ch : Channel α} (hch : SizedChan p ch) (hfin : ∀ m ∈ ch, FinV sc m)
    (hP : apart p (VL sc ch) (VL sc (chanP p (scaling kF p) nullDenoiser x)) ≤ P)
    (hg : ∀ f s (x : ℝ), k.divFactor f s x = x / (if f then 2 else Real.sqrt 2) ^ s)
    {u' ω' : ℝ} (hu' : 0 ≤ u') (hω' : 0 ≤ ω') (hgF : GainOk sc kF u' ω')
    (hΩ : p.steps ≠ 0 → gr u ω η S p.wtype (nit (sg u η S p (scaling k p)) (st u η S τ p (scaling k p)) (2 * p.steps) q +
      sg u η S p (scaling k p) ^ p.steps * P) ≤ Ω) :
    (outP kF p 0 ch).rows = x.rows ∧ (outP kF p 0 ch).cols = x.cols ∧ FinV sc (outP kF p 0 ch) ∧
    nrm (msub ((outP kF p 0 ch).map sc.val) (x.map sc.val)) ≤
      if p.steps = 0 then P else nit (sg u η S p (scaling k p)) (st u η S τ p (scaling k p)) (2 * p.steps) q - q +
        sg u η S p (scaling k p) ^ p.steps * P :=
  trip_changed2 hv hk c c hτ0 hτ hx hf hq hP0 hch hfin hP hg hu' hω' hgF hΩ

end Values

end WB
