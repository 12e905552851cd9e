import Verif.Proof.RoundingStep

/-!
The round trip with rounded arithmetic: the error in the Euclidean norm grows by the same amount in every step.
-/

namespace WB

open Finset Spec

/-- `k` steps that multiply by `G` and add `T`. -/
noncomputable def nit (G T : ℝ) (k : ℕ) (q : ℝ) : ℝ := G ^ k * q + T * ∑ j ∈ range k, G ^ j

theorem nit_zero (G T q : ℝ) : nit G T 0 q = q := by simp [nit]

theorem nit_succ (G T q : ℝ) (k : ℕ) : nit G T (k + 1) q = G * nit G T k q + T := by
  unfold nit
  have : ∑ j ∈ range (k + 1), G ^ j = G * ∑ j ∈ range k, G ^ j + 1 := by
    rw [sum_range_succ', mul_sum]
    congr 1
    exact sum_congr rfl fun j _ => pow_succ' G j
  rw [this]
  ring

theorem nit_succ' (G T q : ℝ) (k : ℕ) : nit G T k (G * q + T) = nit G T (k + 1) q := by
  induction k with
  | zero => rw [nit_zero, nit_succ, nit_zero]
  | succ k ih => rw [nit_succ, ih, nit_succ G T q (k + 1)]

theorem nit_mono {G T q q' : ℝ} (hG : 0 ≤ G) (k : ℕ) (h : q ≤ q') : nit G T k q ≤ nit G T k q' := by
  unfold nit
  have := mul_le_mul_of_nonneg_left h (pow_nonneg hG k)
  linarith

theorem nit_grow {G T q q' : ℝ} (hG : 1 ≤ G) (k : ℕ) (h : q ≤ q') : nit G T k q - q ≤ nit G T k q' - q' := by
  unfold nit
  have := mul_le_mul_of_nonneg_left h (show 0 ≤ G ^ k - 1 by have := one_le_pow₀ hG (n := k); linarith)
  linarith

theorem nit_le_succ {G T q : ℝ} (hG : 1 ≤ G) (hT : 0 ≤ T) (hq : 0 ≤ q) (k : ℕ) : nit G T k q ≤ nit G T (k + 1) q := by
  rw [nit_succ]
  have : 0 ≤ nit G T k q := by
    unfold nit
    have : 0 ≤ ∑ j ∈ range k, G ^ j := sum_nonneg fun j _ => pow_nonneg (by linarith) j
    positivity
  nlinarith

theorem nit_le {G T q : ℝ} (hG : 1 ≤ G) (hT : 0 ≤ T) (hq : 0 ≤ q) {k m : ℕ} (h : k ≤ m) : nit G T k q ≤ nit G T m q := by
  induction m, h using Nat.le_induction with
  | base => exact le_rfl
  | succ m _ ih => exact ih.trans (nit_le_succ hG hT hq m)

section Recon
variable {α : Type} [Zero α] [Add α] [Mul α] [Neg α] [Inhabited α]

theorem reconFrom_last (p : Params) (f : List α) (c : Channel α) (n i : ℕ) (m : Mat α) :
    reconFrom p f c (n + 1) i m = synthStep p f (reconFrom p f c n i m) (detailsAt p c (i - n - 1)) := by
  induction n generalizing i m with
  | zero => rfl
  | succ n ih =>
    rw [reconFrom, ih, reconFrom]
    congr 2
    omega

end Recon

theorem nrm_low_le {p : Params} (hd : p.dimension = 1 ∨ p.dimension = 2) {r c : ℕ} {low : Mat ℝ} {ds : List (Mat ℝ)} (hp : Parts p r c low ds) :
    nrm low ≤ nrm (glue p low ds) := by
  unfold nrm
  refine Real.sqrt_le_sqrt ?_
  rw [energy_glue hd hp]
  have := sum_nonneg (s := range (subbandsPerWT p)) (f := fun q => energy (ds.getD q default)) (fun q _ => energy_nonneg _)
  linarith

theorem nrm_detail_le {p : Params} (hd : p.dimension = 1 ∨ p.dimension = 2) {r c : ℕ} {low : Mat ℝ} {ds : List (Mat ℝ)} (hp : Parts p r c low ds)
    {q : ℕ} (hq : q < subbandsPerWT p) : nrm (ds.getD q default) ≤ nrm (glue p low ds) := by
  unfold nrm
  refine Real.sqrt_le_sqrt ?_
  rw [energy_glue hd hp]
  have := single_le_sum (s := range (subbandsPerWT p)) (f := fun q => energy (ds.getD q default)) (fun q _ => energy_nonneg _) (mem_range.2 hq)
  have := energy_nonneg low
  linarith

theorem nrm_tri {X Y Z : Mat ℝ} (h1 : X.rows = Y.rows) (h2 : X.cols = Y.cols) (h3 : Y.rows = Z.rows) (h4 : Y.cols = Z.cols) :
    nrm (msub X Z) ≤ nrm (msub X Y) + nrm (msub Y Z) := by
  refine nrm_comb ⟨rfl, rfl, h1.symm, h2.symm, ?_⟩
  intro i hi j hj
  have hi' : i < X.rows := hi
  have hj' : j < X.cols := hj
  rw [msub_get hi' hj', msub_get hi' hj', msub_get (by omega) (by omega)]
  ring

section Values
variable {α : Type} [Zero α] [Add α] [Mul α] [Neg α] [Inhabited α] {u ω Ω η S : ℝ} {sc : Scalars α u ω Ω}

/-- Number of entries of a padded channel. -/
def padSize (p : Params) : ℕ := matRows (paddedShape p) * (if p.dimension = 1 then 1 else matCols (paddedShape p))

theorem size_le {p : Params} {s : ℕ} {m : Mat α} (h : Fits p s m) : m.rows * m.cols ≤ padSize p := by
  unfold padSize
  rw [h.1, h.2]
  refine Nat.mul_le_mul (Nat.div_le_self _ _) ?_
  split_ifs
  · exact le_rfl
  · exact Nat.div_le_self _ _

theorem tau_le {p : Params} {s : ℕ} {m : Mat α} (h : Fits p s m) {w τ : ℝ} (hw : 0 ≤ w) (hτ : w * Real.sqrt (padSize p) ≤ τ) :
    w * Real.sqrt (m.rows * m.cols) ≤ τ := by
  refine le_trans (mul_le_mul_of_nonneg_left (Real.sqrt_le_sqrt ?_) hw) hτ
  exact_mod_cast size_le h

variable {kF : Kit α} {k : Kit ℝ} {p : Params}

/-- The approximation after `s` steps, and the details of step `s`. -/
theorem sig_norm (hv : ValidParams p) (c : Coef sc η S p.wtype (scaling kF p) (scaling k p)) {τ : ℝ} (hτ0 : 0 ≤ τ)
    (hτ : lw u ω p.wtype * Real.sqrt (padSize p) ≤ τ) {x : Mat α} (hx : FinV sc x) (hm : Fits p 0 x) {K : ℕ}
    (hΩ : gr u ω η S p.wtype (nit (sg u η S p (scaling k p)) (st u η S τ p (scaling k p)) K (nrm (x.map sc.val))) ≤ Ω) :
    ∀ s ≤ p.steps, s ≤ K → FinV sc (sig p (scaling kF p) x s) ∧
      nrm ((sig p (scaling kF p) x s).map sc.val) ≤ nit (sg u η S p (scaling k p)) (st u η S τ p (scaling k p)) s (nrm (x.map sc.val)) ∧
      (s < p.steps → s < K → ∀ q < subbandsPerWT p, FinV sc ((detailStep p (scaling kF p) nullDenoiser s (sig p (scaling kF p) x s)).getD q default) ∧
        nrm (((detailStep p (scaling kF p) nullDenoiser s (sig p (scaling kF p) x s)).getD q default).map sc.val) ≤
          nit (sg u η S p (scaling k p)) (st u η S τ p (scaling k p)) (s + 1) (nrm (x.map sc.val))) := by
  have hg := c.one_le_pg
  have hG : 1 ≤ sg u η S p (scaling k p) := by unfold sg; split_ifs <;> nlinarith
  have hT : 0 ≤ st u η S τ p (scaling k p) := by unfold st; split_ifs <;> nlinarith
  have hn := nrm_nonneg (x.map sc.val)
  have lev : ∀ s < p.steps, s < K → FinV sc (sig p (scaling kF p) x s) →
      nrm ((sig p (scaling kF p) x s).map sc.val) ≤ nit (sg u η S p (scaling k p)) (st u η S τ p (scaling k p)) s (nrm (x.map sc.val)) →
      FinV sc (sig p (scaling kF p) x (s + 1)) ∧
      nrm ((sig p (scaling kF p) x (s + 1)).map sc.val) ≤ nit (sg u η S p (scaling k p)) (st u η S τ p (scaling k p)) (s + 1) (nrm (x.map sc.val)) ∧
      (∀ q < subbandsPerWT p, FinV sc ((detailStep p (scaling kF p) nullDenoiser s (sig p (scaling kF p) x s)).getD q default) ∧
        nrm (((detailStep p (scaling kF p) nullDenoiser s (sig p (scaling kF p) x s)).getD q default).map sc.val) ≤
          nit (sg u η S p (scaling k p)) (st u η S τ p (scaling k p)) (s + 1) (nrm (x.map sc.val))) := by
    intro s hs hK hf hb
    have fit := fits_sig (k := kF) hv hm hs.le
    have ht := wavelet_of_steps hv hs
    have hz : sg u η S p (scaling k p) * nrm ((sig p (scaling kF p) x s).map sc.val) + st u η S τ p (scaling k p) ≤
        nit (sg u η S p (scaling k p)) (st u η S τ p (scaling k p)) (s + 1) (nrm (x.map sc.val)) := by
      rw [nit_succ]
      have := mul_le_mul_of_nonneg_left hb (show 0 ≤ sg u η S p (scaling k p) by linarith)
      linarith
    obtain ⟨a1, a2, a3⟩ := ana_level hv c hτ0 hf hs fit (tau_le fit (lw_nonneg c.hu c.hω _) hτ) (hz.trans (nit_le hG hT hn (show s + 1 ≤ K by omega))) hΩ
    have hp : Parts p (lvlR p (s + 1)) (lvlC p (s + 1)) ((approxStep p (scaling kF p) (sig p (scaling kF p) x s)).map sc.val)
        (VL sc (detailStep p (scaling kF p) nullDenoiser s (sig p (scaling kF p) x s))) := by
      refine parts_of_fits (fits_approx (k := kF) hv ht hs fit) ?_
      intro q hq
      rw [getD_VL]
      exact detailStep_fits (k := kF) hv nullDenoiser_sized hs fit hq
    refine ⟨a1, (nrm_low_le (dim_cases hv) hp).trans (a3.nrm_le.trans hz), fun q hq => ⟨a2 q hq, ?_⟩⟩
    rw [← getD_VL]
    exact (nrm_detail_le (dim_cases hv) hp hq).trans (a3.nrm_le.trans hz)
  have main : ∀ s ≤ p.steps, s ≤ K → FinV sc (sig p (scaling kF p) x s) ∧
      nrm ((sig p (scaling kF p) x s).map sc.val) ≤ nit (sg u η S p (scaling k p)) (st u η S τ p (scaling k p)) s (nrm (x.map sc.val)) := by
    intro s
    induction s with
    | zero => intro _ _; exact ⟨hx, by rw [nit_zero]; exact le_rfl⟩
    | succ s ih =>
      intro h1 h2
      obtain ⟨i1, i2⟩ := ih (by omega) (by omega)
      obtain ⟨l1, l2, _⟩ := lev s (by omega) (by omega) i1 i2
      exact ⟨l1, l2⟩
  intro s h1 h2
  obtain ⟨m1, m2⟩ := main s h1 h2
  exact ⟨m1, m2, fun h3 h4 => (lev s h3 h4 m1 m2).2.2⟩

/-- From level `s` down to level `s + n` and back. -/
theorem trip_norm (hv : ValidParams p) (hk : FilterLen k p) (c : Coef sc η S p.wtype (scaling kF p) (scaling k p)) {τ : ℝ} (hτ0 : 0 ≤ τ)
    (hτ : lw u ω p.wtype * Real.sqrt (padSize p) ≤ τ) {x : Mat α} (hp0 : Fits p 0 (padOf p x)) (n : ℕ) :
    ∀ s, s + n ≤ p.steps → FinV sc (sig p (scaling kF p) (padOf p x) s) →
    gr u ω η S p.wtype (nit (sg u η S p (scaling k p)) (st u η S τ p (scaling k p)) (2 * n) (nrm ((sig p (scaling kF p) (padOf p x) s).map sc.val))) ≤ Ω →
    Fits p s (reconFrom p (scaling kF p) (chanP p (scaling kF p) nullDenoiser x) n (s + n) (sig p (scaling kF p) (padOf p x) (s + n))) ∧
    FinV sc (reconFrom p (scaling kF p) (chanP p (scaling kF p) nullDenoiser x) n (s + n) (sig p (scaling kF p) (padOf p x) (s + n))) ∧
    nrm (msub ((reconFrom p (scaling kF p) (chanP p (scaling kF p) nullDenoiser x) n (s + n) (sig p (scaling kF p) (padOf p x) (s + n))).map sc.val)
      ((sig p (scaling kF p) (padOf p x) s).map sc.val)) ≤
      nit (sg u η S p (scaling k p)) (st u η S τ p (scaling k p)) (2 * n) (nrm ((sig p (scaling kF p) (padOf p x) s).map sc.val)) -
        nrm ((sig p (scaling kF p) (padOf p x) s).map sc.val) := by
  have hg := c.one_le_pg
  have hag := c.pa_le_pg
  have ha := one_le_pa p.wtype (scaling k p)
  have hA : 1 ≤ sa p (scaling k p) := by unfold sa; split_ifs <;> nlinarith
  have hAG : sa p (scaling k p) ≤ sg u η S p (scaling k p) := by
    unfold sa sg
    split_ifs
    · exact hag
    · exact mul_le_mul hag hag (by linarith) (by linarith)
  have hG : 1 ≤ sg u η S p (scaling k p) := hA.trans hAG
  have hT : 0 ≤ st u η S τ p (scaling k p) := by unfold st; split_ifs <;> nlinarith
  have hAA := sa_sq p (scaling k p)
  set f := scaling kF p with hf
  set F := scaling k p with hF
  set A := sa p F with hAdef
  set G := sg u η S p F with hGdef
  set T := st u η S τ p F with hTdef
  set ch := chanP p f nullDenoiser x with hch
  induction n with
  | zero =>
    intro s hs hfin _
    have fit := fits_sig (k := kF) hv hp0 (show s ≤ p.steps by omega)
    refine ⟨fit, hfin, ?_⟩
    simp only [Nat.add_zero, reconFrom, Nat.mul_zero, nit_zero, sub_self]
    rw [nrm_msub_self]
  | succ n ih =>
    intro s hs hfin hΩ
    have hs' : s < p.steps := by omega
    have ht := wavelet_of_steps hv hs'
    have fit := fits_sig (k := kF) hv hp0 (show s ≤ p.steps by omega)
    rw [← hf] at fit
    rw [reconFrom_last, show s + (n + 1) - n - 1 = s by omega, show s + (n + 1) = s + 1 + n by omega, hch, detailsAt_chanP _ _ _ _ hs', ← hch]
    set y := sig p f (padOf p x) s with hy
    have hlow : sig p f (padOf p x) (s + 1) = approxStep p f y := rfl
    have hn := nrm_nonneg (y.map sc.val)
    generalize hq : nrm (y.map sc.val) = q at *
    have hz : G * q + T = nit G T 1 q := by rw [nit_succ, nit_zero]
    -- analysis
    obtain ⟨a1, a2, a3⟩ := ana_level (s := s) hv c hτ0 hfin hs' fit (tau_le fit (lw_nonneg c.hu c.hω _) hτ)
      (B := nit G T (2 * (n + 1)) q) (by rw [hq, ← hGdef, ← hTdef, hz]; exact nit_le hG hT hn (by omega)) hΩ
    rw [hq, ← hAdef, ← hGdef, ← hTdef] at a3
    have hfd : ∀ j < subbandsPerWT p, Fits p (s + 1) ((detailStep p f nullDenoiser s y).getD j default) := fun j hj =>
      detailStep_fits (k := kF) hv nullDenoiser_sized hs' fit hj
    have hpa : Parts p (lvlR p (s + 1)) (lvlC p (s + 1)) ((approxStep p f y).map sc.val) (VL sc (detailStep p f nullDenoiser s y)) := by
      refine parts_of_fits (fits_approx (k := kF) hv ht hs' fit) ?_
      intro j hj
      rw [getD_VL]
      exact hfd j hj
    have low := (nrm_low_le (dim_cases hv) hpa).trans a3.nrm_le
    -- the levels below
    have i0 := ih (s + 1) (by omega) (by rw [hlow]; exact a1) (by
      rw [hlow]
      refine (gr_mono' c ?_).trans hΩ
      refine (nit_mono (by linarith) _ low).trans ?_
      rw [nit_succ']
      exact nit_le hG hT hn (by omega))
    obtain ⟨i1, i2, i3⟩ := i0
    rw [hlow] at i3
    generalize reconFrom p f ch n (s + 1 + n) (sig p f (padOf p x) (s + 1 + n)) = r at *
    have e2 : nrm (msub (r.map sc.val) ((approxStep p f y).map sc.val)) ≤ nit G T (2 * n) (G * q + T) - (G * q + T) := i3.trans (nit_grow hG _ low)
    generalize hds : detailStep p f nullDenoiser s y = ds at *
    have hpr : Parts p (lvlR p (s + 1)) (lvlC p (s + 1)) (r.map sc.val) (VL sc ds) := by
      refine parts_of_fits i1 ?_
      intro j hj
      rw [getD_VL]
      exact hfd j hj
    have e2' := e2
    rw [← energy_msub_glue (dim_cases hv) hpr hpa] at e2'
    set Z := glue p ((approxStep p f y).map sc.val) (VL sc ds) with hZ
    set W := glue p (r.map sc.val) (VL sc ds) with hW
    have dZ1 : Z.rows = y.rows := a3.1
    have dZ2 : Z.cols = y.cols := a3.2.1
    have dW1 : W.rows = y.rows := by rw [← dZ1, hW, hZ, glue_rows, glue_rows, hpr.1, hpa.1]
    have dW2 : W.cols = y.cols := by rw [← dZ2, hW, hZ, glue_cols p hpr, glue_cols p hpa]
    rw [nit_succ'] at e2'
    have nW : nrm W ≤ nit G T (2 * n + 1) q := by
      have := nrm_comb (comb_msub (X := W) (Y := Z) (by omega) (by omega))
      linarith [a3.nrm_le]
    -- synthesis
    have hWB : G * nrm W + T ≤ nit G T (2 * (n + 1)) q := by
      rw [show 2 * (n + 1) = 2 * n + 1 + 1 by ring, nit_succ]
      have := mul_le_mul_of_nonneg_left nW (show 0 ≤ G by linarith)
      linarith
    obtain ⟨b1, b2⟩ := syn_level (s := s) hv c hτ0 hs' i2 i1 a2 hfd hW
      (by rw [dW1, dW2]; exact tau_le fit (lw_nonneg c.hu c.hω _) hτ) (B := nit G T (2 * (n + 1)) q) hWB hΩ
    rw [← hAdef, ← hGdef, ← hTdef] at b2
    have ffit := fits_synth hv f hs' i1 ds
    refine ⟨ffit, b1, ?_⟩
    generalize synthStep p f r ds = out at *
    -- exact operators
    obtain ⟨g1, g2⟩ := near_kernels (k := k) hv hk hs' (m := y.map sc.val) fit
    rw [← hF] at g1 g2
    have d1 : (y.map sc.val).rows = y.rows := rfl
    have d2 : (y.map sc.val).cols = y.cols := rfl
    rw [d1] at g1
    rw [d2] at g2
    rw [dW1, dW2] at b2
    set KH := kR p F y.rows with hKH
    set KW := kC p F y.cols with hKW
    have hfs : fullStep p F (y.map sc.val) = sepOp KH KW (y.map sc.val) := rfl
    rw [hfs] at a3
    have hsqrt : Real.sqrt (1 + dev p.wtype F) * Real.sqrt (1 + (if p.dimension = 1 then 0 else dev p.wtype F)) = A := by
      rw [sqrt_growth p (dev_nonneg _ _), ← hAA, Real.sqrt_mul_self (by linarith)]
    have hrd : out.rows = y.rows := by rw [ffit.1, fit.1]
    have hcd : out.cols = y.cols := by rw [ffit.2, fit.2]
    -- out - T W
    have t1 : nrm (msub (out.map sc.val) (sepOp (tr KH) (tr KW) W)) ≤ G * nrm W + T - A * nrm W := by linarith [b2.2.2.2]
    -- T W - T (full y)
    have t2a : nrm (msub W (sepOp KH KW (y.map sc.val))) ≤ nit G T (2 * n + 1) q - A * q := by
      have := nrm_tri (X := W) (Y := Z) (Z := sepOp KH KW (y.map sc.val)) (by omega) (by omega) a3.1 a3.2.1
      linarith [a3.2.2.2]
    have t2 : nrm (msub (sepOp (tr KH) (tr KW) W) (sepOp (tr KH) (tr KW) (sepOp KH KW (y.map sc.val)))) ≤ A * (nit G T (2 * n + 1) q - A * q) := by
      have hc := comb_sepOp (KH := tr KH) (KW := tr KW) (comb_msub (X := W) (Y := sepOp KH KW (y.map sc.val)) dW1 dW2)
      have e : msub (sepOp (tr KH) (tr KW) W) (sepOp (tr KH) (tr KW) (sepOp KH KW (y.map sc.val))) =
          sepOp (tr KH) (tr KW) (msub W (sepOp KH KW (y.map sc.val))) := by
        refine Mat.ext' rfl rfl ?_
        intro i hi j hj
        have hi' : i < (sepOp (tr KH) (tr KW) W).rows := hi
        have hj' : j < (sepOp (tr KH) (tr KW) W).cols := hj
        rw [msub_get hi' hj', hc.2.2.2.2 i hi' j hj']
        ring
      rw [e]
      have := nrm_sepOp (x := msub W (sepOp KH KW (y.map sc.val))) (KH := tr KH) (KW := tr KW)
        (show Bd W.rows _ _ by rw [dW1]; exact bd_tr (bd_of_gram g1)) (show Bd W.cols _ _ by rw [dW2]; exact bd_tr (bd_of_gram g2))
      rw [hsqrt] at this
      exact this.trans (mul_le_mul_of_nonneg_left t2a (by linarith))
    -- T (full y) - y
    have t3 : nrm (msub (sepOp (tr KH) (tr KW) (sepOp KH KW (y.map sc.val))) (y.map sc.val)) ≤ (A * A - 1) * q := by
      rw [sepOp_gram]
      have := nrm_gram_sub (x := y.map sc.val) g1 g2
      rwa [← growth_eq, hq, ← hAA] at this
    have s1 := nrm_tri (X := out.map sc.val) (Y := sepOp (tr KH) (tr KW) W) (Z := y.map sc.val) (hrd.trans dW1.symm) (hcd.trans dW2.symm) dW1 dW2
    have s2 := nrm_tri (X := sepOp (tr KH) (tr KW) W) (Y := sepOp (tr KH) (tr KW) (sepOp KH KW (y.map sc.val))) (Z := y.map sc.val) dW1 dW2 rfl rfl
    rw [show 2 * (n + 1) = 2 * n + 1 + 1 by ring, nit_succ]
    have := mul_le_mul_of_nonneg_left nW (show 0 ≤ G - A by linarith)
    nlinarith

end Values

end WB
