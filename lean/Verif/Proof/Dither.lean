import Verif.Props.Noise
import Verif.Proof.Coarse

/-!
Samples as scalar products of the coefficients with the coefficients of one fixed signal.
-/

set_option linter.unusedSectionVars false

namespace WB

open Spec Finset Props MeasureTheory

/-- Picking values of white noise and multiplying them by a constant. -/
theorem white_sub {Ω : Type} [MeasurableSpace Ω] {μ : Measure Ω} {v : ℝ} {x y : Ω → List (Mat ℝ)} (hw : White μ v x) (τ φ ψ : ℕ → ℕ)
    (hτ : Function.Injective τ) (hφ : Function.Injective φ) (hψ : Function.Injective ψ) (γ : ℝ)
    (h : ∀ t i j, (∀ ω, Inside (y ω) t i j) → ∀ ω, Inside (x ω) (τ t) (φ i) (ψ j) ∧
      valueAt (y ω) t i j = γ * valueAt (x ω) (τ t) (φ i) (ψ j)) : White μ (γ ^ 2 * v) y := by
  intro t i j t' i' j' h1 h2
  obtain ⟨g1, g2⟩ := hw _ _ _ _ _ _ (fun ω => (h t i j h1 ω).1) (fun ω => (h t' i' j' h2 ω).1)
  have e : (fun ω => valueAt (y ω) t i j * valueAt (y ω) t' i' j') =
      fun ω => γ ^ 2 * (valueAt (x ω) (τ t) (φ i) (ψ j) * valueAt (x ω) (τ t') (φ i') (ψ j')) := by
    funext ω
    rw [(h t i j h1 ω).2, (h t' i' j' h2 ω).2]
    ring
  rw [e]
  refine ⟨g1.const_mul _, ?_⟩
  rw [integral_const_mul, g2]
  simp only [hτ.eq_iff, hφ.eq_iff, hψ.eq_iff]
  split_ifs <;> simp

/-- The signal with a single 1. -/
noncomputable def unitMat (p : Params) (a b : ℕ) : Mat ℝ :=
  Mat.ofFn (matRows p.shape) (matCols p.shape) fun i j => if i = a ∧ j = b then 1 else 0

theorem unitMat_shaped (p : Params) (a b : ℕ) : Shaped p (unitMat p a b) := ⟨rfl, rfl⟩

theorem dotM_unit {p : Params} {x : Mat ℝ} (hx : Shaped p x) {a b : ℕ} (ha : a < x.rows) (hb : b < x.cols) : dotM x (unitMat p a b) = x.get a b := by
  unfold dotM
  have g : ∀ i < x.rows, ∀ j < x.cols, (unitMat p a b).get i j = if i = a ∧ j = b then 1 else 0 := by
    intro i hi j hj
    exact Mat.get_ofFn (r := matRows p.shape) (c := matCols p.shape) (by rw [← hx.1]; exact hi) (by rw [← hx.2]; exact hj)
  rw [sum_eq_single a]
  · rw [sum_eq_single b]
    · rw [g a ha b hb, if_pos ⟨rfl, rfl⟩, mul_one]
    · intro j hj hne
      rw [g a ha j (mem_range.1 hj), if_neg (by tauto), mul_zero]
    · intro h; exact absurd (mem_range.2 hb) h
  · intro i hi hne
    refine sum_eq_zero fun j hj => ?_
    rw [g i (mem_range.1 hi) j (mem_range.1 hj), if_neg (by tauto), mul_zero]
  · intro h; exact absurd (mem_range.2 ha) h

/-- The places of the coefficients of a channel. -/
noncomputable def places (k : Kit ℝ) (p : Params) : Finset (Σ _ : ℕ, ℕ × ℕ) :=
  (range (decompositionSize p)).sigma fun t =>
    range ((unitChan k p 0 0 0).getD t default).rows ×ˢ range ((unitChan k p 0 0 0).getD t default).cols

theorem dotC_places {k : Kit ℝ} {p : Params} (hv : ValidParams p) {c d : Channel ℝ} (hc : SizedChan p c) (hd : SizedChan p d) :
    dotC c d = ∑ q ∈ places k p, (c.getD q.1 default).get q.2.1 q.2.2 * (d.getD q.1 default).get q.2.1 q.2.2 := by
  unfold dotC places
  rw [zipWith_sum _ (hc.1.trans hd.1.symm), hc.1, sum_sigma]
  refine sum_congr rfl fun t ht => ?_
  have hs := sized_same (unitChan_sized (k := k) hv 0 0 0) hc (mem_range.1 ht)
  rw [sum_product, hs.1, hs.2]
  rfl

theorem places_in {k : Kit ℝ} {p : Params} (hv : ValidParams p) {c : Channel ℝ} (hc : SizedChan p c) {q : Σ _ : ℕ, ℕ × ℕ} (hq : q ∈ places k p) :
    q.1 < decompositionSize p ∧ q.2.1 < (c.getD q.1 default).rows ∧ q.2.2 < (c.getD q.1 default).cols := by
  unfold places at hq
  rw [mem_sigma, mem_product] at hq
  simp only [mem_range] at hq
  obtain ⟨h1, h2, h3⟩ := hq
  have hs := sized_same (unitChan_sized (k := k) hv 0 0 0) hc h1
  exact ⟨h1, by rw [← hs.1]; exact h2, by rw [← hs.2]; exact h3⟩

section Out
variable {k : Kit ℝ} {p : Params} (hv : ValidParams p) (hf : FilterLen k p) (ho : OrthoKit k p) (hdvd : ∀ n ∈ p.shape, 2 ^ p.steps ∣ n)
include hv hf ho hdvd

theorem outP_chanP_self {x : Mat ℝ} (hx : Shaped p x) : outP k p 0 (chanP p (scaling k p) nullDenoiser x) = x := by
  unfold outP finishP
  rw [if_neg (by omega), reconP_chanP hv hf ho hx (Nat.zero_le _)]
  exact cropOf_padOf hv hx

/-- A coefficient of the signal with a single 1. -/
theorem sample_expand {c : Channel ℝ} (hc : SizedChan p c) {a b : ℕ} (ha : a < (outP k p 0 c).rows) (hb : b < (outP k p 0 c).cols) :
    (outP k p 0 c).get a b = ∑ q ∈ places k p,
      ((chanP p (scaling k p) nullDenoiser (unitMat p a b)).getD q.1 default).get q.2.1 q.2.2 * (c.getD q.1 default).get q.2.1 q.2.2 := by
  have s := (chanP_outP hv hf ho hdvd hc).1
  rw [← dotM_unit s ha hb, ← dot_adjoint hv hf ho hdvd hc (unitMat_shaped p a b),
    dotC_places (k := k) hv hc (chanP_sized hv nullDenoiser_sized (unitMat_shaped p a b))]
  exact sum_congr rfl fun q _ => mul_comm _ _

theorem unit_gram {a b a' b' : ℕ} (ha' : a' < matRows p.shape) (hb' : b' < matCols p.shape) :
    ∑ q ∈ places k p, ((chanP p (scaling k p) nullDenoiser (unitMat p a b)).getD q.1 default).get q.2.1 q.2.2 *
      ((chanP p (scaling k p) nullDenoiser (unitMat p a' b')).getD q.1 default).get q.2.1 q.2.2 = if a = a' ∧ b = b' then 1 else 0 := by
  have z := chanP_sized (k := k) hv nullDenoiser_sized (unitMat_shaped p a b)
  have z' := chanP_sized (k := k) hv nullDenoiser_sized (unitMat_shaped p a' b')
  rw [← dotC_places (k := k) hv z z', dot_adjoint hv hf ho hdvd z (unitMat_shaped p a' b'), outP_chanP_self hv hf ho hdvd (unitMat_shaped p a b),
    dotM_unit (unitMat_shaped p a b) (by exact ha') (by exact hb')]
  unfold unitMat
  rw [Mat.get_ofFn ha' hb']
  by_cases h : a = a' ∧ b = b'
  · rw [if_pos h, if_pos ⟨h.1.symm, h.2.symm⟩]
  · rw [if_neg h, if_neg (fun g => h ⟨g.1.symm, g.2.symm⟩)]

/-- White coefficients compose to white samples when nothing is padded. -/
theorem white_composed {Ω : Type} [MeasurableSpace Ω] [Nonempty Ω] {μ : Measure Ω} {v : ℝ} {d : Ω → List (Channel ℝ)} {M : ℕ}
    (hl : ∀ ω, (d ω).length = M) (hc : ∀ ω, ∀ c ∈ d ω, SizedChan p c) (hw : White μ v fun ω => (d ω).flatten) :
    White μ v fun ω => (d ω).map (outP k p 0) := by
  set N := decompositionSize p with hN
  have len : ∀ ω, ∀ c ∈ d ω, c.length = N := fun ω c h => (hc ω c h).1
  have place : ∀ n a b, (∀ ω, Inside ((d ω).map (outP k p 0)) n a b) → n < M ∧ a < matRows p.shape ∧ b < matCols p.shape := by
    intro n a b hin
    obtain ⟨m, h1, h2, h3⟩ := hin (Classical.arbitrary Ω)
    rw [List.getElem?_map] at h1
    obtain ⟨c, q1, rfl⟩ := Option.map_eq_some_iff.1 h1
    have s := (chanP_outP hv hf ho hdvd (hc _ c (List.mem_of_getElem? q1))).1
    exact ⟨by rw [← hl (Classical.arbitrary Ω)]; exact (List.getElem?_eq_some_iff.1 q1).1, by rw [← s.1]; exact h2, by rw [← s.2]; exact h3⟩
  have expand : ∀ n a b, (∀ ω, Inside ((d ω).map (outP k p 0)) n a b) → ∀ ω, valueAt ((d ω).map (outP k p 0)) n a b =
      ∑ q ∈ places k p, ((chanP p (scaling k p) nullDenoiser (unitMat p a b)).getD q.1 default).get q.2.1 q.2.2 *
        valueAt (d ω).flatten (n * N + q.1) q.2.1 q.2.2 := by
    intro n a b hin ω
    obtain ⟨m, h1, h2, h3⟩ := hin ω
    have h1' := h1
    rw [List.getElem?_map] at h1
    obtain ⟨c, q1, rfl⟩ := Option.map_eq_some_iff.1 h1
    have zc := hc ω c (List.mem_of_getElem? q1)
    have e1 : valueAt ((d ω).map (outP k p 0)) n a b = (outP k p 0 c).get a b := by
      unfold valueAt
      rw [List.getD, h1', Option.getD_some]
    rw [e1, sample_expand hv hf ho hdvd zc h2 h3]
    refine sum_congr rfl fun q hq => ?_
    congr 1
    unfold valueAt
    rw [List.getD, List.getD, flatten_at (len ω) n q.1 (places_in hv zc hq).1, q1, Option.bind_some]
  have coef : ∀ n < M, ∀ q ∈ places k p, ∀ ω, Inside (d ω).flatten (n * N + q.1) q.2.1 q.2.2 := by
    intro n hn q hq ω
    have hlt : n < (d ω).length := by rw [hl ω]; exact hn
    have zc := hc ω _ (List.getElem_mem hlt)
    obtain ⟨g1, g2, g3⟩ := places_in hv zc hq
    have hq' : q.1 < ((d ω)[n]).length := by rw [zc.1]; exact g1
    have eg : ((d ω)[n]).getD q.1 default = ((d ω)[n])[q.1] := by rw [List.getD, List.getElem?_eq_getElem hq', Option.getD_some]
    rw [eg] at g2 g3
    refine ⟨_, ?_, g2, g3⟩
    rw [flatten_at (len ω) n q.1 g1, List.getElem?_eq_getElem hlt, Option.bind_some, List.getElem?_eq_getElem hq']
  intro n a b n' a' b' hin hin'
  obtain ⟨hn, _, _⟩ := place n a b hin
  obtain ⟨hn', ha', hb'⟩ := place n' a' b' hin'
  simp only [expand n a b hin, expand n' a' b' hin']
  obtain ⟨r1, r2⟩ := integral_sums (μ := μ) (places k p) (places k p)
    (fun q => ((chanP p (scaling k p) nullDenoiser (unitMat p a b)).getD q.1 default).get q.2.1 q.2.2)
    (fun q => ((chanP p (scaling k p) nullDenoiser (unitMat p a' b')).getD q.1 default).get q.2.1 q.2.2)
    (fun q ω => valueAt (d ω).flatten (n * N + q.1) q.2.1 q.2.2) (fun q ω => valueAt (d ω).flatten (n' * N + q.1) q.2.1 q.2.2)
    (fun q hq r hr => (hw _ _ _ _ _ _ (coef n hn q hq) (coef n' hn' r hr)).1)
  refine ⟨r1, ?_⟩
  rw [r2]
  have split : ∀ {x y : ℕ}, x < N → y < N → n * N + x = n' * N + y → n = n' ∧ x = y := by
    intro x y hx hy h
    have d1 := congrArg (· / N) h
    have d2 := congrArg (· % N) h
    simp only [Nat.mul_comm _ N, Nat.mul_add_div (by omega : 0 < N), Nat.mul_add_mod, Nat.div_eq_of_lt hx, Nat.div_eq_of_lt hy,
      Nat.mod_eq_of_lt hx, Nat.mod_eq_of_lt hy] at d1 d2
    exact ⟨by simpa using d1, d2⟩
  have lt : ∀ q ∈ places k p, q.1 < N := fun q hq => (places_in hv (unitChan_sized (k := k) hv 0 0 0) hq).1
  by_cases hnn : n = n'
  · subst hnn
    have inner : ∀ q ∈ places k p, ∑ r ∈ places k p, ((chanP p (scaling k p) nullDenoiser (unitMat p a b)).getD q.1 default).get q.2.1 q.2.2 *
          ((chanP p (scaling k p) nullDenoiser (unitMat p a' b')).getD r.1 default).get r.2.1 r.2.2 *
          ∫ ω, valueAt (d ω).flatten (n * N + q.1) q.2.1 q.2.2 * valueAt (d ω).flatten (n * N + r.1) r.2.1 r.2.2 ∂μ =
        ((chanP p (scaling k p) nullDenoiser (unitMat p a b)).getD q.1 default).get q.2.1 q.2.2 *
          ((chanP p (scaling k p) nullDenoiser (unitMat p a' b')).getD q.1 default).get q.2.1 q.2.2 * v := by
      intro q hq
      rw [sum_eq_single q]
      · rw [(hw _ _ _ _ _ _ (coef n hn q hq) (coef n hn q hq)).2, if_pos ⟨rfl, rfl, rfl⟩]
      · intro r hr hne
        rw [(hw _ _ _ _ _ _ (coef n hn q hq) (coef n hn r hr)).2, if_neg, mul_zero]
        rintro ⟨g0, g1, g2⟩
        have := (split (lt q hq) (lt r hr) g0).2
        exact hne (Sigma.ext this.symm (heq_of_eq (Prod.ext g1.symm g2.symm)))
      · intro hna; exact absurd hq hna
    rw [sum_congr rfl inner, ← sum_mul, unit_gram hv hf ho hdvd ha' hb']
    by_cases h : a = a' ∧ b = b'
    · rw [if_pos h, if_pos ⟨rfl, h⟩, one_mul]
    · rw [if_neg h, if_neg (fun g => h g.2), zero_mul]
  · rw [if_neg (by rintro ⟨g, _⟩; exact hnn g)]
    refine sum_eq_zero fun q hq => sum_eq_zero fun r hr => ?_
    rw [(hw _ _ _ _ _ _ (coef n hn q hq) (coef n' hn' r hr)).2, if_neg, mul_zero]
    rintro ⟨g, _⟩
    exact hnn (split (lt q hq) (lt r hr) g).1

end Out

/-! ### Padded parameters -/

theorem reconFrom_congr {p q : Params} (hd : p.dimension = q.dimension) (h : List ℝ) (c : Channel ℝ) (n i : ℕ) (m : Mat ℝ) :
    reconFrom p h c n i m = reconFrom q h c n i m := by
  have hs : subbandsPerWT p = subbandsPerWT q := by unfold subbandsPerWT; rw [hd]
  induction n generalizing i m with
  | zero => rfl
  | succ n ih =>
    simp only [reconFrom]
    rw [ih]
    congr 1
    unfold synthStep detailsAt
    rw [hd, hs]

theorem reconP_congr {p q : Params} (hd : p.dimension = q.dimension) (hst : p.steps = q.steps) (h : List ℝ) (s : ℕ) (c : Channel ℝ) :
    reconP p h s c = reconP q h s c := by
  have hs : subbandsPerWT p = subbandsPerWT q := by unfold subbandsPerWT; rw [hd]
  unfold reconP
  rw [reconFrom_congr hd, hst, hs]

theorem padded_length (p : Params) : (paddedShape p).length = p.shape.length := by unfold paddedShape; split_ifs <;> simp

theorem padded_dvd {p : Params} (hv : ValidParams p) {s : ℕ} (hs : s ≤ p.steps) : ∀ n ∈ paddedShape p, 2 ^ s ∣ n := by
  intro n hn
  by_cases ht : p.wtype = 0
  · have h := hv.2.2
    rw [if_pos ht] at h
    obtain rfl : s = 0 := by omega
    simp
  · rw [paddedShape_of_wavelet ht, List.mem_map] at hn
    obtain ⟨a, ha, rfl⟩ := hn
    have h1 := (valid_side hv ht ha).1
    exact dvd_trans (pow_dvd_pow 2 hs) (paddedDim_spec p.steps a (by omega)).1

theorem padded_fits {p : Params} (hv : ValidParams p) {s : ℕ} (hs : s ≤ p.steps) (t : ℕ) (m : Mat ℝ) :
    Fits { p with shape := paddedShape p, steps := s } t m ↔ Fits p t m := by
  have hd : Params.dimension { p with shape := paddedShape p, steps := s } = p.dimension := padded_length p
  unfold Fits
  rw [coarse_padded hv hs, hd]

theorem padded_sized {p : Params} (hv : ValidParams p) {c : Channel ℝ} (hc : SizedChan p c) :
    SizedChan { p with shape := paddedShape p, steps := p.steps } c := by
  have hd : Params.dimension { p with shape := paddedShape p, steps := p.steps } = p.dimension := padded_length p
  have hs : subbandsPerWT { p with shape := paddedShape p, steps := p.steps } = subbandsPerWT p := by unfold subbandsPerWT; rw [hd]
  refine ⟨?_, ?_, ?_⟩
  · rw [hc.1]; unfold decompositionSize; rw [hs]
  · intro s h j hj
    rw [hs] at hj ⊢
    exact (padded_fits hv le_rfl _ _).2 (hc.2.1 s h j hj)
  · rw [hs]
    exact (padded_fits hv le_rfl _ _).2 hc.2.2

end WB
