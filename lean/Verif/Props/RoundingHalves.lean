import Verif.Proof.RoundingHalves
import Verif.Props.RoundingNorm
import Verif.Props.Stability

/-!
C105: the rounding error of `Decompose` and of `Compose`, each on its own, and of a round trip with coefficients that were changed on the way.
-/

namespace WB.Props

open Finset Spec

/-- The division by the gain (sources/wavelet_utils.cc:428-435) is off by at most four units in the last place of a `float`. This covers a correctly
rounded division and the multiplication with a reciprocal in `float` or in `double`. -/
def DividesByGain {r : Rounding} (div : Bool → ℕ → Ov r.toFloat maxFloat → Ov r.toFloat maxFloat) : Prop :=
  ∀ (b : Bool) (s : ℕ) (v : ℝ), |v| ≤ maxFloat → ∃ y, div b s (Ov.of v) = Ov.of y ∧
    |y - v / (if b then 2 else Real.sqrt 2) ^ s| ≤ 1 / 2 ^ 22 * |v / (if b then 2 else Real.sqrt 2) ^ s| + 1 / 2 ^ 149

/-- `float` with overflow and a given division by the gain. -/
noncomputable def gainKit (r : Rounding) (div : Bool → ℕ → Ov r.toFloat maxFloat → Ov r.toFloat maxFloat) : Kit (Ov r.toFloat maxFloat) :=
  { overflowKit r with divFactor := div }

theorem gain_ge_one (b : Bool) (s : ℕ) : 1 ≤ (if b = true then (2 : ℝ) else Real.sqrt 2) ^ s := by
  refine one_le_pow₀ ?_
  split_ifs
  · norm_num
  · rw [Real.one_le_sqrt]; norm_num

theorem overflowKit_divides {r : Rounding} (hr : r.IEEE) : DividesByGain (overflowKit r).divFactor := by
  intro b s v hv
  have hg := gain_ge_one b s
  have h1 : |v / (if b = true then (2 : ℝ) else Real.sqrt 2) ^ s| ≤ maxFloat := by
    rw [abs_div, abs_of_pos (a := (if b = true then (2 : ℝ) else Real.sqrt 2) ^ s) (by linarith)]
    exact (div_le_self (abs_nonneg v) hg).trans hv
  refine ⟨_, ov_round hr h1, ?_⟩
  generalize v / (if b = true then (2 : ℝ) else Real.sqrt 2) ^ s = z at *
  have := rounds_std (by norm_num) hr.1 z
  have e1 : (2 : ℝ) ^ (-((24 : ℕ) : ℤ)) = 1 / 2 ^ 24 := by norm_num
  have e2 : (2 : ℝ) ^ ((-149 : ℤ) - 1) = 1 / 2 ^ 150 := by norm_num
  rw [e1, e2] at this
  have h0 := abs_nonneg z
  refine this.trans (add_le_add (mul_le_mul_of_nonneg_right (by norm_num) h0) (by norm_num))

theorem gainOk {r : Rounding} (hr : r.IEEE) {div : Bool → ℕ → Ov r.toFloat maxFloat → Ov r.toFloat maxFloat} (hd : DividesByGain div) :
    GainOk (ovScalars hr) (gainKit r div) (1 / 2 ^ 22) (1 / 2 ^ 149) := by
  intro b s x hx hb
  match x, hx with
  | some v, _ =>
    obtain ⟨y, h1, h2⟩ := hd b s v hb
    have e : (gainKit r div).divFactor b s (some v) = Ov.of y := h1
    rw [e]
    exact ⟨rfl, h2⟩

/-- Passes of the transform, each with its error. -/
theorem passes_code {g τ q w : ℝ} {t n : ℕ} (h1 : 1 ≤ g) (hg : g ≤ 1 + 403 / 100 * (t + 2) / 2 ^ 24) (ht : t ≤ 5) (hn : n ≤ 8000) (hq : 0 ≤ q)
    (hw : 0 ≤ w) (hτ : τ = 401 / 100 * t / 2 ^ 150 * w) :
    g ^ n ≤ 101 / 100 + 2 / 100 ∧ (n ≤ 4000 → g ^ n ≤ 101 / 100) ∧
      nit g τ n q - q ≤ 9 / 2 * (t + 2) * n / 2 ^ 24 * q + 9 / 2 * t * n / 2 ^ 150 * w := by
  have htR : (t : ℝ) ≤ 5 := by exact_mod_cast ht
  have hnR : (n : ℝ) ≤ 8000 := by exact_mod_cast hn
  have hn0 : (0 : ℝ) ≤ n := by positivity
  set ε : ℝ := 403 / 100 * (t + 2) / 2 ^ 24 with hε
  have hε0 : 0 ≤ ε := by positivity
  have hnε : (n : ℝ) * ε = 403 / 100 * ((t + 2) * n / 2 ^ 24) := by rw [hε]; ring
  have hprod : (t + 2 : ℝ) * n ≤ 7 * 8000 := mul_le_mul (by linarith) hnR hn0 (by norm_num)
  have hsmall : (n : ℝ) * ε ≤ 1 / 50 := by
    rw [hnε]
    have : (t + 2 : ℝ) * n / 2 ^ 24 ≤ 7 * 8000 / 2 ^ 24 := div_le_div_of_nonneg_right hprod (by norm_num)
    norm_num at this ⊢
    linarith
  have hpow : g ^ n ≤ 1 + 103 / 100 * (n * ε) := (pow_le_pow_left₀ (by linarith) hg n).trans (pow_near hε0 hsmall)
  have hpow2 : g ^ n ≤ 11 / 10 := by linarith
  have hsum : ∑ j ∈ range n, g ^ j ≤ n * (11 / 10) := by
    calc _ ≤ ∑ _j ∈ range n, (11 / 10 : ℝ) := sum_le_sum fun j hj => (pow_le_pow_right₀ h1 (mem_range.1 hj).le).trans hpow2
      _ = _ := by simp
  have hτ0 : 0 ≤ τ := by rw [hτ]; positivity
  have hz0 : (0 : ℝ) ≤ (t + 2) * n / 2 ^ 24 := by positivity
  refine ⟨by linarith, ?_, ?_⟩
  · intro h4
    have h4R : (n : ℝ) ≤ 4000 := by exact_mod_cast h4
    have : (t + 2 : ℝ) * n / 2 ^ 24 ≤ 7 * 4000 / 2 ^ 24 :=
      div_le_div_of_nonneg_right (mul_le_mul (by linarith) h4R hn0 (by norm_num)) (by norm_num)
    rw [hnε] at hpow
    norm_num at this hpow ⊢
    linarith
  have p1 : (g ^ n - 1) * q ≤ 9 / 2 * (t + 2) * n / 2 ^ 24 * q := by
    refine mul_le_mul_of_nonneg_right ?_ hq
    rw [show (9 / 2 * (t + 2) * n / 2 ^ 24 : ℝ) = 9 / 2 * ((t + 2) * n / 2 ^ 24) by ring]
    rw [hnε] at hpow
    nlinarith
  have p2 : τ * ∑ j ∈ range n, g ^ j ≤ 9 / 2 * t * n / 2 ^ 150 * w := by
    refine (mul_le_mul_of_nonneg_left hsum hτ0).trans ?_
    rw [hτ, show (401 / 100 * t / 2 ^ 150 * w * (n * (11 / 10)) : ℝ) = 4411 / 1000 * (t * n * w / 2 ^ 150) by ring,
      show (9 / 2 * t * n / 2 ^ 150 * w : ℝ) = 9 / 2 * (t * n * w / 2 ^ 150) by ring]
    have : (0 : ℝ) ≤ t * n * w / 2 ^ 150 := by positivity
    nlinarith
  unfold nit
  linarith

/-- Steps of the transform in `float`. -/
noncomputable abbrev stepG (p : Params) : ℝ := sg (1 / 2 ^ 24) ((1 + 1 / 2 ^ 24) ^ 3 - 1) (201 / 100) p (scaling codeKit p)
/-- What a step adds for results that are too small. -/
noncomputable abbrev stepT (p : Params) : ℝ := st (1 / 2 ^ 24) ((1 + 1 / 2 ^ 24) ^ 3 - 1) (201 / 100)
  (401 / 100 * p.wtype / 2 ^ 150 * Real.sqrt (padSize p)) p (scaling codeKit p)

theorem code_coef {r : Rounding} (hr : r.IEEE) {p : Params} (hv : ValidParams p) (hw : p.wtype ≤ 5) (h0 : p.steps ≠ 0) :
    Coef (ovScalars hr) ((1 + 1 / 2 ^ 24) ^ 3 - 1) (201 / 100) p.wtype (scaling (overflowKit r) p) (scaling codeKit p) := by
  have hkR := codeKit_present (p := p) (by omega)
  have ht := wavelet_of_steps hv (show 0 < p.steps by omega)
  exact ⟨by norm_num, by norm_num, by norm_num, by omega, ov_apF hr hw ht, length_scaling hkR ht, by
    rw [← length_scaling hkR ht, sum_getD_abs]
    exact sum_code hw⟩

theorem stepG_pow {p : Params} (hv : ValidParams p) (k : ℕ) :
    stepG p ^ k = pg (1 / 2 ^ 24) ((1 + 1 / 2 ^ 24) ^ 3 - 1) (201 / 100) p.wtype (scaling codeKit p) ^ (p.shape.length * k) := by
  have := nit_passes (u := 1 / 2 ^ 24) (η := (1 + 1 / 2 ^ 24) ^ 3 - 1) (S := 201 / 100) (τ := 0) (q := 1) hv (scaling codeKit p) k
  have e : st (1 / 2 ^ 24) ((1 + 1 / 2 ^ 24) ^ 3 - 1) (201 / 100) 0 p (scaling codeKit p) = 0 := by unfold st; split_ifs <;> simp
  rw [e] at this
  simp only [nit, mul_one, zero_mul, add_zero] at this
  exact this

theorem dims_le {p : Params} (hv : ValidParams p) : p.shape.length ≤ 2 := by
  rcases dim_cases hv with h | h
  · rw [show p.shape.length = 1 from h]; norm_num
  · rw [show p.shape.length = 2 from h]

/-- `k` steps in `float`: the error, the size of the results, and that nothing overflows. -/
theorem steps_code {r : Rounding} (hr : r.IEEE) {p : Params} (hv : ValidParams p) (hw : p.wtype ≤ 5) (h0 : p.steps ≠ 0) {k : ℕ} (hk : k ≤ 4000) {q : ℝ}
    (hq : 0 ≤ q) :
    (k ≤ 2000 → stepG p ^ k ≤ 101 / 100) ∧
    nit (stepG p) (stepT p) k q - q ≤ 9 / 2 * (p.wtype + 2) * (p.shape.length * k) / 2 ^ 24 * q +
      9 / 2 * p.wtype * (p.shape.length * k) / 2 ^ 150 * Real.sqrt (padSize p) ∧
    nit (stepG p) (stepT p) k q ≤ 61 / 60 * q + 1 / 1000 * Real.sqrt (padSize p) := by
  have hc := code_coef hr hv hw h0
  have hD := dims_le hv
  have hDk : p.shape.length * k ≤ 8000 := (Nat.mul_le_mul hD hk).trans (by norm_num)
  obtain ⟨_, a2, a3⟩ := passes_code (t := p.wtype) (n := p.shape.length * k) (q := q) (w := Real.sqrt (padSize p)) hc.one_le_pg (pg_code hc.ht hw) hw hDk hq
    (Real.sqrt_nonneg _) rfl
  have e : nit (stepG p) (stepT p) k q - q ≤ 9 / 2 * (p.wtype + 2) * (p.shape.length * k) / 2 ^ 24 * q +
      9 / 2 * p.wtype * (p.shape.length * k) / 2 ^ 150 * Real.sqrt (padSize p) := by
    rw [nit_passes hv]
    refine a3.trans (le_of_eq ?_)
    push_cast
    ring
  refine ⟨?_, e, ?_⟩
  · intro h
    rw [stepG_pow hv]
    exact a2 ((Nat.mul_le_mul hD h).trans (by norm_num))
  · have hDkR : ((p.shape.length : ℝ) * k) ≤ 8000 := by exact_mod_cast hDk
    have hDk0 : (0 : ℝ) ≤ (p.shape.length : ℝ) * k := by positivity
    have htR : (p.wtype : ℝ) ≤ 5 := by exact_mod_cast hw
    have k1 : 9 / 2 * (p.wtype + 2) * (p.shape.length * k) / 2 ^ 24 * q ≤ 1 / 60 * q := by
      refine mul_le_mul_of_nonneg_right ?_ hq
      have : (p.wtype + 2 : ℝ) * (p.shape.length * k) ≤ 7 * 8000 := mul_le_mul (by linarith) hDkR hDk0 (by norm_num)
      rw [div_le_iff₀ (by norm_num)]
      nlinarith
    have k2 : 9 / 2 * p.wtype * (p.shape.length * k) / 2 ^ 150 * Real.sqrt (padSize p) ≤ 1 / 1000 * Real.sqrt (padSize p) := by
      refine mul_le_mul_of_nonneg_right ?_ (Real.sqrt_nonneg _)
      have : (p.wtype : ℝ) * (p.shape.length * k) ≤ 5 * 8000 := mul_le_mul htR hDkR hDk0 (by norm_num)
      rw [div_le_iff₀ (by norm_num)]
      nlinarith
    linarith

theorem no_overflow_code {r : Rounding} (hr : r.IEEE) {p : Params} (hv : ValidParams p) (hw : p.wtype ≤ 5) (h0 : p.steps ≠ 0) {Q : ℝ}
    (h : 203 / 100 * Q + 1 / 1000 * Real.sqrt (padSize p) ≤ maxFloat) (hQ : 0 ≤ Q) :
    gr (1 / 2 ^ 24) (1 / 2 ^ 150) ((1 + 1 / 2 ^ 24) ^ 3 - 1) (201 / 100) p.wtype Q ≤ maxFloat := by
  have hc := code_coef hr hv hw h0
  rw [gr_split]
  have l1 := (lk_code hc.ht hw).2
  have l2 := lw_code hw
  have htR : (p.wtype : ℝ) ≤ 5 := by exact_mod_cast hw
  have k3 : 401 / 100 * (p.wtype : ℝ) / 2 ^ 150 ≤ 1 / 1000 := by
    rw [div_le_iff₀ (by norm_num)]
    nlinarith
  have hw1 : 1 ≤ Real.sqrt (padSize p) := by
    have := padSize_pos hv (show p.wtype ≠ 0 by have := hc.ht; omega)
    rw [Real.one_le_sqrt]
    exact_mod_cast this
  have f1 : (lk (1 / 2 ^ 24) ((1 + 1 / 2 ^ 24) ^ 3 - 1) p.wtype + 1) * (201 / 100 * Q) ≤ (1 / 100000 + 1) * (201 / 100 * Q) :=
    mul_le_mul_of_nonneg_right (by linarith) (by positivity)
  nlinarith

theorem lw_code_sqrt {p : Params} (hw : p.wtype ≤ 5) : lw (1 / 2 ^ 24) (1 / 2 ^ 150) p.wtype * Real.sqrt (padSize p) ≤
    401 / 100 * p.wtype / 2 ^ 150 * Real.sqrt (padSize p) := mul_le_mul_of_nonneg_right (lw_code hw) (Real.sqrt_nonneg _)

/-- The stored numbers of a channel. -/
noncomputable abbrev values {r : Rounding} (c : List (Mat (Ov r.toFloat maxFloat))) : List (Mat ℝ) := c.map fun m => m.map Ov.val

theorem values_eq {r : Rounding} (hr : r.IEEE) (c : List (Mat (Ov r.toFloat maxFloat))) : values c = VL (ovScalars hr) c := rfl

/-- The root of a sum of squares. -/
theorem nrm_eq {r : Rounding} (hr : r.IEEE) {y : Mat (Ov r.toFloat maxFloat)} {z : Mat ℝ} (h1 : y.rows = z.rows) (h2 : y.cols = z.cols) :
    nrm (msub (y.map (ovScalars hr).val) z) = Real.sqrt (sqDist (y.map Ov.val) z) := by
  rw [nrm, ← sqDist_energy (comb_diff h1.symm h2.symm)]
  rfl

theorem apart_eq {p : Params} {x y : Channel ℝ} (hx : SizedChan p x) (hy : SizedChan p y) :
    apart p x y = Real.sqrt (List.zipWith sqDist x y).sum := by
  rw [← apart_sq hx hy, Real.sqrt_mul_self (apart_nonneg _ _ _)]

theorem energy_sum {x : List (Mat ℝ)} : (x.map energy).sum = (x.map fun m => ∑ i ∈ range m.rows, ∑ j ∈ range m.cols, m.get i j ^ 2).sum := by
  congr 1
  refine List.map_congr_left fun m _ => ?_
  unfold energy
  exact sum_congr rfl fun i _ => sum_congr rfl fun j _ => by ring

/-- C105, decomposition. IEEE `float` with overflow, Daubechies wavelets 1 to 5 or none; `N` is the number of samples of the padded signal. Finite samples of
magnitude at most `M` with `√N (3 M + 1)` at most the largest `float`: no coefficient overflows, and the coefficients of a channel differ from those computed
in exact arithmetic by at most `√N (4.5 (t + 2) D K / 2^24 M + 4.5 t D K / 2^150)`, as a root of the sum of squares. -/
theorem C105_decompose (r : Rounding) (hr : r.IEEE) (b : Buffer (Ov r.toFloat maxFloat)) (hb : WellFormed b) (bR : Buffer ℝ) (hbR : WellFormed bR)
    (hpR : bR.params = b.params) (hw : b.params.wtype ≤ 5) (hK : b.params.steps ≤ 2000) (hch : 0 < b.params.signalNumber)
    (data : List (Mat (Ov r.toFloat maxFloat))) (hd : IsSignal b.params data) (M : ℝ) (hM0 : 0 ≤ M)
    (hM : ∀ x ∈ data, ∀ i < x.rows, ∀ j < x.cols, (x.get i j).Finite ∧ |(x.get i j).val| ≤ M)
    (hΩ : Real.sqrt ((b.params.shape.map (paddedSide b.params)).prod : ℕ) * (3 * M + 1) ≤ maxFloat) :
    ∃ d dR, b.decompose (overflowKit r) data nullDenoiser = .ok d true ∧ bR.decompose codeKit (values data) nullDenoiser = .ok dR true ∧
      d.length = data.length ∧ dR.length = data.length ∧ (∀ c ∈ d, PrescribedShapes b.params c) ∧ (∀ c ∈ dR, PrescribedShapes b.params c) ∧
      (∀ c ∈ d, ∀ m ∈ c, ∀ i < m.rows, ∀ j < m.cols, (m.get i j).Finite) ∧
      ∀ (n : ℕ) (c : List (Mat (Ov r.toFloat maxFloat))) (cR : List (Mat ℝ)), d[n]? = some c → dR[n]? = some cR →
        Real.sqrt (List.zipWith sqDist (values c) cR).sum ≤
          Real.sqrt ((b.params.shape.map (paddedSide b.params)).prod : ℕ) *
            (9 / 2 * (b.params.wtype + 2) * (b.params.shape.length * b.params.steps) / 2 ^ 24 * M +
              9 / 2 * b.params.wtype * (b.params.shape.length * b.params.steps) / 2 ^ 150) := by
  have hv := hb.1
  have hkR := codeKit_present (p := b.params) (by omega)
  have hkF := overflowKit_present (r := r) (p := b.params) (by omega)
  have c1 := decompose_ok hb hkF hch hd (fun _ => nullDenoiser_sized)
  have c2 := decompose_ok hbR (k := codeKit) (by rw [hpR]; exact hkR) (by rw [hpR]; exact hch) (data := values data)
    (by rw [hpR]; exact isSignal_val Ov.val hv hd) (fun _ => nullDenoiser_sized)
  rw [hpR] at c2
  rw [← padSize_eq hv] at hΩ ⊢
  refine ⟨_, _, c1, c2, by simp, by simp, ?_, ?_, ?_, ?_⟩
  · intro c hc
    rw [List.mem_map] at hc
    obtain ⟨m, hm, rfl⟩ := hc
    exact (sized_iff hv _).1 (chanP_sized hv nullDenoiser_sized (shaped_of (hd.2 m hm)))
  · intro c hc
    rw [List.mem_map] at hc
    obtain ⟨m, hm, rfl⟩ := hc
    exact (sized_iff hv _).1 (chanP_sized hv nullDenoiser_sized (shaped_of ((isSignal_val Ov.val hv hd).2 m hm)))
  all_goals
    generalize b.params = p at *
    have hw0 : 0 ≤ Real.sqrt (padSize p) := Real.sqrt_nonneg _
    have key := fun x (hx : x ∈ data) => chan_apart (sc := ovScalars hr) (kF := overflowKit r) (k := codeKit) (q := Real.sqrt (padSize p) * M)
      (τ := 401 / 100 * p.wtype / 2 ^ 150 * Real.sqrt (padSize p)) hv hkR (code_coef hr hv hw) (by positivity) (lw_code_sqrt hw)
      (shaped_of (hd.2 x hx)) (pad_fin hv (shaped_of (hd.2 x hx)) hM0 (hM x hx)).1 (pad_fin hv (shaped_of (hd.2 x hx)) hM0 (hM x hx)).2 (by
        intro h0
        obtain ⟨_, _, s3⟩ := steps_code hr hv hw h0 (k := p.steps) (by omega) (q := Real.sqrt (padSize p) * M) (by positivity)
        have hc := code_coef hr hv hw h0
        refine (gr_mono' hc s3).trans (no_overflow_code hr hv hw h0 ?_ (by positivity))
        nlinarith [mul_nonneg hw0 hM0])
  · intro c hc
    rw [List.mem_map] at hc
    obtain ⟨x, hx, rfl⟩ := hc
    exact (key x hx).1
  · intro n c cR e1 e2
    simp only [List.getElem?_map] at e1 e2
    match hx : data[n]?, e1, e2 with
    | some x, e1, e2 =>
      simp only [Option.map_some, Option.some.injEq] at e1 e2
      subst e1 e2
      have hmem := List.mem_of_getElem? hx
      obtain ⟨_, _, k3⟩ := key x hmem
      have szF := sized_VL (sc := ovScalars hr) (chanP_sized (k := overflowKit r) hv nullDenoiser_sized (shaped_of (hd.2 x hmem)))
      have szR := chanP_sized (k := codeKit) hv nullDenoiser_sized (show Shaped p (x.map Ov.val) from shaped_of (p := p) ((isSignal_val Ov.val hv hd).2 _ (List.mem_map_of_mem hmem)))
      rw [values_eq hr, ← apart_eq szF szR]
      refine k3.trans ?_
      split_ifs with h0
      · positivity
      · obtain ⟨_, s2, _⟩ := steps_code hr hv hw h0 (k := p.steps) (by omega) (q := Real.sqrt (padSize p) * M) (by positivity)
        have hA : 1 ≤ sa p (scaling codeKit p) ^ p.steps := one_le_pow₀ ((code_coef hr hv hw h0).sides (τ := 0) le_rfl).1
        have : Real.sqrt (padSize p) * M ≤ sa p (scaling codeKit p) ^ p.steps * (Real.sqrt (padSize p) * M) :=
          le_mul_of_one_le_left (by positivity) hA
        refine (sub_le_sub_left this _).trans (s2.trans (le_of_eq ?_))
        ring

/-- C105, composition, at every scale. Whatever the coefficients are, as long as they are finite and their root of the sum of squares, channel by channel, is
at most `Q` with `3 Q + √N` at most the largest `float`: `Compose` overflows nowhere, and what it computes differs from the result in exact
arithmetic, on the same stored numbers, by at most the bound given, again as a root of the sum of squares. -/
theorem C105_compose (r : Rounding) (hr : r.IEEE) (div : Bool → ℕ → Ov r.toFloat maxFloat → Ov r.toFloat maxFloat) (hdiv : DividesByGain div)
    (p : Params) (d : Decs (Ov r.toFloat maxFloat)) (hb : WellFormed (Buffer.mk p d)) (hw : p.wtype ≤ 5) (hK : p.steps ≤ 2000)
    (hp : ∀ c ∈ d, PrescribedShapes p c) (hfin : ∀ c ∈ d, ∀ m ∈ c, ∀ i < m.rows, ∀ j < m.cols, (m.get i j).Finite) (Q : ℝ) (hQ0 : 0 ≤ Q)
    (hQ : ∀ c ∈ d, Real.sqrt ((values c).map fun m => ∑ i ∈ range m.rows, ∑ j ∈ range m.cols, m.get i j ^ 2).sum ≤ Q)
    (hΩ : 3 * Q + Real.sqrt ((p.shape.map (paddedSide p)).prod : ℕ) ≤ maxFloat) (s : ℕ) (hs : s ≤ p.steps) :
    ∃ out outR, (Buffer.mk p d).compose (gainKit r div) s = .ok out ∧ (Buffer.mk p (d.map values)).compose codeKit s = .ok outR ∧
      out.length = d.length ∧ outR.length = d.length ∧
      ∀ (n : ℕ) (y : Mat (Ov r.toFloat maxFloat)) (z : Mat ℝ), out[n]? = some y → outR[n]? = some z →
        y.rows = z.rows ∧ y.cols = z.cols ∧ (∀ i < y.rows, ∀ j < y.cols, (y.get i j).Finite) ∧
        Real.sqrt (sqDist (y.map Ov.val) z) ≤
          (9 / 2 * (p.wtype + 2) * (p.shape.length * (p.steps - s : ℕ)) / 2 ^ 24 * Q +
            9 / 2 * p.wtype * (p.shape.length * (p.steps - s : ℕ)) / 2 ^ 150 * Real.sqrt ((p.shape.map (paddedSide p)).prod : ℕ)) /
              Real.sqrt 2 ^ (p.shape.length * s) +
          (if s = 0 then 0 else 1 / 2 ^ 22 * (2 * Q + Real.sqrt ((p.shape.map (paddedSide p)).prod : ℕ)) / Real.sqrt 2 ^ (p.shape.length * s) +
            1 / 2 ^ 149 * Real.sqrt ((p.shape.map (paddedSide p)).prod : ℕ)) := by
  have hv : ValidParams p := hb.1
  have hkR := codeKit_present (p := p) (by omega)
  have hkF := overflowKit_present (r := r) (p := p) (by omega)
  have hkG : FilterPresent (gainKit r div) p := hkF
  have z1 : ∀ c ∈ d, SizedChan p c := fun c hc => (sized_iff hv c).2 (hp c hc)
  have z2 : ∀ c ∈ d.map values, SizedChan p c := by
    intro c hc
    rw [List.mem_map] at hc
    obtain ⟨c, hc, rfl⟩ := hc
    exact sized_VL (sc := ovScalars hr) (z1 c hc)
  rw [← padSize_eq hv] at hΩ ⊢
  refine ⟨_, _, compose_ok (b := ⟨p, d⟩) hv hb.2.1 hkG z1 hs, compose_ok (b := ⟨p, d.map values⟩) hv (by simpa using hb.2.1) hkR z2 hs, by simp, by simp, ?_⟩
  intro n y z e1 e2
  simp only [List.getElem?_map] at e1 e2
  match hx : d[n]?, e1, e2 with
  | some c, e1, e2 =>
    simp only [Option.map_some, Option.some.injEq] at e1 e2
    subst e1 e2
    have hmem := List.mem_of_getElem? hx
    have hw0 : 0 ≤ Real.sqrt (padSize p) := Real.sqrt_nonneg _
    have hsc : scaling (gainKit r div) p = scaling (overflowKit r) p := rfl
    have hQ' : total p (VL (ovScalars hr) c) ≤ Q := by
      have := hQ c hmem
      rw [← energy_sum, values_eq hr, ← total_sq (sized_VL (sc := ovScalars hr) (z1 c hmem)).1, Real.sqrt_mul_self (total_nonneg _ _)] at this
      exact this
    have big : ∀ h0 : p.steps ≠ 0, nit (stepG p) (stepT p) (p.steps - s) Q ≤ 61 / 60 * Q + 1 / 1000 * Real.sqrt (padSize p) := fun h0 =>
      (steps_code hr hv hw h0 (k := p.steps - s) (by omega) hQ0).2.2
    obtain ⟨o1, o2, o3, o4⟩ := out_apart (sc := ovScalars hr) (kF := gainKit r div) (k := codeKit) (s := s) (Q := Q)
      (τ := 401 / 100 * p.wtype / 2 ^ 150 * Real.sqrt (padSize p)) hv hkR (fun h0 => by rw [hsc]; exact code_coef hr hv hw h0) (by positivity)
      (lw_code_sqrt hw) (z1 c hmem) (hfin c hmem) hQ0 hQ' hs (fun _ _ _ => rfl) (u' := 1 / 2 ^ 22) (ω' := 1 / 2 ^ 149) (by norm_num) (by norm_num)
      (gainOk hr hdiv) (fun h0 => (gr_mono' (code_coef hr hv hw h0) (big h0)).trans (no_overflow_code hr hv hw h0 (by nlinarith) (by positivity)))
      (fun h => by
        split_ifs
        · linarith
        · exact (big (by omega)).trans (by linarith))
    refine ⟨o1, o2, o3, ?_⟩
    rw [nrm_eq hr o1 o2] at o4
    refine o4.trans ?_
    have hgp : 0 < Real.sqrt 2 ^ (p.dimension * s) := pow_pos (Real.sqrt_pos.2 (by norm_num)) _
    have hdim : p.dimension = p.shape.length := rfl
    rw [hdim] at hgp ⊢
    refine add_le_add (div_le_div_of_nonneg_right ?_ hgp.le) ?_
    · split_ifs with h0
      · positivity
      · have hne : p.steps ≠ 0 := by omega
        obtain ⟨_, s2, _⟩ := steps_code hr hv hw hne (k := p.steps - s) (by omega) hQ0
        have hA : 1 ≤ sa p (scaling codeKit p) ^ (p.steps - s) := one_le_pow₀ ((code_coef hr hv hw hne).sides (τ := 0) le_rfl).1
        have : Q ≤ sa p (scaling codeKit p) ^ (p.steps - s) * Q := le_mul_of_one_le_left hQ0 hA
        exact (sub_le_sub_left this _).trans s2
    · by_cases h0 : s = 0
      · rw [if_pos h0, if_pos h0]
      · rw [if_neg h0, if_neg h0]
        refine add_le_add (div_le_div_of_nonneg_right (mul_le_mul_of_nonneg_left ?_ (by norm_num)) hgp.le) le_rfl
        split_ifs
        · linarith
        · exact (big (by omega)).trans (by linarith)

/-- C105, round trip. The coefficients may be changed between `Decompose` and `Compose`, by at most `P` as a root of the sum of squares of each channel:
the samples change by at most the rounding error of the unchanged round trip and `1.01 P`. -/
theorem C105_changed (r : Rounding) (hr : r.IEEE) (b : Buffer (Ov r.toFloat maxFloat)) (hb : WellFormed b)
    (hw : b.params.wtype ≤ 5) (hK : b.params.steps ≤ 2000) (hch : 0 < b.params.signalNumber)
    (data : List (Mat (Ov r.toFloat maxFloat))) (hd : IsSignal b.params data) (M P : ℝ) (hM0 : 0 ≤ M) (hP0 : 0 ≤ P)
    (hM : ∀ x ∈ data, ∀ i < x.rows, ∀ j < x.cols, (x.get i j).Finite ∧ |(x.get i j).val| ≤ M)
    (hΩ : Real.sqrt ((b.params.shape.map (paddedSide b.params)).prod : ℕ) * (3 * M + 1) + 3 * P ≤ maxFloat) :
    ∃ d, b.decompose (overflowKit r) data nullDenoiser = .ok d true ∧
      (∀ c ∈ d, ∀ m ∈ c, ∀ i < m.rows, ∀ j < m.cols, (m.get i j).Finite) ∧
      ∀ d', d'.length = d.length → (∀ c ∈ d', PrescribedShapes b.params c) → (∀ c ∈ d', ∀ m ∈ c, ∀ i < m.rows, ∀ j < m.cols, (m.get i j).Finite) →
        (∀ (n : ℕ) (c c' : List (Mat (Ov r.toFloat maxFloat))), d[n]? = some c → d'[n]? = some c' →
          Real.sqrt (List.zipWith sqDist (values c') (values c)).sum ≤ P) →
        ∃ out, (Buffer.mk b.params d').compose (overflowKit r) 0 = .ok out ∧ out.length = data.length ∧
          ∀ (n : ℕ) (x : Mat (Ov r.toFloat maxFloat)), data[n]? = some x →
            ∃ y, out[n]? = some y ∧ y.rows = x.rows ∧ y.cols = x.cols ∧ (∀ i < y.rows, ∀ j < y.cols, (y.get i j).Finite) ∧
              Real.sqrt (sqDist (y.map Ov.val) (x.map Ov.val)) ≤
                Real.sqrt ((b.params.shape.map (paddedSide b.params)).prod : ℕ) *
                  (9 * (b.params.wtype + 2) * (b.params.shape.length * b.params.steps) / 2 ^ 24 * M +
                    9 * b.params.wtype * (b.params.shape.length * b.params.steps) / 2 ^ 150) + 101 / 100 * P := by
  have hv := hb.1
  have hkR := codeKit_present (p := b.params) (by omega)
  have hkF := overflowKit_present (r := r) (p := b.params) (by omega)
  have c1 := decompose_ok hb hkF hch hd (fun _ => nullDenoiser_sized)
  rw [← padSize_eq hv] at hΩ ⊢
  refine ⟨_, c1, ?_, ?_⟩
  all_goals
    generalize b.params = p at *
    have hw0 : 0 ≤ Real.sqrt (padSize p) := Real.sqrt_nonneg _
    have hq0 : 0 ≤ Real.sqrt (padSize p) * M := mul_nonneg hw0 hM0
  · intro c hc
    rw [List.mem_map] at hc
    obtain ⟨x, hx, rfl⟩ := hc
    exact (chan_apart (sc := ovScalars hr) (kF := overflowKit r) (k := codeKit) (q := Real.sqrt (padSize p) * M)
      (τ := 401 / 100 * p.wtype / 2 ^ 150 * Real.sqrt (padSize p)) hv hkR (code_coef hr hv hw) (by positivity) (lw_code_sqrt hw)
      (shaped_of (hd.2 x hx)) (pad_fin hv (shaped_of (hd.2 x hx)) hM0 (hM x hx)).1 (pad_fin hv (shaped_of (hd.2 x hx)) hM0 (hM x hx)).2 (by
        intro h0
        obtain ⟨_, _, s3⟩ := steps_code hr hv hw h0 (k := p.steps) (by omega) hq0
        have hc := code_coef hr hv hw h0
        refine (gr_mono' hc s3).trans (no_overflow_code hr hv hw h0 ?_ (by positivity))
        nlinarith)).1
  · intro d' hl hp hfin hdist
    have z1 : ∀ c ∈ d', SizedChan p c := fun c hc => (sized_iff hv c).2 (hp c hc)
    have hlen : d'.length = data.length := by rw [hl]; simp
    refine ⟨_, compose_ok (b := ⟨p, d'⟩) hv (by rw [hlen]; exact hd.1) hkF z1 (Nat.zero_le _), by simpa using hlen, ?_⟩
    intro n x hn
    have hmem := List.mem_of_getElem? hn
    have hnl : n < d'.length := by rw [hlen]; exact (List.getElem?_eq_some_iff.1 hn).1
    have hc' : d'[n]? = some d'[n] := List.getElem?_eq_getElem hnl
    have hmem' := List.getElem_mem hnl
    have szF := sized_VL (sc := ovScalars hr) (chanP_sized (k := overflowKit r) hv nullDenoiser_sized (shaped_of (hd.2 x hmem)))
    have szC := sized_VL (sc := ovScalars hr) (z1 _ hmem')
    have dist := hdist n _ _ (by rw [List.getElem?_map, hn]; rfl) hc'
    rw [values_eq hr, values_eq hr, ← apart_eq szC szF] at dist
    obtain ⟨t1, t2, t3, t4⟩ := trip_changed (sc := ovScalars hr) (kF := overflowKit r) (k := codeKit) (q := Real.sqrt (padSize p) * M) (P := P)
      (τ := 401 / 100 * p.wtype / 2 ^ 150 * Real.sqrt (padSize p)) hv hkR (code_coef hr hv hw) (by positivity) (lw_code_sqrt hw)
      (shaped_of (hd.2 x hmem)) (pad_fin hv (shaped_of (hd.2 x hmem)) hM0 (hM x hmem)).1 (pad_fin hv (shaped_of (hd.2 x hmem)) hM0 (hM x hmem)).2 hP0
      (z1 _ hmem') (hfin _ hmem') dist (fun _ _ _ => rfl) (u' := 1 / 2 ^ 22) (ω' := 1 / 2 ^ 149) (by norm_num) (by norm_num)
      (gainOk hr (overflowKit_divides hr)) (by
        intro h0
        obtain ⟨_, _, s3⟩ := steps_code hr hv hw h0 (k := 2 * p.steps) (by omega) hq0
        obtain ⟨s1, _, _⟩ := steps_code hr hv hw h0 (k := p.steps) (by omega) hq0
        have hc := code_coef hr hv hw h0
        have s1 := mul_le_mul_of_nonneg_right (s1 hK) hP0
        refine (gr_mono' hc (add_le_add s3 s1)).trans (no_overflow_code hr hv hw h0 ?_ (by positivity))
        nlinarith)
    refine ⟨outP (overflowKit r) p 0 d'[n], by rw [List.getElem?_map, hc']; rfl, t1, t2, t3, ?_⟩
    have := nrm_eq hr (y := outP (overflowKit r) p 0 d'[n]) (z := x.map Ov.val) t1 t2
    rw [← this]
    refine t4.trans ?_
    split_ifs with h0
    · have : 0 ≤ Real.sqrt (padSize p) * (9 * (p.wtype + 2) * (p.shape.length * p.steps) / 2 ^ 24 * M +
        9 * p.wtype * (p.shape.length * p.steps) / 2 ^ 150) := by positivity
      linarith
    · obtain ⟨_, s2, _⟩ := steps_code hr hv hw h0 (k := 2 * p.steps) (by omega) hq0
      obtain ⟨s1, _, _⟩ := steps_code hr hv hw h0 (k := p.steps) (by omega) hq0
      have s1 := mul_le_mul_of_nonneg_right (s1 hK) hP0
      refine (add_le_add s2 s1).trans (le_of_eq ?_)
      push_cast
      ring

/-- Pictures of 1024 x 1024 with samples in [-1, 1], `db5`, five steps: all coefficients together, more than a million of them, are off by at most 0.02 in the
root of the sum of squares. -/
example (r : Rounding) (hr : r.IEEE) (f : ℕ → ℕ → ℝ) (hf : ∀ i j, |f i j| ≤ 1) :
    let p : Params := ⟨[1024, 1024], 1, 5, 5⟩
    ∃ d dR, (Buffer.mk p [List.replicate 16 Mat.empty] : Buffer (Ov r.toFloat maxFloat)).decompose (overflowKit r)
        [Mat.ofFn 1024 1024 (fun i j => Ov.of (f i j))] nullDenoiser = .ok d true ∧
      (Buffer.mk p [List.replicate 16 Mat.empty] : Buffer ℝ).decompose codeKit
        (values [Mat.ofFn 1024 1024 (fun i j => (Ov.of (f i j) : Ov r.toFloat maxFloat))]) nullDenoiser = .ok dR true ∧
      ∀ (n : ℕ) (c : List (Mat (Ov r.toFloat maxFloat))) (cR : List (Mat ℝ)), d[n]? = some c → dR[n]? = some cR →
        Real.sqrt (List.zipWith sqDist (values c) cR).sum ≤ 2 / 100 := by
  intro p
  have hN : Real.sqrt ((p.shape.map (paddedSide p)).prod : ℕ) = 1024 := by
    rw [show (p.shape.map (paddedSide p)).prod = 1024 * 1024 by decide, Nat.cast_mul]
    exact Real.sqrt_mul_self (x := 1024) (by norm_num)
  have hv : ValidParams p := ⟨by simp [p], by simp [p], by simp [p]⟩
  obtain ⟨d, dR, h1, h2, _, _, _, _, _, h3⟩ := C105_decompose r hr (Buffer.mk p [List.replicate 16 Mat.empty])
    ⟨hv, by simp [p], by simp [p, subbandCount, detailsPerStep]⟩ (Buffer.mk p [List.replicate 16 Mat.empty])
    ⟨hv, by simp [p], by simp [p, subbandCount, detailsPerStep]⟩ rfl (by simp [p]) (by simp [p])
    (by simp [p]) [Mat.ofFn 1024 1024 (fun i j => Ov.of (f i j))] ⟨by simp [p], by simp [p, HasShape]⟩
    1 (by norm_num) (by
      intro x hx i hi j hj
      rw [List.mem_singleton] at hx
      subst hx
      simp only [Mat.rows_ofFn, Mat.cols_ofFn] at hi hj
      rw [Mat.get_ofFn hi hj]
      exact ⟨rfl, hf i j⟩) (by rw [hN]; simp only [maxFloat]; norm_num)
  refine ⟨d, dR, h1, h2, fun n c cR e1 e2 => ?_⟩
  have := h3 n c cR e1 e2
  rw [hN] at this
  norm_num [p] at this ⊢
  linarith

/-- Coefficients of a signal of eight samples that no signal was decomposed to, `db1`, composed at scale 1. -/
example (r : Rounding) (hr : r.IEEE) (a : ℕ → ℝ) (ha : ∀ i, |a i| ≤ 1) :
    let p : Params := ⟨[8], 1, 2, 1⟩
    let d : Decs (Ov r.toFloat maxFloat) := [[Mat.ofFn 4 1 (fun i _ => Ov.of (a i)), Mat.ofFn 2 1 (fun i _ => Ov.of (a i)), Mat.ofFn 2 1 (fun i _ => Ov.of (a i))]]
    ∃ out outR, (Buffer.mk p d).compose (overflowKit r) 1 = .ok out ∧ (Buffer.mk p (d.map values)).compose codeKit 1 = .ok outR ∧
      ∀ (n : ℕ) (y : Mat (Ov r.toFloat maxFloat)) (z : Mat ℝ), out[n]? = some y → outR[n]? = some z →
        Real.sqrt (sqDist (y.map Ov.val) z) ≤ 1 / 10 ^ 5 := by
  intro p d
  have hN : Real.sqrt ((p.shape.map (paddedSide p)).prod : ℕ) ≤ 3 := by
    rw [show (p.shape.map (paddedSide p)).prod = 8 by decide, Real.sqrt_le_left (by norm_num)]
    norm_num
  have hN0 : 0 ≤ Real.sqrt ((p.shape.map (paddedSide p)).prod : ℕ) := Real.sqrt_nonneg _
  have hv : ValidParams p := ⟨by simp [p], by simp [p], by simp [p]⟩
  have hsq : ∀ i, a i ^ 2 ≤ 1 := fun i => by rw [← sq_abs]; exact pow_le_one₀ (abs_nonneg _) (ha i)
  obtain ⟨out, outR, h1, h2, _, _, h3⟩ := C105_compose r hr (overflowKit r).divFactor (overflowKit_divides hr) p d
    ⟨hv, by simp [p, d], by simp [p, d, subbandCount, detailsPerStep]⟩ (by simp [p]) (by simp [p])
    (by
      intro c hc
      simp only [d, List.mem_singleton] at hc
      subst hc
      have hf : ∀ {k n : ℕ} (g : ℕ → ℕ → Ov r.toFloat maxFloat), n = 8 / 2 ^ k → Fits p k (Mat.ofFn n 1 g) := fun {k n} g h => by
        refine ⟨?_, rfl⟩
        rw [show matRows (paddedShape p) = 8 by decide +kernel, ← h]; rfl
      refine (sized_iff hv _).1 ⟨rfl, ?_, hf (k := 2) (n := 2) (fun i _ => Ov.of (a i)) (by decide)⟩
      intro s hs j hj
      have hs : s < 2 := hs
      have hj : j < 1 := hj
      interval_cases s <;> interval_cases j
      · exact hf (k := 1) (n := 4) (fun i _ => Ov.of (a i)) (by decide)
      · exact hf (k := 2) (n := 2) (fun i _ => Ov.of (a i)) (by decide))
    (by
      intro c hc m hm i hi j hj
      simp only [d, List.mem_singleton] at hc
      subst hc
      simp only [List.mem_cons, List.not_mem_nil, or_false] at hm
      rcases hm with rfl | rfl | rfl <;> (simp only [Mat.rows_ofFn, Mat.cols_ofFn] at hi hj; rw [Mat.get_ofFn hi hj]; rfl)) 4 (by norm_num)
    (by
      intro c hc
      simp only [d, List.mem_singleton] at hc
      subst hc
      rw [Real.sqrt_le_left (by norm_num)]
      simp only [values, List.map_cons, List.map_nil, Mat.rows_map, Mat.cols_map, Mat.rows_ofFn, Mat.cols_ofFn, List.sum_cons, List.sum_nil,
        sum_range_succ, sum_range_zero, zero_add]
      have e : ∀ n i, i < n → ((Mat.ofFn n 1 (fun i _ => (Ov.of (a i) : Ov r.toFloat maxFloat))).map Ov.val).get i 0 = a i := fun n i hi => by
        rw [get_val Ov.val _ (by simpa using hi) (by simp), Mat.get_ofFn hi (by norm_num)]; rfl
      rw [e 4 0 (by norm_num), e 4 1 (by norm_num), e 4 2 (by norm_num), e 4 3 (by norm_num), e 2 0 (by norm_num), e 2 1 (by norm_num)]
      linarith [hsq 0, hsq 1, hsq 2, hsq 3]) ((add_le_add le_rfl hN).trans (by simp only [maxFloat]; norm_num)) 1 (by simp [p])
  refine ⟨out, outR, h1, h2, fun n y z e1 e2 => ?_⟩
  obtain ⟨_, _, _, h4⟩ := h3 n y z e1 e2
  refine h4.trans ?_
  have hg : 1 ≤ Real.sqrt 2 ^ (p.shape.length * 1) := gain_ge_one false _
  generalize Real.sqrt ((p.shape.map (paddedSide p)).prod : ℕ) = w at *
  rw [if_neg one_ne_zero]
  generalize Real.sqrt 2 ^ (p.shape.length * 1) = g at *
  refine (add_le_add (div_le_self (by positivity) hg) (add_le_add (div_le_self (by positivity) hg) le_rfl)).trans ?_
  norm_num [p]
  linarith

/-- The picture of the first example again, with coefficients changed by up to 1/10 in the root of the sum of squares. -/
example (r : Rounding) (hr : r.IEEE) (f : ℕ → ℕ → ℝ) (hf : ∀ i j, |f i j| ≤ 1) :
    let p : Params := ⟨[1024, 1024], 1, 5, 5⟩
    ∃ d, (Buffer.mk p [List.replicate 16 Mat.empty] : Buffer (Ov r.toFloat maxFloat)).decompose (overflowKit r)
        [Mat.ofFn 1024 1024 (fun i j => Ov.of (f i j))] nullDenoiser = .ok d true ∧
      ∀ d', d'.length = d.length → (∀ c ∈ d', PrescribedShapes p c) → (∀ c ∈ d', ∀ m ∈ c, ∀ i < m.rows, ∀ j < m.cols, (m.get i j).Finite) →
        (∀ (n : ℕ) (c c' : List (Mat (Ov r.toFloat maxFloat))), d[n]? = some c → d'[n]? = some c' →
          Real.sqrt (List.zipWith sqDist (values c') (values c)).sum ≤ 1 / 10) →
        ∃ out y, (Buffer.mk p d').compose (overflowKit r) 0 = .ok out ∧ out[0]? = some y ∧
          Real.sqrt (sqDist (y.map Ov.val) ((Mat.ofFn 1024 1024 (fun i j => (Ov.of (f i j) : Ov r.toFloat maxFloat))).map Ov.val)) ≤ 15 / 100 := by
  intro p
  have hN : Real.sqrt ((p.shape.map (paddedSide p)).prod : ℕ) = 1024 := by
    rw [show (p.shape.map (paddedSide p)).prod = 1024 * 1024 by decide, Nat.cast_mul]
    exact Real.sqrt_mul_self (x := 1024) (by norm_num)
  obtain ⟨d, h1, _, h2⟩ := C105_changed r hr (Buffer.mk p [List.replicate 16 Mat.empty])
    ⟨⟨by simp [p], by simp [p], by simp [p]⟩, by simp [p], by simp [p, subbandCount, detailsPerStep]⟩ (by simp [p]) (by simp [p])
    (by simp [p]) [Mat.ofFn 1024 1024 (fun i j => Ov.of (f i j))] ⟨by simp [p], by simp [p, HasShape]⟩
    1 (1 / 10) (by norm_num) (by norm_num) (by
      intro x hx i hi j hj
      rw [List.mem_singleton] at hx
      subst hx
      simp only [Mat.rows_ofFn, Mat.cols_ofFn] at hi hj
      rw [Mat.get_ofFn hi hj]
      exact ⟨rfl, hf i j⟩) (by rw [hN]; simp only [maxFloat]; norm_num)
  refine ⟨d, h1, fun d' g1 g2 g3 g4 => ?_⟩
  obtain ⟨out, h3, _, h4⟩ := h2 d' g1 g2 g3 g4
  obtain ⟨y, h5, _, _, _, h6⟩ := h4 0 _ rfl
  refine ⟨out, y, h3, h5, h6.trans ?_⟩
  rw [hN]
  norm_num [p]

end WB.Props
