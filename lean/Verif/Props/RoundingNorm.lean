import Verif.Proof.RoundingOut
import Verif.Props.Overflow
import Mathlib.Tactic.IntervalCases

/-!
C87: the rounding error of a round trip grows in proportion to the number of steps.
-/

namespace WB.Props

open Finset Spec

theorem nit_two (g τ q : ℝ) (k : ℕ) : nit (g * g) ((g + 1) * τ) k q = nit g τ (2 * k) q := by
  induction k with
  | zero => simp [nit_zero]
  | succ k ih =>
    rw [nit_succ, ih, show 2 * (k + 1) = 2 * k + 1 + 1 by ring, nit_succ, nit_succ]
    ring

theorem nit_passes {u η S τ q : ℝ} {p : Params} (hv : ValidParams p) (F : List ℝ) (k : ℕ) :
    nit (sg u η S p F) (st u η S τ p F) k q = nit (pg u η S p.wtype F) τ (p.shape.length * k) q := by
  unfold sg st
  rcases dim_cases hv with h | h
  · rw [if_pos h, if_pos h, show p.shape.length = 1 from h, Nat.one_mul]
  · rw [if_neg (by omega), if_neg (by omega), show p.shape.length = 2 from h, nit_two]

theorem padSize_eq {p : Params} (hv : ValidParams p) : padSize p = (p.shape.map (paddedSide p)).prod := by
  have hshape : p.shape.map (paddedSide p) = paddedShape p := by
    have h := paddedShape_map hv 1
    simpa using h.symm
  rw [hshape]
  unfold padSize
  have hl : (paddedShape p).length = p.shape.length := by rw [← hshape]; simp
  rcases shape_cases hv with ⟨n, hs, hd⟩ | ⟨w, hh, hs, hd⟩
  · rw [← hshape, hs] at *
    rw [if_pos hd]
    simp [matRows]
  · rw [← hshape, hs] at *
    rw [if_neg (by omega)]
    simp [matRows, matCols, mul_comm]

theorem padSize_pos {p : Params} (hv : ValidParams p) (ht : p.wtype ≠ 0) : 0 < padSize p := by
  obtain ⟨h1, h2, h3, h4⟩ := padded_ge hv ht
  unfold padSize
  refine Nat.mul_pos (by omega) ?_
  split_ifs <;> omega

theorem lk_code {t : ℕ} (h0 : 0 < t) (ht : t ≤ 5) :
    lk (1 / 2 ^ 24) ((1 + 1 / 2 ^ 24) ^ 3 - 1) t * (201 / 100) + 6 / 10 ^ 12 ≤ 403 / 100 * (t + 2) / 2 ^ 24 ∧
      lk (1 / 2 ^ 24) ((1 + 1 / 2 ^ 24) ^ 3 - 1) t ≤ 1 / 100000 := by
  unfold lk
  interval_cases t <;> norm_num

theorem lw_code {t : ℕ} (ht : t ≤ 5) : lw (1 / 2 ^ 24) (1 / 2 ^ 150) t ≤ 401 / 100 * t / 2 ^ 150 := by
  unfold lw
  interval_cases t <;> norm_num

theorem pg_code {p : Params} (h0 : 0 < p.wtype) (ht : p.wtype ≤ 5) :
    pg (1 / 2 ^ 24) ((1 + 1 / 2 ^ 24) ^ 3 - 1) (201 / 100) p.wtype (scaling codeKit p) ≤ 1 + 403 / 100 * (p.wtype + 2) / 2 ^ 24 := by
  have hd : dev p.wtype (scaling codeKit p) ≤ 12 / 10 ^ 12 := by
    rw [dev_code]
    have := dev_table ⟨p.wtype, by omega⟩ h0
    have := (Rat.cast_le (K := ℝ)).2 this
    push_cast at this
    exact this
  have h1 : pa p.wtype (scaling codeKit p) ≤ 1 + 6 / 10 ^ 12 := by
    unfold pa
    refine Real.sqrt_le_iff.2 ⟨by norm_num, ?_⟩
    nlinarith
  have := (lk_code h0 ht).1
  unfold pg
  linarith

theorem pow_near {ε : ℝ} (h0 : 0 ≤ ε) {n : ℕ} (h : n * ε ≤ 1 / 50) : (1 + ε) ^ n ≤ 1 + 103 / 100 * (n * ε) := by
  rcases Nat.eq_zero_or_pos n with rfl | hn
  · simp
  have hn1 : (1 : ℝ) ≤ n := by exact_mod_cast hn
  have he : ε ≤ 1 / 50 := by nlinarith
  have h1 : 1 + (n : ℝ) * (-ε) ≤ (1 + -ε) ^ n := one_add_mul_le_pow (by linarith) n
  have h2 : (1 + ε) ^ n * (1 + -ε) ^ n ≤ 1 := by
    rw [← mul_pow]
    refine pow_le_one₀ (by nlinarith) (by nlinarith)
  have hp : 0 < (1 + ε) ^ n := by positivity
  have h3 : (1 + ε) ^ n * (1 + (n : ℝ) * (-ε)) ≤ 1 := (mul_le_mul_of_nonneg_left h1 hp.le).trans h2
  set y := (1 + ε) ^ n
  set z := (n : ℝ) * ε with hz
  have hz0 : 0 ≤ z := by positivity
  have h4 : y * (1 - z) ≤ 1 := by nlinarith
  have h5 : 1 ≤ (1 + 103 / 100 * z) * (1 - z) := by nlinarith
  by_contra hc
  have : (1 + 103 / 100 * z) * (1 - z) < y * (1 - z) := mul_lt_mul_of_pos_right (not_le.1 hc) (by linarith)
  linarith

/-- The number of passes times the error of one pass. -/
theorem nit_code {g τ q w : ℝ} {t D K : ℕ} (h1 : 1 ≤ g) (hg : g ≤ 1 + 403 / 100 * (t + 2) / 2 ^ 24) (ht : t ≤ 5) (hD : D ≤ 2) (hK : K ≤ 2000) (hq : 0 ≤ q)
    (hw : 0 ≤ w) (hτ : τ = 401 / 100 * t / 2 ^ 150 * w) :
    nit g τ (D * (2 * K)) q - q ≤ 9 * (t + 2) * (D * K) / 2 ^ 24 * q + 9 * t * (D * K) / 2 ^ 150 * w := by
  have htR : (t : ℝ) ≤ 5 := by exact_mod_cast ht
  have hDK : ((D * K : ℕ) : ℝ) ≤ 4000 := by
    have : D * K ≤ 2 * 2000 := Nat.mul_le_mul hD hK
    exact_mod_cast this
  have hDK0 : (0 : ℝ) ≤ ((D * K : ℕ) : ℝ) := by positivity
  set ε : ℝ := 403 / 100 * (t + 2) / 2 ^ 24 with hε
  have hε0 : 0 ≤ ε := by positivity
  set n := D * (2 * K) with hn
  have hnR : (n : ℝ) = 2 * ((D * K : ℕ) : ℝ) := by rw [hn]; push_cast; ring
  have hnε : (n : ℝ) * ε = 806 / 100 * (t + 2) * ((D * K : ℕ) : ℝ) / 2 ^ 24 := by rw [hnR, hε]; ring
  have hsmall : (n : ℝ) * ε ≤ 1 / 50 := by
    rw [hnε, div_le_iff₀ (by norm_num)]
    have : (t + 2 : ℝ) * ((D * K : ℕ) : ℝ) ≤ 7 * 4000 := mul_le_mul (by linarith) hDK hDK0 (by norm_num)
    nlinarith
  have hpow : g ^ n ≤ 1 + 103 / 100 * (n * ε) := (pow_le_pow_left₀ (by linarith) hg n).trans (pow_near hε0 hsmall)
  have hpow2 : g ^ n ≤ 11 / 10 := by linarith
  have hsum : ∑ j ∈ range n, g ^ j ≤ n * (11 / 10) := by
    calc _ ≤ ∑ _j ∈ range n, (11 / 10 : ℝ) := sum_le_sum fun j hj => (pow_le_pow_right₀ h1 (mem_range.1 hj).le).trans hpow2
      _ = _ := by simp
  have hτ0 : 0 ≤ τ := by rw [hτ]; positivity
  have p1 : (g ^ n - 1) * q ≤ 9 * (t + 2) * (D * K) / 2 ^ 24 * q := by
    refine mul_le_mul_of_nonneg_right ?_ hq
    have e : (9 * (t + 2) * (D * K) / 2 ^ 24 : ℝ) = 9 * ((t + 2) * ((D * K : ℕ) : ℝ) / 2 ^ 24) := by push_cast; ring
    have e' : (806 / 100 * (t + 2) * ((D * K : ℕ) : ℝ) / 2 ^ 24 : ℝ) = 806 / 100 * ((t + 2) * ((D * K : ℕ) : ℝ) / 2 ^ 24) := by ring
    rw [e]
    rw [hnε, e'] at hpow
    have : (0 : ℝ) ≤ (t + 2) * ((D * K : ℕ) : ℝ) / 2 ^ 24 := by positivity
    nlinarith
  have p2 : τ * ∑ j ∈ range n, g ^ j ≤ 9 * t * (D * K) / 2 ^ 150 * w := by
    refine (mul_le_mul_of_nonneg_left hsum hτ0).trans ?_
    rw [hτ, hnR]
    have e : (401 / 100 * t / 2 ^ 150 * w * (2 * ((D * K : ℕ) : ℝ) * (11 / 10)) : ℝ) = 8822 / 1000 * (t * ((D * K : ℕ) : ℝ) * w / 2 ^ 150) := by ring
    have e' : (9 * t * (D * K) / 2 ^ 150 * w : ℝ) = 9 * (t * ((D * K : ℕ) : ℝ) * w / 2 ^ 150) := by push_cast; ring
    rw [e, e']
    have : (0 : ℝ) ≤ t * ((D * K : ℕ) : ℝ) * w / 2 ^ 150 := by positivity
    nlinarith
  unfold nit
  linarith

theorem gr_split (u ω η S : ℝ) (t : ℕ) (q : ℝ) : gr u ω η S t q = (lk u η t + 1) * (S * q) + lw u ω t := by
  unfold gr lk lw
  push_cast
  ring

/-- C87. IEEE `float` with overflow, one or two dimensions, Daubechies wavelets 1 to 5 or none. `N` is the number of samples of the padded signal. The
samples are finite and at most `M` in magnitude, with `√N (3 M + 1)` at most the largest `float`. Then `Decompose` with the null denoiser and `Compose`
at scale 0 overflow nowhere, and the error of a channel, as a root of the sum of squares, is at most `√N` times
`9 (t + 2) D K / 2^24 M + 9 t D K / 2^150`, for wavelet number `t`, `D` dimensions and `K` steps: it grows in proportion to the steps. -/
theorem C87_code (r : Rounding) (hr : r.IEEE) (b : Buffer (Ov r.toFloat maxFloat)) (hb : WellFormed b)
    (hw : b.params.wtype ≤ 5) (hK : b.params.steps ≤ 2000) (hch : 0 < b.params.signalNumber)
    (data : List (Mat (Ov r.toFloat maxFloat))) (hd : IsSignal b.params data) (M : ℝ) (hM0 : 0 ≤ M)
    (hM : ∀ x ∈ data, ∀ i < x.rows, ∀ j < x.cols, (x.get i j).Finite ∧ |(x.get i j).val| ≤ M)
    (hΩ : Real.sqrt ((b.params.shape.map (paddedSide b.params)).prod : ℕ) * (3 * M + 1) ≤ maxFloat) :
    ∃ d out, b.decompose (overflowKit r) data nullDenoiser = .ok d true ∧ (Buffer.mk b.params d).compose (overflowKit r) 0 = .ok out ∧
      (∀ c ∈ d, ∀ m ∈ c, ∀ i < m.rows, ∀ j < m.cols, (m.get i j).Finite) ∧ out.length = data.length ∧
      ∀ (n : ℕ) (x : Mat (Ov r.toFloat maxFloat)), data[n]? = some x →
        ∃ y, out[n]? = some y ∧ y.rows = x.rows ∧ y.cols = x.cols ∧ (∀ i < y.rows, ∀ j < y.cols, (y.get i j).Finite) ∧
          Real.sqrt (∑ i ∈ range x.rows, ∑ j ∈ range x.cols, ((y.get i j).val - (x.get i j).val) ^ 2) ≤
            Real.sqrt ((b.params.shape.map (paddedSide b.params)).prod : ℕ) *
              (9 * (b.params.wtype + 2) * (b.params.shape.length * b.params.steps) / 2 ^ 24 * M +
                9 * b.params.wtype * (b.params.shape.length * b.params.steps) / 2 ^ 150) := by
  have hv := hb.1
  have hkR := codeKit_present (p := b.params) (by omega)
  have hkF := overflowKit_present (r := r) (p := b.params) (by omega)
  have c1 := decompose_ok hb hkF hch hd (fun _ => nullDenoiser_sized)
  have c2 := compose_ok (b := ⟨b.params, data.map (chanP b.params (scaling (overflowKit r) b.params) nullDenoiser)⟩) (s := 0) hv
      (by simpa using hd.1) hkF (by
        intro c hc
        rw [List.mem_map] at hc
        obtain ⟨m, hm, rfl⟩ := hc
        exact chanP_sized hv nullDenoiser_sized (shaped_of (hd.2 m hm))) (Nat.zero_le _)
  rw [← padSize_eq hv] at hΩ ⊢
  set p := b.params with hp
  set w := Real.sqrt (padSize p) with hwdef
  have hw0 : 0 ≤ w := Real.sqrt_nonneg _
  have hc : p.steps ≠ 0 → Coef (ovScalars hr) ((1 + 1 / 2 ^ 24) ^ 3 - 1) (201 / 100) p.wtype (scaling (overflowKit r) p) (scaling codeKit p) := by
    intro h0
    have ht := wavelet_of_steps hv (show 0 < p.steps by omega)
    exact ⟨by norm_num, by norm_num, by norm_num, by omega, ov_apF hr hw ht, length_scaling hkR ht, by
      rw [← length_scaling hkR ht, sum_getD_abs]
      exact sum_code hw⟩
  have hD : p.shape.length ≤ 2 := by
    rcases dim_cases hv with h | h
    · rw [show p.shape.length = 1 from h]; norm_num
    · rw [show p.shape.length = 2 from h]
  have htR : (p.wtype : ℝ) ≤ 5 := by exact_mod_cast hw
  have hDK : ((p.shape.length : ℝ) * p.steps) ≤ 4000 := by
    have : p.shape.length * p.steps ≤ 2 * 2000 := Nat.mul_le_mul hD hK
    exact_mod_cast this
  have hDK0 : (0 : ℝ) ≤ (p.shape.length : ℝ) * p.steps := by positivity
  set τ : ℝ := 401 / 100 * p.wtype / 2 ^ 150 * w with hτ
  have hq0 : 0 ≤ w * M := mul_nonneg hw0 hM0
  have main : p.steps ≠ 0 → nit (sg (1 / 2 ^ 24) ((1 + 1 / 2 ^ 24) ^ 3 - 1) (201 / 100) p (scaling codeKit p))
      (st (1 / 2 ^ 24) ((1 + 1 / 2 ^ 24) ^ 3 - 1) (201 / 100) τ p (scaling codeKit p)) (2 * p.steps) (w * M) - w * M ≤
        9 * (p.wtype + 2) * (p.shape.length * p.steps) / 2 ^ 24 * (w * M) + 9 * p.wtype * (p.shape.length * p.steps) / 2 ^ 150 * w := by
    intro h0
    rw [nit_passes hv]
    exact nit_code (hc h0).one_le_pg (pg_code (hc h0).ht hw) hw hD hK hq0 hw0 hτ
  have hfin := fun x (hx : x ∈ data) => out_norm (sc := ovScalars hr) (τ := τ) hv hkF hkR hc (by positivity) hM0
    (by rw [hτ]; exact mul_le_mul_of_nonneg_right (lw_code hw) hw0) (shaped_of (hd.2 x hx)) (hM x hx) (by
      intro h0
      have h1 := main h0
      rw [gr_split]
      have l1 := (lk_code (hc h0).ht hw).2
      have l2 := lw_code hw
      have l0 : 0 ≤ lk (1 / 2 ^ 24) ((1 + 1 / 2 ^ 24) ^ 3 - 1) p.wtype := lk_nonneg (by norm_num) (by norm_num) _
      have hw1 : 1 ≤ w := by
        have := padSize_pos hv (show p.wtype ≠ 0 by have := (hc h0).ht; omega)
        rw [hwdef, Real.one_le_sqrt]
        exact_mod_cast this
      have k1 : 9 * (p.wtype + 2) * (p.shape.length * p.steps) / 2 ^ 24 * (w * M) ≤ 1 / 60 * (w * M) := by
        refine mul_le_mul_of_nonneg_right ?_ hq0
        have : (p.wtype + 2 : ℝ) * (p.shape.length * p.steps) ≤ 7 * 4000 := mul_le_mul (by linarith) hDK hDK0 (by norm_num)
        rw [div_le_iff₀ (by norm_num)]
        nlinarith
      have k2 : 9 * p.wtype * (p.shape.length * p.steps) / 2 ^ 150 * w ≤ 1 / 1000 * w := by
        refine mul_le_mul_of_nonneg_right ?_ hw0
        have : (p.wtype : ℝ) * (p.shape.length * p.steps) ≤ 5 * 4000 := mul_le_mul (by linarith) hDK hDK0 (by norm_num)
        rw [div_le_iff₀ (by norm_num)]
        nlinarith
      have k3 : 401 / 100 * (p.wtype : ℝ) / 2 ^ 150 ≤ 1 / 1000 := by
        rw [div_le_iff₀ (by norm_num)]
        nlinarith
      set Q := nit (sg (1 / 2 ^ 24) ((1 + 1 / 2 ^ 24) ^ 3 - 1) (201 / 100) p (scaling codeKit p))
        (st (1 / 2 ^ 24) ((1 + 1 / 2 ^ 24) ^ 3 - 1) (201 / 100) τ p (scaling codeKit p)) (2 * p.steps) (w * M) with hQ
      have hQ1 : Q ≤ 61 / 60 * (w * M) + 1 / 1000 * w := by linarith
      have hB : 0 ≤ 61 / 60 * (w * M) + 1 / 1000 * w := by positivity
      have f1 : (lk (1 / 2 ^ 24) ((1 + 1 / 2 ^ 24) ^ 3 - 1) p.wtype + 1) * (201 / 100 * Q) ≤
          (1 / 100000 + 1) * (201 / 100 * (61 / 60 * (w * M) + 1 / 1000 * w)) :=
        (mul_le_mul_of_nonneg_left (mul_le_mul_of_nonneg_left hQ1 (by norm_num)) (by linarith)).trans
          (mul_le_mul_of_nonneg_right (by linarith) (by positivity))
      refine le_trans ?_ hΩ
      nlinarith)
  refine ⟨_, _, c1, c2, ?_, by simp, ?_⟩
  · intro c hc'
    rw [List.mem_map] at hc'
    obtain ⟨x, hx, rfl⟩ := hc'
    exact (hfin x hx).1
  intro n x hn
  have hmem := List.mem_of_getElem? hn
  obtain ⟨_, r1, r2, r3, r4⟩ := hfin x hmem
  refine ⟨outP (overflowKit r) p 0 (chanP p (scaling (overflowKit r) p) nullDenoiser x), by simp [hn], r1, r2, r3, ?_⟩
  set y := outP (overflowKit r) p 0 (chanP p (scaling (overflowKit r) p) nullDenoiser x)
  have he : energy (msub (y.map (ovScalars hr).val) (x.map (ovScalars hr).val)) =
      ∑ i ∈ range x.rows, ∑ j ∈ range x.cols, ((y.get i j).val - (x.get i j).val) ^ 2 := by
    unfold energy
    have e1 : (msub (y.map (ovScalars hr).val) (x.map (ovScalars hr).val)).rows = x.rows := r1
    have e2 : (msub (y.map (ovScalars hr).val) (x.map (ovScalars hr).val)).cols = x.cols := r2
    rw [e1, e2]
    refine sum_congr rfl fun i hi => sum_congr rfl fun j hj => ?_
    have hi := mem_range.1 hi
    have hj := mem_range.1 hj
    rw [msub_get (by rw [Mat.rows_map, r1]; exact hi) (by rw [Mat.cols_map, r2]; exact hj), get_val _ x hi hj,
      get_val _ y (by rw [r1]; exact hi) (by rw [r2]; exact hj), sq]
    rfl
  rw [← he]
  refine r4.trans ?_
  split_ifs with h0
  · positivity
  · refine (main h0).trans (le_of_eq ?_)
    ring

/-- C87. The same bound for every single sample. -/
theorem C87_samples (r : Rounding) (hr : r.IEEE) (b : Buffer (Ov r.toFloat maxFloat)) (hb : WellFormed b)
    (hw : b.params.wtype ≤ 5) (hK : b.params.steps ≤ 2000) (hch : 0 < b.params.signalNumber)
    (data : List (Mat (Ov r.toFloat maxFloat))) (hd : IsSignal b.params data) (M : ℝ) (hM0 : 0 ≤ M)
    (hM : ∀ x ∈ data, ∀ i < x.rows, ∀ j < x.cols, (x.get i j).Finite ∧ |(x.get i j).val| ≤ M)
    (hΩ : Real.sqrt ((b.params.shape.map (paddedSide b.params)).prod : ℕ) * (3 * M + 1) ≤ maxFloat) :
    ∃ d out, b.decompose (overflowKit r) data nullDenoiser = .ok d true ∧ (Buffer.mk b.params d).compose (overflowKit r) 0 = .ok out ∧
      out.length = data.length ∧
      ∀ (n : ℕ) (x : Mat (Ov r.toFloat maxFloat)), data[n]? = some x →
        ∃ y, out[n]? = some y ∧ y.rows = x.rows ∧ y.cols = x.cols ∧ ∀ i < x.rows, ∀ j < x.cols, (y.get i j).Finite ∧
          |(y.get i j).val - (x.get i j).val| ≤
            Real.sqrt ((b.params.shape.map (paddedSide b.params)).prod : ℕ) *
              (9 * (b.params.wtype + 2) * (b.params.shape.length * b.params.steps) / 2 ^ 24 * M +
                9 * b.params.wtype * (b.params.shape.length * b.params.steps) / 2 ^ 150) := by
  obtain ⟨d, out, e1, e2, _, e4, e5⟩ := C87_code r hr b hb hw hK hch data hd M hM0 hM hΩ
  refine ⟨d, out, e1, e2, e4, ?_⟩
  intro n x hn
  obtain ⟨y, f1, f2, f3, f4, f5⟩ := e5 n x hn
  refine ⟨y, f1, f2, f3, fun i hi j hj => ⟨f4 i (f2 ▸ hi) j (f3 ▸ hj), le_trans (Real.abs_le_sqrt ?_) f5⟩⟩
  refine le_trans ?_ (single_le_sum (f := fun i => ∑ j ∈ range x.cols, ((y.get i j).val - (x.get i j).val) ^ 2)
    (fun i _ => sum_nonneg fun j _ => sq_nonneg _) (mem_range.2 hi))
  exact single_le_sum (f := fun j => ((y.get i j).val - (x.get i j).val) ^ 2) (fun j _ => sq_nonneg _) (mem_range.2 hj)

/-- C87. Where nothing is padded, the root mean square error of a channel does not depend on the number of samples. -/
theorem C87_mean_square (r : Rounding) (hr : r.IEEE) (b : Buffer (Ov r.toFloat maxFloat)) (hb : WellFormed b)
    (hw : b.params.wtype ≤ 5) (hK : b.params.steps ≤ 2000) (hch : 0 < b.params.signalNumber)
    (data : List (Mat (Ov r.toFloat maxFloat))) (hd : IsSignal b.params data) (M : ℝ) (hM0 : 0 ≤ M)
    (hM : ∀ x ∈ data, ∀ i < x.rows, ∀ j < x.cols, (x.get i j).Finite ∧ |(x.get i j).val| ≤ M)
    (hpad : b.params.shape.map (paddedSide b.params) = b.params.shape)
    (hΩ : Real.sqrt (b.params.shape.prod : ℕ) * (3 * M + 1) ≤ maxFloat) :
    ∃ d out, b.decompose (overflowKit r) data nullDenoiser = .ok d true ∧ (Buffer.mk b.params d).compose (overflowKit r) 0 = .ok out ∧
      out.length = data.length ∧
      ∀ (n : ℕ) (x : Mat (Ov r.toFloat maxFloat)), data[n]? = some x →
        ∃ y, out[n]? = some y ∧ y.rows = x.rows ∧ y.cols = x.cols ∧
          Real.sqrt ((∑ i ∈ range x.rows, ∑ j ∈ range x.cols, ((y.get i j).val - (x.get i j).val) ^ 2) / (b.params.shape.prod : ℕ)) ≤
            9 * (b.params.wtype + 2) * (b.params.shape.length * b.params.steps) / 2 ^ 24 * M +
              9 * b.params.wtype * (b.params.shape.length * b.params.steps) / 2 ^ 150 := by
  obtain ⟨d, out, e1, e2, _, e4, e5⟩ := C87_code r hr b hb hw hK hch data hd M hM0 hM (by rw [hpad]; exact hΩ)
  refine ⟨d, out, e1, e2, e4, ?_⟩
  intro n x hn
  obtain ⟨y, f1, f2, f3, _, f5⟩ := e5 n x hn
  refine ⟨y, f1, f2, f3, ?_⟩
  rw [hpad] at f5
  rw [Real.sqrt_div' _ (by positivity)]
  exact div_le_of_le_mul₀ (Real.sqrt_nonneg _) (by positivity) (by rw [mul_comm]; exact f5)

/-- A picture of 1024 x 1024 samples between -1 and 1, DB5, five steps: no sample changes by more than 0.04. -/
example (r : Rounding) (hr : r.IEEE) (f : ℕ → ℕ → ℝ) (hf : ∀ i j, |f i j| ≤ 1) :
    let p : Params := ⟨[1024, 1024], 1, 5, 5⟩
    ∃ d y, (Buffer.mk p [List.replicate 16 Mat.empty] : Buffer (Ov r.toFloat maxFloat)).decompose (overflowKit r)
        [Mat.ofFn 1024 1024 (fun i j => Ov.of (f i j))] nullDenoiser = .ok d true ∧
      (Buffer.mk p d).compose (overflowKit r) 0 = .ok [y] ∧ ∀ i < 1024, ∀ j < 1024, |(y.get i j).val - f i j| ≤ 4 / 100 := by
  intro p
  have hN : Real.sqrt ((p.shape.map (paddedSide p)).prod : ℕ) = 1024 := by
    rw [show (p.shape.map (paddedSide p)).prod = 1024 * 1024 by decide, Nat.cast_mul]
    exact Real.sqrt_mul_self (x := 1024) (by norm_num)
  obtain ⟨d, out, h1, h2, h3, h4⟩ := C87_samples r hr (Buffer.mk p [List.replicate 16 Mat.empty])
    ⟨⟨by simp [p], by simp [p], by simp [p]⟩, by simp [p], by simp [p, subbandCount, detailsPerStep]⟩ (by simp [p]) (by simp [p])
    (by simp [p]) [Mat.ofFn 1024 1024 (fun i j => Ov.of (f i j))] ⟨by simp [p], by simp [p, HasShape]⟩
    1 (by norm_num) (by
      intro x hx i hi j hj
      rw [List.mem_singleton] at hx
      subst hx
      simp only [Mat.rows_ofFn, Mat.cols_ofFn] at hi hj
      rw [Mat.get_ofFn hi hj]
      exact ⟨rfl, hf i j⟩) (by rw [hN]; simp only [maxFloat]; norm_num)
  obtain ⟨y, h5, _, _, h6⟩ := h4 0 _ rfl
  have hout : out = [y] := by
    match out, h3, h5 with
    | [_], _, h5 => simpa using h5
  refine ⟨d, y, h1, by rw [h2, hout], fun i hi j hj => ?_⟩
  have := (h6 i hi j hj).2
  rw [hN, Mat.get_ofFn hi hj] at this
  refine le_trans this ?_
  simp only [p]
  norm_num

/-- A thousand samples, which are padded, DB3, six steps. -/
example (r : Rounding) (hr : r.IEEE) (f : ℕ → ℝ) (hf : ∀ i, |f i| ≤ 1) :
    let p : Params := ⟨[1000], 1, 6, 3⟩
    ∃ d y, (Buffer.mk p [List.replicate 7 Mat.empty] : Buffer (Ov r.toFloat maxFloat)).decompose (overflowKit r)
        [Mat.ofFn 1000 1 (fun i _ => Ov.of (f i))] nullDenoiser = .ok d true ∧
      (Buffer.mk p d).compose (overflowKit r) 0 = .ok [y] ∧ ∀ i < 1000, |(y.get i 0).val - f i| ≤ 6 / 10000 := by
  intro p
  have hN : Real.sqrt ((p.shape.map (paddedSide p)).prod : ℕ) = 32 := by
    rw [show (p.shape.map (paddedSide p)).prod = 32 * 32 by decide, Nat.cast_mul]
    exact Real.sqrt_mul_self (x := 32) (by norm_num)
  obtain ⟨d, out, h1, h2, h3, h4⟩ := C87_samples r hr (Buffer.mk p [List.replicate 7 Mat.empty])
    ⟨⟨by simp [p], by simp [p], by simp [p]⟩, by simp [p], by simp [p, subbandCount, detailsPerStep]⟩ (by simp [p]) (by simp [p])
    (by simp [p]) [Mat.ofFn 1000 1 (fun i _ => Ov.of (f i))] ⟨by simp [p], by simp [p, HasShape]⟩
    1 (by norm_num) (by
      intro x hx i hi j hj
      rw [List.mem_singleton] at hx
      subst hx
      simp only [Mat.rows_ofFn, Mat.cols_ofFn] at hi hj
      rw [Mat.get_ofFn hi hj]
      exact ⟨rfl, hf i⟩) (by rw [hN]; simp only [maxFloat]; norm_num)
  obtain ⟨y, h5, _, _, h6⟩ := h4 0 _ rfl
  have hout : out = [y] := by
    match out, h3, h5 with
    | [_], _, h5 => simpa using h5
  refine ⟨d, y, h1, by rw [h2, hout], fun i hi => ?_⟩
  have := (h6 i hi 0 (by simp)).2
  rw [hN, Mat.get_ofFn hi (by norm_num)] at this
  refine le_trans this ?_
  simp only [p]
  norm_num

/-- A picture that needs no padding. -/
example : let p : Params := ⟨[64, 32], 3, 2, 4⟩; p.shape.map (paddedSide p) = p.shape := by decide

end WB.Props
