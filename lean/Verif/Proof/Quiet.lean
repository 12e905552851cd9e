import Verif.Proof.FloatDenoise
import Verif.Proof.FloatMetrics
import Verif.Props.Overflow
import Verif.Props.FloatBits
import Verif.Props.Size

/-!
Largest possible coefficients of a signal in `float`, and what a threshold above them does.
-/

namespace WB.Props

open Finset Spec

section Generic
variable {α : Type} [Zero α] [Add α] [Mul α] [Neg α] [Inhabited α] {u ω Ω η S M : ℝ} {sc : Scalars α u ω Ω} {p : Params}

/-- Coefficients grow at most by the sum of the magnitudes of the filter in each step and dimension, and by rounding. -/
theorem quiet_chan (hu : 0 ≤ u) (hω : 0 ≤ ω) (hη : 0 ≤ η) (hS1 : 1 ≤ S) (hM : 0 ≤ M) (hv : ValidParams p)
    {kF : Kit α} {kR : Kit ℝ} (hkR : FilterLen kR p) (hf : p.steps ≠ 0 → ApF sc η (scaling kF p) (scaling kR p))
    (hS : p.steps ≠ 0 → ∑ j ∈ range (2 * p.wtype), |(scaling kR p).getD j 0| ≤ S)
    (hΩ : gr_iter u ω η S p.wtype M (p.dimension * p.steps) ≤ Ω) {x : Mat α} (hx : Shaped p x)
    (hb : ∀ i < x.rows, ∀ j < x.cols, sc.fin (x.get i j) ∧ |sc.val (x.get i j)| ≤ M) :
    (∀ s < p.steps, ∀ q < subbandsPerWT p, ∀ m, m = (detailStep p (scaling kF p) nullDenoiser s (sig p (scaling kF p) (padOf p x) s)).getD q default →
      ∀ i < m.rows, ∀ j < m.cols, sc.fin (m.get i j) ∧ |sc.val (m.get i j)| ≤ gr_iter u ω η S p.wtype M (p.dimension * (s + 1))) ∧
    ∀ m, m = sig p (scaling kF p) (padOf p x) p.steps →
      ∀ i < m.rows, ∀ j < m.cols, sc.fin (m.get i j) ∧ |sc.val (m.get i j)| ≤ gr_iter u ω η S p.wtype M (p.dimension * p.steps) := by
  have low : ∀ m ≤ p.dimension * p.steps, gr_iter u ω η S p.wtype M m ≤ Ω := fun m hm => (gr_iter_mono hu hω hη hS1 hM hm).trans hΩ
  rcases shape_cases hv with ⟨n, hsh, hd⟩ | ⟨n, n', hsh, hd⟩
  · have hcol : x.cols = 1 := by
      have := of_shaped hv hx
      rw [hsh] at this
      exact this.2
    have hpad := apM_padOf hv hd hx hM (fun i hi => hb i hi 0 (by omega))
    have fin : ∀ {m : Mat α} {X : Mat ℝ} {π q : ℝ}, ApM sc π q m X → ∀ i < m.rows, ∀ j < m.cols, sc.fin (m.get i j) ∧ |sc.val (m.get i j)| ≤ q := by
      intro m X π q h i hi j hj
      obtain ⟨h1, h2, _, _, _, h3⟩ := h
      obtain rfl : j = 0 := by omega
      exact ⟨(h3 i (by omega)).1, (h3 i (by omega)).abs_le⟩
    rw [hd] at low hΩ ⊢
    by_cases h0 : p.steps = 0
    · refine ⟨fun s hs => by omega, ?_⟩
      rintro m rfl
      rw [h0]
      exact fin hpad
    have ht := wavelet_of_steps hv (show 0 < p.steps by omega)
    have hl := length_scaling hkR ht
    constructor
    · rintro s hs q hq m rfl
      obtain rfl : q = 0 := by rw [subbandsPerWT, if_pos hd] at hq; omega
      rw [Nat.one_mul]
      exact fin (ap_detail hu hω hη hS1 hM hd (hf h0) hl (hS h0) hpad s (low _ (by omega)))
    · rintro m rfl
      rw [Nat.one_mul]
      exact fin (ap_sig hu hω hη hS1 hM hd (hf h0) hl (hS h0) hpad _ (low _ (by omega)))
  · have hpad := apM2_padOf hv hd hx hM hb
    have hX := fits_padOf hv (show Shaped p (x.map sc.val) from hx)
    have fin : ∀ {m : Mat α} {X : Mat ℝ} {π q : ℝ}, ApM2 sc π q m X → ∀ i < m.rows, ∀ j < m.cols, sc.fin (m.get i j) ∧ |sc.val (m.get i j)| ≤ q := by
      intro m X π q h i hi j hj
      obtain ⟨h1, h2, _, _, h3⟩ := h
      exact ⟨(h3 i (by omega) j (by omega)).1, (h3 i (by omega) j (by omega)).abs_le⟩
    rw [hd] at low hΩ ⊢
    by_cases h0 : p.steps = 0
    · refine ⟨fun s hs => by omega, ?_⟩
      rintro m rfl
      rw [h0]
      exact fin hpad
    have sg := ap_sig2 hu hω hη hS1 hv hd hkR (hf h0) (hS h0) hpad hX hM (low _ (by omega))
    constructor
    · rintro s hs q hq m rfl
      have g := (sg s hs.le).2 hs
      have hq3 : q < 3 := by
        have : subbandsPerWT p = 3 := by rw [subbandsPerWT, if_neg (by omega)]
        omega
      unfold detailStep
      rw [if_neg (by omega), show 2 * (s + 1) = 2 * s + 2 by ring]
      interval_cases q
      · exact fin g.2.1
      · exact fin g.2.2.1
      · exact fin g.2.2.2
    · rintro m rfl
      exact fin (sg _ le_rfl).1

end Generic

/-- The bound in round numbers. -/
theorem quiet_bound {M : ℝ} (hM : 0 ≤ M) {t : ℕ} (ht : t ≤ 5) (m : ℕ) :
    gr_iter (1 / 2 ^ 24) (1 / 2 ^ 150) ((1 + 1 / 2 ^ 24) ^ 3 - 1) (201 / 100) t M m ≤ (202 / 100) ^ m * (M + 1 / 2 ^ 145) := by
  have htR : (t : ℝ) ≤ 5 := by exact_mod_cast ht
  have ht0 : (0 : ℝ) ≤ t := by positivity
  suffices h : gr_iter (1 / 2 ^ 24) (1 / 2 ^ 150) ((1 + 1 / 2 ^ 24) ^ 3 - 1) (201 / 100) t M m ≤ (202 / 100) ^ m * (M + 1 / 2 ^ 145) - 20 / 2 ^ 150 by
    have : (0 : ℝ) ≤ 20 / 2 ^ 150 := by norm_num
    linarith
  induction m with
  | zero =>
    simp only [gr_iter, pow_zero, one_mul]
    have : (0 : ℝ) ≤ 1 / 2 ^ 145 - 20 / 2 ^ 150 := by norm_num
    linarith
  | succ m ih =>
    have q0 : (0 : ℝ) ≤ (1 + 1 / 2 ^ 24 : ℝ) ^ (2 * t) := by positivity
    have q1 : (1 + 1 / 2 ^ 24 : ℝ) ^ (2 * t) ≤ 1001 / 1000 := (pow_le_pow_right₀ (by norm_num) (show 2 * t ≤ 10 by omega)).trans (by norm_num)
    have hB : (M + 1 / 2 ^ 145) ≤ (202 / 100) ^ m * (M + 1 / 2 ^ 145) := le_mul_of_one_le_left (by positivity) (one_le_pow₀ (by norm_num))
    rw [show (202 / 100 : ℝ) ^ (m + 1) * (M + 1 / 2 ^ 145) = 202 / 100 * ((202 / 100) ^ m * (M + 1 / 2 ^ 145)) by ring, gr_iter, gr]
    push_cast
    generalize (202 / 100 : ℝ) ^ m * (M + 1 / 2 ^ 145) = B at ih hB ⊢
    generalize gr_iter (1 / 2 ^ 24) (1 / 2 ^ 150) ((1 + 1 / 2 ^ 24) ^ 3 - 1) (201 / 100) t M m = g at ih ⊢
    have c0 : 0 ≤ B - 20 / 2 ^ 150 := by
      have : (0 : ℝ) ≤ 1 / 2 ^ 145 - 20 / 2 ^ 150 := by norm_num
      linarith
    have i1 : (1 + 1 / 2 ^ 24 : ℝ) * ((1 + ((1 + 1 / 2 ^ 24) ^ 3 - 1)) * (201 / 100) * g) + 4 * (t : ℝ) * (1 / 2 ^ 150) ≤
        20101 / 10000 * (B - 20 / 2 ^ 150) + 20 / 2 ^ 150 := by
      have : (1 + 1 / 2 ^ 24 : ℝ) * ((1 + ((1 + 1 / 2 ^ 24) ^ 3 - 1)) * (201 / 100) * g) ≤ 20101 / 10000 * (B - 20 / 2 ^ 150) := by
        rw [show (1 + 1 / 2 ^ 24 : ℝ) * ((1 + ((1 + 1 / 2 ^ 24) ^ 3 - 1)) * (201 / 100) * g) = (1 + 1 / 2 ^ 24 : ℝ) ^ 4 * (201 / 100) * g by ring]
        refine (mul_le_mul_of_nonneg_left ih (by positivity)).trans (mul_le_mul_of_nonneg_right (by norm_num) c0)
      linarith
    have i2 : (0 : ℝ) ≤ 20101 / 10000 * (B - 20 / 2 ^ 150) + 20 / 2 ^ 150 := by positivity
    calc _ ≤ (1 + 1 / 2 ^ 24 : ℝ) ^ (2 * t) * (20101 / 10000 * (B - 20 / 2 ^ 150) + 20 / 2 ^ 150) := mul_le_mul_of_nonneg_left i1 q0
      _ ≤ 1001 / 1000 * (20101 / 10000 * (B - 20 / 2 ^ 150) + 20 / 2 ^ 150) := mul_le_mul_of_nonneg_right q1 i2
      _ ≤ 202 / 100 * B - 20 / 2 ^ 150 := by
        have h0 : (0 : ℝ) ≤ 1 / 2 ^ 150 := by norm_num
        have e : (20 : ℝ) / 2 ^ 150 = 20 * (1 / 2 ^ 150) := by ring
        rw [e] at c0 ⊢
        generalize (1 : ℝ) / 2 ^ 150 = w at h0 c0 ⊢
        linarith

/-- The threshold as it is computed in `float`, from below. -/
theorem threshold_float_ge {r : Rounding} (hr : r.IEEE) {o : FloatOps} (ho : o.Correct r) {a b : F32} (ha : finiteBits a) (hb : finiteBits b) {s : ℕ}
    (hs : s < 2 ^ 24) (hT2 : |(number a : ℝ)| * s + |(number b : ℝ)| ≤ 2 ^ 126) :
    finiteBits (getThreshold (α := Bits o) a b s) ∧
      (number a : ℝ) * s + number b - (1 / 2 ^ 22 * (|(number a : ℝ)| * s + |(number b : ℝ)|) + 1 / 2 ^ 148) ≤ (number (getThreshold (α := Bits o) a b s) : ℝ) := by
  have hmax : (2 : ℝ) ^ 127 ≤ maxFloat := by unfold maxFloat; norm_num
  have hs0 : (0 : ℝ) ≤ s := by positivity
  have hs1 : (s : ℝ) ≤ 2 ^ 24 := by exact_mod_cast hs.le
  have e1 : r.toFloat (s : ℝ) = s := rounds_self hr.1 (small_nat hs)
  obtain ⟨s1, s2⟩ := ho.store (s : ℝ) (by rw [e1, abs_of_nonneg hs0]; exact hs1.trans (le_trans (by norm_num) hmax))
  rw [e1] at s2
  have b0 := abs_nonneg (number b : ℝ)
  have as0 : 0 ≤ |(number a : ℝ)| * s := by positivity
  have eas : |(number a : ℝ) * number (o.store s)| = |(number a : ℝ)| * s := by rw [s2, abs_mul, abs_of_nonneg hs0]
  have m0 := std_float hr ((number a : ℝ) * number (o.store s))
  obtain ⟨m1, m2⟩ := ho.mul a (o.store s) ha s1 (toFloat_le hr (by rw [eas]; linarith))
  rw [← m2, eas] at m0
  have m3 : |(number (o.mul a (o.store s)) : ℝ)| ≤ (1 + 1 / 2 ^ 24) * (|(number a : ℝ)| * s) + 1 / 2 ^ 150 := by
    have h1 := abs_add_le ((number (o.mul a (o.store s)) : ℝ) - (number a : ℝ) * number (o.store s)) ((number a : ℝ) * number (o.store s))
    rw [sub_add_cancel, eas] at h1
    linarith
  have h2 := abs_add_le (number (o.mul a (o.store s)) : ℝ) (number b)
  have a0 := std_float hr ((number (o.mul a (o.store s)) : ℝ) + number b)
  have hle : |(number (o.mul a (o.store s)) : ℝ) + number b| ≤ (1 + 1 / 2 ^ 24) * (|(number a : ℝ)| * s + |(number b : ℝ)|) + 1 / 2 ^ 150 := by linarith
  obtain ⟨a1, a2⟩ := ho.add _ b m1 hb (toFloat_le hr (hle.trans (le_trans (by linarith) hmax)))
  refine ⟨a1, ?_⟩
  show _ ≤ (number (o.add (o.mul a (o.store s)) b) : ℝ)
  rw [a2]
  rw [s2] at m0
  have k1 := (abs_le.1 a0).1
  have k2 := (abs_le.1 m0).1
  linarith

/-- What the threshold denoiser makes of the details of a step. -/
theorem detail_thr {p : Params} {o : FloatOps} (a b : F32) (hl : List (Bits o)) (s : ℕ) {q : ℕ} (hq : q < subbandsPerWT p) (m : Mat (Bits o)) (n : Mat F32)
    (hn : n = (detailStep p hl nullDenoiser s m).getD q default) :
    (detailStep (α := Bits o) p hl (bitsThreshold o a b) s m).getD q default = n.map (thr o a b s) := by
  subst hn
  by_cases hd : p.dimension = 1
  · obtain rfl : q = 0 := by rw [subbandsPerWT, if_pos hd] at hq; omega
    unfold detailStep
    rw [if_pos hd, if_pos hd]
    generalize (List.range (m.rows / 2)).map (anaP (m.col 0) (qmf hl)) = v
    have key : ∀ v : List F32, (Mat.ofCol (v.map (thr o a b s)) : Mat F32) = (Mat.ofCol v).map (thr o a b s) := by
      intro v
      rw [Mat.eq_iff]
      simp [Mat.ofCol, Mat.map]
    exact key v
  · have hq3 : q < 3 := by
      have : subbandsPerWT p = 3 := by rw [subbandsPerWT, if_neg hd]
      omega
    unfold detailStep
    rw [if_neg hd, if_neg hd]
    interval_cases q <;> rfl

theorem thr_all_zero {o : FloatOps} {a b : F32} {s : ℕ} {n : Mat F32} {B : ℝ}
    (hB : B ≤ (number (getThreshold (α := Bits o) a b s) : ℝ))
    (h : ∀ i < n.rows, ∀ j < n.cols, finiteBits (n.get i j) ∧ |((number (n.get i j) : ℚ) : ℝ)| ≤ B) :
    ∀ i < n.rows, ∀ j < n.cols, (n.map (thr o a b s)).get i j = 0#32 := by
  intro i hi j hj
  rw [Mat.get_map _ _ hi hj]
  obtain ⟨h1, h2⟩ := h i hi j hj
  refine thr_neg fun hc => ?_
  obtain ⟨_, _, hc⟩ := hc
  have hc : number (getThreshold (α := Bits o) a b s) < number (absBits (n.get i j)) := hc
  rw [number_abs] at hc
  have : (number (getThreshold (α := Bits o) a b s) : ℝ) < |((number (n.get i j) : ℚ) : ℝ)| := by exact_mod_cast hc
  linarith

theorem nonzero_none {m : Mat F32} (h : ∀ i < m.rows, ∀ j < m.cols, m.get i j = 0#32) : nonzeroCount m = 0 := by
  unfold nonzeroCount
  rw [List.length_eq_zero_iff, List.filter_eq_nil_iff]
  intro x hx
  obtain ⟨k, hk, rfl⟩ := List.mem_iff_getElem.1 hx
  have hk' : k < m.rows * m.cols := by rw [← m.wf]; exact hk
  have hc : 0 < m.cols := Nat.pos_of_ne_zero fun h => by rw [h] at hk'; omega
  have e := data_entry m k
  rw [h _ (Nat.div_lt_of_lt_mul (by rwa [Nat.mul_comm])) _ (Nat.mod_lt _ hc), List.getD_eq_getElem _ _ hk] at e
  rw [e]
  decide

theorem nonzero_le (m : Mat F32) : nonzeroCount m ≤ m.rows * m.cols := by
  unfold nonzeroCount
  rw [← m.wf]
  exact List.length_filter_le _ _

end WB.Props
