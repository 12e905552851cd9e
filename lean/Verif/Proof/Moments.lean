import Verif.Props.Structure
import Mathlib.Data.Nat.Choose.Sum

/-! Polynomials in two variables on windows of samples, and filters with vanishing moments. -/

set_option linter.unusedSectionVars false

namespace WB

open Finset Spec Props

section Ring
variable {R : Type} [CommRing R] [Inhabited R]

/-- Polynomials of degree less than `N` in each variable. -/
def P2 (N : ℕ) (Q : ℕ → ℕ → R) : Prop :=
  ∃ c : ℕ → ℕ → R, ∀ u v, Q u v = ∑ a ∈ range N, ∑ b ∈ range N, c a b * (u : R) ^ a * (v : R) ^ b

theorem P2.swap {N : ℕ} {Q : ℕ → ℕ → R} (h : P2 N Q) : P2 N fun u v => Q v u := by
  obtain ⟨c, hc⟩ := h
  refine ⟨fun a b => c b a, fun u v => ?_⟩
  beta_reduce
  rw [hc, sum_comm]
  exact sum_congr rfl fun a _ => sum_congr rfl fun b _ => by ring

theorem P2.lin {N : ℕ} {S : Finset ℕ} {w : ℕ → R} {F : ℕ → ℕ → ℕ → R} (h : ∀ k, P2 N (F k)) :
    P2 N fun u v => ∑ k ∈ S, w k * F k u v := by
  choose c hc using h
  refine ⟨fun a b => ∑ k ∈ S, w k * c k a b, fun u v => ?_⟩
  simp_rw [hc, mul_sum, sum_mul]
  rw [sum_comm]
  refine sum_congr rfl fun a _ => ?_
  rw [sum_comm]
  exact sum_congr rfl fun b _ => sum_congr rfl fun k _ => by ring

theorem affine_pow {N a : ℕ} (ha : a < N) (x y : R) :
    (x + y) ^ a = ∑ m ∈ range N, x ^ m * y ^ (a - m) * (a.choose m : R) := by
  rw [add_pow]
  refine sum_subset (range_subset_range.2 (by omega)) ?_
  intro m _ hm
  rw [mem_range] at hm
  rw [Nat.choose_eq_zero_of_lt (by omega)]; simp

theorem P2.affine {N : ℕ} {Q : ℕ → ℕ → R} (h : P2 N Q) (k : ℕ) : P2 N fun u v => Q (2 * u + k) v := by
  obtain ⟨c, hc⟩ := h
  refine ⟨fun m b => ∑ a ∈ range N, c a b * (2 ^ m * (k : R) ^ (a - m) * (a.choose m : R)), fun u v => ?_⟩
  beta_reduce
  rw [hc]
  have e : ∀ a ∈ range N, ∑ b ∈ range N, c a b * ((2 * u + k : ℕ) : R) ^ a * (v : R) ^ b =
      ∑ m ∈ range N, ∑ b ∈ range N, c a b * (2 ^ m * (k : R) ^ (a - m) * (a.choose m : R)) * (u : R) ^ m * (v : R) ^ b := by
    intro a ha
    rw [sum_comm]
    refine sum_congr rfl fun b _ => ?_
    rw [Nat.cast_add, Nat.cast_mul, affine_pow (mem_range.1 ha), mul_sum, sum_mul]
    refine sum_congr rfl fun m _ => ?_
    rw [Nat.cast_ofNat, mul_pow]; ring
  rw [sum_congr rfl e, sum_comm]
  refine sum_congr rfl fun m _ => ?_
  rw [sum_comm]
  refine sum_congr rfl fun b _ => ?_
  rw [sum_mul, sum_mul]

/-- One step of filtering and taking every second value. -/
theorem P2.step {N : ℕ} {Q : ℕ → ℕ → R} (h : P2 N Q) (S T : Finset ℕ) (w w' : ℕ → R) :
    P2 N fun u v => ∑ k ∈ S, w k * ∑ l ∈ T, w' l * Q (2 * u + k) (2 * v + l) :=
  P2.lin fun k => P2.lin fun l => ((h.affine k).swap.affine l).swap

theorem P2.killed {N L : ℕ} {Q : ℕ → ℕ → R} (h : P2 N Q) {f : ℕ → R} (hf : ∀ m < N, ∑ u ∈ range L, f u * (u : R) ^ m = 0) (v : ℕ) :
    ∑ u ∈ range L, f u * Q u v = 0 := by
  obtain ⟨c, hc⟩ := h
  simp_rw [hc, mul_sum]
  rw [sum_comm]
  refine sum_eq_zero fun a ha => ?_
  rw [sum_comm]
  refine sum_eq_zero fun b _ => ?_
  have : ∑ u ∈ range L, f u * (c a b * (u : R) ^ a * (v : R) ^ b) = (∑ u ∈ range L, f u * (u : R) ^ a) * (c a b * (v : R) ^ b) := by
    rw [sum_mul]; exact sum_congr rfl fun u _ => by ring
  rw [this, hf a (mem_range.1 ha), zero_mul]

/-- Moments of the high pass filter from alternating moments of the low pass filter. -/
theorem qmf_moment {N : ℕ} {h : List R} (hl : h.length = 2 * N) {m : ℕ} (hmN : m < N) :
    ∑ u ∈ range (2 * N), fl (qmf h) u * (u : R) ^ m =
      ∑ j ∈ range N, -(∑ u ∈ range (2 * N), (-1) ^ u * h.getD u 0 * (u : R) ^ j) *
        ((-1) ^ j * ((2 * N - 1 : ℕ) : R) ^ (m - j) * (m.choose j : R)) := by
  rw [← sum_range_reflect]
  have e : ∀ w ∈ range (2 * N), fl (qmf h) (2 * N - 1 - w) * ((2 * N - 1 - w : ℕ) : R) ^ m =
      ∑ j ∈ range N, -((-1) ^ w * h.getD w 0 * (w : R) ^ j) * ((-1) ^ j * ((2 * N - 1 : ℕ) : R) ^ (m - j) * (m.choose j : R)) := by
    intro w hw
    rw [mem_range] at hw
    have h1 : fl (qmf h) (2 * N - 1 - w) = -((-1) ^ w * h.getD w 0) := by
      change (qmf h).getD _ 0 = _
      rw [getD_qmf h N hl (by omega)]
      unfold FB.hp
      rw [show 2 * N - 1 - (2 * N - 1 - w) = w by omega]
      rcases Nat.even_or_odd' w with ⟨c, rfl | rfl⟩
      · rw [show 2 * N - 1 - 2 * c = 2 * (N - 1 - c) + 1 by omega, pow_succ, pow_mul, pow_mul]; simp
      · rw [show 2 * N - 1 - (2 * c + 1) = 2 * (N - 1 - c) by omega, pow_succ, pow_mul, pow_mul]; simp
    have h2 : ((2 * N - 1 - w : ℕ) : R) = -(w : R) + ((2 * N - 1 : ℕ) : R) := by
      rw [Nat.cast_sub (by omega)]; ring
    rw [h1, h2, affine_pow hmN, mul_sum]
    refine sum_congr rfl fun j _ => ?_
    rw [neg_pow (w : R)]; ring
  rw [sum_congr rfl e, sum_comm]
  refine sum_congr rfl fun j hj => ?_
  rw [← sum_mul, sum_neg_distrib]

theorem qmf_moments {N : ℕ} {h : List R} (hl : h.length = 2 * N) (hm : VanishingMoments N h) :
    ∀ m < N, ∑ u ∈ range (2 * N), fl (qmf h) u * (u : R) ^ m = 0 := by
  intro m hmN
  rw [qmf_moment hl hmN]
  refine sum_eq_zero fun j hj => ?_
  rw [hm j (mem_range.1 hj), neg_zero, zero_mul]

/-! ### windows -/

/-- The window of `U + 1` values beginning at `(i, j)`. -/
def win (m : Mat R) (i j u v : ℕ) : R := m.get ((i + u) % m.rows) ((j + v) % m.cols)

/-- One step, in windows. -/
theorem win_step {p : Params} {f : List R} {m : Mat R} (he : Halves p m) (rb cb : Bool) (i j u v : ℕ) :
    win (stepSub p f rb cb m) i j u v = ∑ k ∈ range (2 * p.wtype), fl (subf f rb) k *
      ∑ l ∈ range (tapsC p), tapC p (subf f cb) l * win m (2 * i) (2 * j) (2 * u + k) (2 * v + l) := by
  obtain ⟨⟨r0, r1⟩, hc⟩ := he
  have hC : 0 < (if p.dimension = 1 then 1 else m.cols / 2) := by
    by_cases hd : p.dimension = 1 <;> simp only [hd, if_true, if_false] at hc ⊢ <;> omega
  unfold win stepSub
  simp only [Mat.rows_ofFn, Mat.cols_ofFn]
  rw [Mat.get_ofFn (Nat.mod_lt _ r0) (Nat.mod_lt _ hC)]
  have idx : ∀ {n a b k : ℕ}, n = 2 * (n / 2) → (2 * ((a + b) % (n / 2)) + k) % n = (2 * a + (2 * b + k)) % n := by
    intro n a b k hn
    rw [← Nat.mul_mod_mul_left, ← hn, Nat.mod_add_mod]
    congr 1; ring
  refine sum_congr rfl fun k _ => ?_
  congr 1
  refine sum_congr rfl fun l _ => ?_
  congr 1
  rw [idx r1]
  by_cases hd : p.dimension = 1
  · simp only [hd, if_true] at hc ⊢
    rw [hc]; simp only [Nat.mod_one]
  · simp only [hd, if_false] at hc ⊢
    rw [idx hc.2]

theorem width_step {N s U : ℕ} : 2 ^ s * (2 * U + (2 * N - 1)) + (2 * N - 1) * (2 ^ s - 1) =
    2 ^ (s + 1) * U + (2 * N - 1) * (2 ^ (s + 1) - 1) := by
  have : 0 < 2 ^ s := by positivity
  rw [show 2 ^ (s + 1) - 1 = 2 ^ s + (2 ^ s - 1) by rw [pow_succ]; omega, pow_succ]
  ring

theorem sig_poly {k : Kit R} {p : Params} (hv : ValidParams p) (hf : FilterLen k p) {x : Mat R} (hx : Fits p 0 x) (ht : 0 < p.wtype)
    {s : ℕ} (hs : s ≤ p.steps) : ∀ (i j U : ℕ) (Q : ℕ → ℕ → R), P2 p.wtype Q →
      (∀ t ≤ 2 ^ s * U + (2 * p.wtype - 1) * (2 ^ s - 1), ∀ t' ≤ 2 ^ s * U + (2 * p.wtype - 1) * (2 ^ s - 1),
        win x (2 ^ s * i) (2 ^ s * j) t t' = Q t t') →
      ∃ Q', P2 p.wtype Q' ∧ ∀ u ≤ U, ∀ v ≤ U, win (sig p (scaling k p) x s) i j u v = Q' u v := by
  induction s with
  | zero =>
    intro i j U Q hQ h
    refine ⟨Q, hQ, fun u hu v hv => ?_⟩
    simp only [pow_zero, one_mul, Nat.sub_self, Nat.mul_zero, Nat.add_zero] at h
    exact h u hu v hv
  | succ s ih =>
    intro i j U Q hQ h
    obtain ⟨Q', hQ', h'⟩ := ih (by omega) (2 * i) (2 * j) (2 * U + (2 * p.wtype - 1)) Q hQ (by
      rw [width_step]
      have e : ∀ z, 2 ^ s * (2 * z) = 2 ^ (s + 1) * z := fun z => by rw [pow_succ]; ring
      rw [e, e]
      exact h)
    refine ⟨_, hQ'.step (range (2 * p.wtype)) (range (tapsC p)) (fl (subf (scaling k p) false)) (tapC p (subf (scaling k p) false)), ?_⟩
    intro u hu v hv'
    rw [sig_sub hv hf hx (by omega), win_step (halves_of_fits hv (by omega) (fits_sig hv hx (by omega)))]
    refine sum_congr rfl fun a ha => ?_
    congr 1
    refine sum_congr rfl fun b hb => ?_
    congr 1
    rw [mem_range] at ha hb
    have : tapsC p ≤ 2 * p.wtype := by unfold tapsC; split <;> omega
    exact h' _ (by omega) _ (by omega)

/-- A detail, where the padded channel is locally a polynomial. -/
theorem detail_poly {k : Kit R} {p : Params} (hv : ValidParams p) (hf : FilterLen k p) {x : Mat R} (hx : Fits p 0 x) {s : ℕ}
    (hs : s < p.steps) {i j : ℕ} (h : LocallyPolynomial p (s + 1) i j x) :
    ∃ Q, P2 p.wtype Q ∧ (∀ u < 2 * p.wtype, ∀ v < 2 * p.wtype, win (sig p (scaling k p) x s) (2 * i) (2 * j) u v = Q u v) := by
  have ht : 0 < p.wtype := Nat.pos_of_ne_zero (wavelet_of_steps hv hs)
  obtain ⟨c, hc⟩ := h
  obtain ⟨Q', h1, h2⟩ := sig_poly (k := k) hv hf hx ht (s := s) (by omega) (2 * i) (2 * j) (2 * p.wtype - 1)
    (fun t t' => ∑ a ∈ range p.wtype, ∑ b ∈ range p.wtype, c a b * (t : R) ^ a * (t' : R) ^ b) ⟨c, fun _ _ => rfl⟩ (by
      have e : ∀ z, 2 ^ s * (2 * z) = 2 ^ (s + 1) * z := fun z => by rw [pow_succ]; ring
      have w := width_step (N := p.wtype) (s := s) (U := 0)
      simp only [Nat.mul_zero, Nat.zero_add] at w
      rw [e, e, w]
      exact hc)
  exact ⟨Q', h1, fun u hu v hv' => h2 u (by omega) v (by omega)⟩

theorem off_cases {p : Params} {q : ℕ} (hq : q < detailsPerStep p) :
    rOff p q = true ∨ (p.dimension ≠ 1 ∧ rOff p q = false ∧ cOff p q = true) := by
  by_cases hd : p.dimension = 1
  · left; simp [rOff, hd]
  · have : q < 3 := by unfold detailsPerStep at hq; split at hq <;> omega
    have : q = 0 ∨ q = 1 ∨ q = 2 := by omega
    rcases this with rfl | rfl | rfl <;> simp [rOff, cOff, hd]

/-- A detail as a sum over the values of a polynomial. -/
theorem detail_value {k : Kit R} {p : Params} (hv : ValidParams p) (hf : FilterLen k p) {x : Mat R} (hx : Fits p 0 x) {s : ℕ}
    (hs : s < p.steps) (rb cb : Bool) {i j : ℕ} (hi : i < (stepSub p (scaling k p) rb cb (sig p (scaling k p) x s)).rows)
    (hj : j < (stepSub p (scaling k p) rb cb (sig p (scaling k p) x s)).cols) (h : LocallyPolynomial p (s + 1) i j x) :
    ∃ Q, P2 p.wtype Q ∧ (∀ u < 2 * p.wtype, ∀ v < 2 * p.wtype, win (sig p (scaling k p) x s) (2 * i) (2 * j) u v = Q u v) ∧
      (stepSub p (scaling k p) rb cb (sig p (scaling k p) x s)).get i j =
        ∑ a ∈ range (2 * p.wtype), fl (subf (scaling k p) rb) a *
          ∑ l ∈ range (tapsC p), tapC p (subf (scaling k p) cb) l * Q a l := by
  obtain ⟨Q, hQ, e⟩ := detail_poly (k := k) hv hf hx hs h
  refine ⟨Q, hQ, e, ?_⟩
  have hh := halves_of_fits hv hs (fits_sig (k := k) hv hx (show s ≤ p.steps by omega))
  have w := win_step (f := scaling k p) hh rb cb i j 0 0
  have w0 : win (stepSub p (scaling k p) rb cb (sig p (scaling k p) x s)) i j 0 0 =
      (stepSub p (scaling k p) rb cb (sig p (scaling k p) x s)).get i j := by
    unfold win
    rw [Nat.add_zero, Nat.add_zero, Nat.mod_eq_of_lt hi, Nat.mod_eq_of_lt hj]
  rw [← w0, w]
  have tc : tapsC p ≤ 2 * p.wtype := by have := wavelet_of_steps hv hs; unfold tapsC; split <;> omega
  refine sum_congr rfl fun a ha => ?_
  congr 1
  refine sum_congr rfl fun l hl => ?_
  congr 1
  rw [mem_range] at ha hl
  rw [Nat.mul_zero, Nat.zero_add, Nat.zero_add]
  exact e a ha l (by omega)

end Ring

/-! ### bounds -/

theorem abs_sum_mul_le {L : ℕ} {f x : ℕ → ℝ} {B M : ℝ} (hM : 0 ≤ M) (hf : ∑ u ∈ range L, |f u| ≤ B) (hx : ∀ u < L, |x u| ≤ M) :
    |∑ u ∈ range L, f u * x u| ≤ B * M := by
  calc |∑ u ∈ range L, f u * x u| ≤ ∑ u ∈ range L, |f u * x u| := abs_sum_le_sum_abs _ _
    _ ≤ ∑ u ∈ range L, |f u| * M := sum_le_sum fun u hu => by
        rw [abs_mul]; exact mul_le_mul_of_nonneg_left (hx u (mem_range.1 hu)) (abs_nonneg _)
    _ = (∑ u ∈ range L, |f u|) * M := by rw [sum_mul]
    _ ≤ B * M := mul_le_mul_of_nonneg_right hf hM

/-- The factor for the taps across the columns. -/
noncomputable def bC (p : Params) (B : ℝ) : ℝ := if p.dimension = 1 then 1 else B

theorem sum_tapC {p : Params} {f : List ℝ} {B : ℝ} (hB : ∑ u ∈ range (2 * p.wtype), |fl f u| ≤ B) :
    ∑ u ∈ range (tapsC p), |tapC p f u| ≤ bC p B := by
  unfold tapsC tapC bC
  by_cases hd : p.dimension = 1
  · simp [hd]
  · simpa only [if_neg hd] using hB

theorem bC_nonneg {p : Params} {B : ℝ} (hB : 0 ≤ B) : 0 ≤ bC p B := by unfold bC; split <;> linarith

theorem sig_bound {k : Kit ℝ} {p : Params} (hv : ValidParams p) (hf : FilterLen k p) {x : Mat ℝ} (hx : Fits p 0 x) (ht : 0 < p.wtype)
    {B A : ℝ} (hB0 : 0 ≤ B) (hA : 0 ≤ A) (hB : ∑ u ∈ range (2 * p.wtype), |fl (scaling k p) u| ≤ B)
    {s : ℕ} (hs : s ≤ p.steps) : ∀ (i j U : ℕ),
      (∀ t ≤ 2 ^ s * U + (2 * p.wtype - 1) * (2 ^ s - 1), ∀ t' ≤ 2 ^ s * U + (2 * p.wtype - 1) * (2 ^ s - 1),
        |win x (2 ^ s * i) (2 ^ s * j) t t'| ≤ A) →
      ∀ u ≤ U, ∀ v ≤ U, |win (sig p (scaling k p) x s) i j u v| ≤ (B * bC p B) ^ s * A := by
  induction s with
  | zero =>
    intro i j U h u hu v hv
    simp only [pow_zero, one_mul, Nat.sub_self, Nat.mul_zero, Nat.add_zero] at h ⊢
    exact h u hu v hv
  | succ s ih =>
    intro i j U h u hu v hv'
    have h' := ih (by omega) (2 * i) (2 * j) (2 * U + (2 * p.wtype - 1)) (by
      rw [width_step]
      have e : ∀ z, 2 ^ s * (2 * z) = 2 ^ (s + 1) * z := fun z => by rw [pow_succ]; ring
      rw [e, e]
      exact h)
    rw [sig_sub hv hf hx (by omega), win_step (halves_of_fits hv (by omega) (fits_sig hv hx (by omega)))]
    have hb := bC_nonneg (p := p) hB0
    have hM : 0 ≤ (B * bC p B) ^ s * A := by positivity
    have tc : tapsC p ≤ 2 * p.wtype := by unfold tapsC; split <;> omega
    have := abs_sum_mul_le (L := 2 * p.wtype) (f := fl (subf (scaling k p) false)) (B := B) (M := bC p B * ((B * bC p B) ^ s * A))
      (x := fun a => ∑ l ∈ range (tapsC p), tapC p (subf (scaling k p) false) l *
        win (sig p (scaling k p) x s) (2 * i) (2 * j) (2 * u + a) (2 * v + l)) (by positivity) (by simpa [subf] using hB) (by
        intro a ha
        exact abs_sum_mul_le hM (by simpa [subf] using sum_tapC hB) (fun l hl => h' _ (by omega) _ (by omega)))
    refine this.trans (le_of_eq ?_)
    rw [pow_succ]; ring

/-- Replace a filter by another one with the same moments. -/
theorem P2.exchange {N L : ℕ} {Q : ℕ → ℕ → ℝ} (h : P2 N Q) {f e : ℕ → ℝ}
    (hf : ∀ m < N, ∑ u ∈ range L, f u * (u : ℝ) ^ m = ∑ u ∈ range L, e u * (u : ℝ) ^ m) (v : ℕ) :
    ∑ u ∈ range L, f u * Q u v = ∑ u ∈ range L, e u * Q u v := by
  have := h.killed (f := fun u => f u - e u) (L := L) (fun m hm => by
    simp_rw [sub_mul]; rw [sum_sub_distrib, hf m hm, sub_self]) v
  simp_rw [sub_mul] at this
  rw [sum_sub_distrib] at this
  linarith

end WB
