import Mathlib.Algebra.BigOperators.Intervals
import Mathlib.Algebra.BigOperators.Ring.Finset
import Mathlib.Tactic.Ring
import Mathlib.Tactic.Linarith
import Mathlib.Tactic.Abel
import Mathlib.Tactic.LinearCombination

/-!
Algebra of a two channel filter bank on signals indexed by the integers. `h` is the scaling filter of length `2t`,
the wavelet filter is `g j = (-1)^j h (2t-1-j)`.
-/

namespace WB.FB

open Finset

variable {R : Type*} [CommRing R]

/-- Sum over `2t` terms split by parity. -/
theorem sum_even_odd (t : ℕ) (f : ℕ → R) :
    ∑ j ∈ range (2 * t), f j = ∑ q ∈ range t, (f (2 * q) + f (2 * q + 1)) := by
  induction t with
  | zero => simp
  | succ t ih => rw [Nat.mul_succ, sum_range_succ, sum_range_succ, ih, sum_range_succ]; ring

/-- Reflection of both indexes and exchange. -/
theorem sum_reflect_swap (t : ℕ) (F : ℕ → ℕ → R) :
    ∑ p ∈ range t, ∑ q ∈ range t, F (t - 1 - p) (t - 1 - q) = ∑ p ∈ range t, ∑ q ∈ range t, F q p := by
  have h1 : ∀ p, ∑ q ∈ range t, F p (t - 1 - q) = ∑ q ∈ range t, F p q := fun p => sum_range_reflect (F p) t
  simp_rw [h1]
  rw [sum_range_reflect (fun p => ∑ q ∈ range t, F p q) t, sum_comm]

/-- The wavelet filter. -/
def hp (t : ℕ) (h : ℕ → R) (j : ℕ) : R := (-1) ^ j * h (2 * t - 1 - j)

theorem hp_even {t p : ℕ} (h : ℕ → R) (hpt : p < t) : hp t h (2 * p) = h (2 * (t - 1 - p) + 1) := by
  unfold hp
  rw [pow_mul]; simp
  congr 1; omega

theorem hp_odd {t p : ℕ} (h : ℕ → R) (hpt : p < t) : hp t h (2 * p + 1) = - h (2 * (t - 1 - p)) := by
  unfold hp
  rw [pow_succ, pow_mul]; simp
  congr 1; omega

/-- Low pass output. -/
def low (t : ℕ) (h : ℕ → R) (X : ℤ → R) (i : ℤ) : R := ∑ j ∈ range (2 * t), X (2 * i + j) * h j

/-- High pass output. -/
def high (t : ℕ) (h : ℕ → R) (X : ℤ → R) (i : ℤ) : R := ∑ j ∈ range (2 * t), X (2 * i + j) * hp t h j

/-- Synthesis at the even (`e = 0`) and odd (`e = 1`) positions. -/
def synth (t : ℕ) (h : ℕ → R) (A D : ℤ → R) (e : ℕ) (m : ℤ) : R :=
  ∑ p ∈ range t, (h (2 * p + e) * A (m - p) + hp t h (2 * p + e) * D (m - p))

/-- Local correlation. -/
def corr (h : ℕ → R) (p q : ℕ) : R := h (2 * p) * h (2 * q) + h (2 * p + 1) * h (2 * q + 1)

/-- Synthesis after analysis is a convolution with the even part of the autocorrelation; the aliasing terms cancel
exactly for every filter. -/
theorem synth_analysis (t : ℕ) (h : ℕ → R) (X : ℤ → R) (e : ℕ) (he : e < 2) (m : ℤ) :
    synth t h (low t h X) (high t h X) e m =
      ∑ p ∈ range t, ∑ q ∈ range t, corr h p q * X (2 * m + e + 2 * ((q : ℤ) - p)) := by
  unfold synth low high
  simp_rw [sum_even_odd t, mul_sum]
  simp_rw [← sum_add_distrib]
  -- each inner term as four products
  have expand : ∀ p ∈ range t, ∀ q ∈ range t,
      (h (2 * p + e) * (X (2 * (m - p) + (2 * q : ℕ)) * h (2 * q) + X (2 * (m - p) + (2 * q + 1 : ℕ)) * h (2 * q + 1)) +
        hp t h (2 * p + e) * (X (2 * (m - p) + (2 * q : ℕ)) * hp t h (2 * q) +
          X (2 * (m - p) + (2 * q + 1 : ℕ)) * hp t h (2 * q + 1))) =
      (if e = 0 then
        (h (2 * p) * h (2 * q) * X (2 * m + 2 * ((q : ℤ) - p)) + h (2 * p) * h (2 * q + 1) * X (2 * m + 2 * ((q : ℤ) - p) + 1))
        + (h (2 * (t - 1 - p) + 1) * h (2 * (t - 1 - q) + 1) * X (2 * m + 2 * (((t - 1 - p : ℕ) : ℤ) - (t - 1 - q : ℕ)))
          - h (2 * (t - 1 - p) + 1) * h (2 * (t - 1 - q)) * X (2 * m + 2 * (((t - 1 - p : ℕ) : ℤ) - (t - 1 - q : ℕ)) + 1))
      else
        (h (2 * p + 1) * h (2 * q) * X (2 * m + 2 * ((q : ℤ) - p)) + h (2 * p + 1) * h (2 * q + 1) * X (2 * m + 2 * ((q : ℤ) - p) + 1))
        + (- h (2 * (t - 1 - p)) * h (2 * (t - 1 - q) + 1) * X (2 * m + 2 * (((t - 1 - p : ℕ) : ℤ) - (t - 1 - q : ℕ)))
          + h (2 * (t - 1 - p)) * h (2 * (t - 1 - q)) * X (2 * m + 2 * (((t - 1 - p : ℕ) : ℤ) - (t - 1 - q : ℕ)) + 1))) := by
    intro p hp' q hq'
    rw [mem_range] at hp' hq'
    have i1 : 2 * (m - (p : ℤ)) + ((2 * q : ℕ) : ℤ) = 2 * m + 2 * ((q : ℤ) - p) := by push_cast; ring
    have i2 : 2 * (m - (p : ℤ)) + ((2 * q + 1 : ℕ) : ℤ) = 2 * m + 2 * ((q : ℤ) - p) + 1 := by push_cast; ring
    have i3 : 2 * m + 2 * (((t - 1 - p : ℕ) : ℤ) - (t - 1 - q : ℕ)) = 2 * m + 2 * ((q : ℤ) - p) := by omega
    rw [i1, i2, i3, hp_even h hq', hp_odd h hq']
    have : e = 0 ∨ e = 1 := by omega
    rcases this with rfl | rfl
    · simp only [Nat.add_zero, if_true]
      rw [hp_even h hp']; ring
    · simp only [one_ne_zero, if_false]
      rw [hp_odd h hp']; ring
  rw [sum_congr rfl (fun p hp' => sum_congr rfl (fun q hq' => expand p hp' q hq'))]
  have : e = 0 ∨ e = 1 := by omega
  rcases this with rfl | rfl
  · simp only [if_true, Nat.cast_zero, add_zero]
    simp_rw [sum_add_distrib, sum_sub_distrib]
    rw [sum_reflect_swap t (fun a b => h (2 * a + 1) * h (2 * b + 1) * X (2 * m + 2 * ((a : ℤ) - b))),
      sum_reflect_swap t (fun a b => h (2 * a + 1) * h (2 * b) * X (2 * m + 2 * ((a : ℤ) - b) + 1))]
    have e1 : ∑ p ∈ range t, ∑ q ∈ range t, h (2 * q + 1) * h (2 * p) * X (2 * m + 2 * ((q : ℤ) - p) + 1) =
        ∑ p ∈ range t, ∑ q ∈ range t, h (2 * p) * h (2 * q + 1) * X (2 * m + 2 * ((q : ℤ) - p) + 1) :=
      sum_congr rfl (fun p _ => sum_congr rfl (fun q _ => by ring))
    rw [e1]
    have e2 : ∑ p ∈ range t, ∑ q ∈ range t, corr h p q * X (2 * m + 2 * ((q : ℤ) - p)) =
        ∑ p ∈ range t, ∑ q ∈ range t, h (2 * p) * h (2 * q) * X (2 * m + 2 * ((q : ℤ) - p)) +
        ∑ p ∈ range t, ∑ q ∈ range t, h (2 * q + 1) * h (2 * p + 1) * X (2 * m + 2 * ((q : ℤ) - p)) := by
      rw [← sum_add_distrib]
      refine sum_congr rfl (fun p _ => ?_)
      rw [← sum_add_distrib]
      refine sum_congr rfl (fun q _ => ?_)
      unfold corr; ring
    rw [e2]; ring
  · simp only [one_ne_zero, if_false, Nat.cast_one]
    simp_rw [sum_add_distrib]
    rw [sum_reflect_swap t (fun a b => - h (2 * a) * h (2 * b + 1) * X (2 * m + 2 * ((a : ℤ) - b))),
      sum_reflect_swap t (fun a b => h (2 * a) * h (2 * b) * X (2 * m + 2 * ((a : ℤ) - b) + 1))]
    have e1 : ∑ p ∈ range t, ∑ q ∈ range t, - h (2 * q) * h (2 * p + 1) * X (2 * m + 2 * ((q : ℤ) - p)) =
        - ∑ p ∈ range t, ∑ q ∈ range t, h (2 * p + 1) * h (2 * q) * X (2 * m + 2 * ((q : ℤ) - p)) := by
      rw [← sum_neg_distrib]
      refine sum_congr rfl (fun p _ => ?_)
      rw [← sum_neg_distrib]
      exact sum_congr rfl (fun q _ => by ring)
    rw [e1]
    have e2 : ∑ p ∈ range t, ∑ q ∈ range t, corr h p q * X (2 * m + 1 + 2 * ((q : ℤ) - p)) =
        ∑ p ∈ range t, ∑ q ∈ range t, h (2 * p + 1) * h (2 * q + 1) * X (2 * m + 2 * ((q : ℤ) - p) + 1) +
        ∑ p ∈ range t, ∑ q ∈ range t, h (2 * q) * h (2 * p) * X (2 * m + 2 * ((q : ℤ) - p) + 1) := by
      rw [← sum_add_distrib]
      refine sum_congr rfl (fun p _ => ?_)
      rw [← sum_add_distrib]
      refine sum_congr rfl (fun q _ => ?_)
      have : 2 * m + 1 + 2 * ((q : ℤ) - p) = 2 * m + 2 * ((q : ℤ) - p) + 1 := by ring
      rw [this]; unfold corr; ring
    rw [e2]; ring

/-- Even autocorrelation of the filter at lag `2s`. -/
def auto (t : ℕ) (h : ℕ → R) (s : ℕ) : R := ∑ k ∈ range (2 * t), h k * h (k + 2 * s)

theorem auto_eq_corr (t : ℕ) (h : ℕ → R) (s : ℕ) : auto t h s = ∑ p ∈ range t, corr h p (p + s) := by
  unfold auto corr
  rw [sum_even_odd]
  refine sum_congr rfl (fun p _ => ?_)
  have : 2 * p + 1 + 2 * s = 2 * (p + s) + 1 := by ring
  rw [this, ← Nat.mul_add]

theorem corr_comm (h : ℕ → R) (p q : ℕ) : corr h p q = corr h q p := by unfold corr; ring

/-- Grouping the double sum by the difference of the indexes. -/
theorem sum_corr_group (t : ℕ) (h : ℕ → R) (hz : ∀ j, 2 * t ≤ j → h j = 0) (Y : ℤ → R) :
    ∑ p ∈ range t, ∑ q ∈ range t, corr h p q * Y ((q : ℤ) - p) =
      auto t h 0 * Y 0 + ∑ s ∈ range t, auto t h (s + 1) * (Y (s + 1) + Y (-(s + 1))) := by
  have hcz : ∀ p q, t ≤ q → corr h p q = 0 := by
    intro p q hq; unfold corr; rw [hz (2 * q) (by omega), hz (2 * q + 1) (by omega)]; ring
  -- row by row: p fixed, q = p, q > p, q < p
  have split : ∀ p ∈ range t, ∑ q ∈ range t, corr h p q * Y ((q : ℤ) - p) =
      corr h p p * Y 0 + ∑ s ∈ range t, corr h p (p + (s + 1)) * Y (s + 1) +
        ∑ q ∈ range p, corr h p q * Y ((q : ℤ) - p) := by
    intro p hp'
    rw [mem_range] at hp'
    have h1 : ∑ q ∈ range t, corr h p q * Y ((q : ℤ) - p) = ∑ q ∈ range (p + 1 + t), corr h p q * Y ((q : ℤ) - p) := by
      apply sum_subset
      · intro x; simp only [mem_range]; omega
      · intro q _ hq
        rw [mem_range, not_lt] at hq
        rw [hcz p q hq, zero_mul]
    rw [h1, sum_range_add, sum_range_succ]
    have h2 : ∀ s ∈ range t, corr h p (p + 1 + s) * Y (((p + 1 + s : ℕ) : ℤ) - p) =
        corr h p (p + (s + 1)) * Y (s + 1) := by
      intro s _
      have a1 : p + 1 + s = p + (s + 1) := by omega
      have a2 : ((p + (s + 1) : ℕ) : ℤ) - p = s + 1 := by push_cast; ring
      rw [a1, a2]
    rw [sum_congr rfl h2]
    simp only [sub_self]
    ring
  rw [sum_congr rfl split, sum_add_distrib, sum_add_distrib]
  -- the lower triangle
  have tri : ∑ p ∈ range t, ∑ q ∈ range p, corr h p q * Y ((q : ℤ) - p) =
      ∑ s ∈ range t, ∑ q ∈ range t, corr h q (q + (s + 1)) * Y (-(s + 1)) := by
    have e1 : ∀ p ∈ range t, ∑ q ∈ range p, corr h p q * Y ((q : ℤ) - p) =
        ∑ q ∈ range t, if q < p then corr h q p * Y ((q : ℤ) - p) else 0 := by
      intro p hp'
      rw [mem_range] at hp'
      rw [← sum_filter]
      apply sum_congr
      · ext q; simp only [mem_range, mem_filter]; omega
      · intro q _; rw [corr_comm]
    rw [sum_congr rfl e1, sum_comm, sum_comm (s := range t) (t := range t)
      (f := fun s q => corr h q (q + (s + 1)) * Y (-(s + 1)))]
    refine sum_congr rfl (fun q hq => ?_)
    rw [mem_range] at hq
    have e2 : ∑ p ∈ range t, (if q < p then corr h q p * Y ((q : ℤ) - p) else 0) =
        ∑ p ∈ range (q + 1 + t), (if q < p then corr h q p * Y ((q : ℤ) - p) else 0) := by
      apply sum_subset
      · intro x; simp only [mem_range]; omega
      · intro p _ hp'
        rw [mem_range, not_lt] at hp'
        rw [hcz q p hp', zero_mul, ite_self]
    rw [e2, sum_range_add]
    have e3 : ∑ p ∈ range (q + 1), (if q < p then corr h q p * Y ((q : ℤ) - p) else 0) = 0 := by
      apply sum_eq_zero
      intro p hp'
      rw [mem_range] at hp'
      rw [if_neg (by omega)]
    rw [e3, zero_add]
    refine sum_congr rfl (fun s _ => ?_)
    rw [if_pos (by omega)]
    have a1 : q + 1 + s = q + (s + 1) := by omega
    have a2 : (q : ℤ) - ((q + (s + 1) : ℕ) : ℤ) = -(s + 1) := by push_cast; ring
    rw [a1, a2]
  rw [tri]
  simp_rw [auto_eq_corr, mul_add, sum_add_distrib, sum_mul]
  rw [sum_comm (s := range t) (t := range t) (f := fun p s => corr h p (p + (s + 1)) * Y (s + 1))]
  simp only [add_zero]
  ring

/-- Even-shift orthonormality. -/
def Ortho (t : ℕ) (h : ℕ → R) : Prop := ∀ s, auto t h s = if s = 0 then 1 else 0

/-- Perfect reconstruction on integer-indexed signals. -/
theorem perfect (t : ℕ) (h : ℕ → R) (hz : ∀ j, 2 * t ≤ j → h j = 0) (ho : Ortho t h) (X : ℤ → R) (e : ℕ)
    (he : e < 2) (m : ℤ) : synth t h (low t h X) (high t h X) e m = X (2 * m + e) := by
  rw [synth_analysis t h X e he m, sum_corr_group t h hz (fun s => X (2 * m + e + 2 * s)), ho 0]
  simp only [if_true, mul_zero, add_zero, one_mul]
  have : ∑ s ∈ range t, auto t h (s + 1) * (X (2 * m + e + 2 * (s + 1)) + X (2 * m + e + 2 * -(s + 1))) = 0 := by
    apply sum_eq_zero
    intro s _
    rw [ho (s + 1), if_neg (by omega), zero_mul]
  rw [this, add_zero]

end WB.FB
