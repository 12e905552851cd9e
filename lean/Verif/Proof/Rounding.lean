import Verif.Model.FloatArith
import Verif.Proof.Bridge
import Verif.Proof.Error
import Mathlib.Tactic.Positivity
import Mathlib.Tactic.GCongr
import Mathlib.Data.Int.Log
import Mathlib.Tactic.FieldSimp

/-!
Rounding errors of the 1D transform. `Ap a A π q`: the exact value `A` is at most `π` in absolute value, and the computed value `a` differs from it
by at most `q - π`.
-/

namespace WB

open Finset Spec

def Ap (a A π q : ℝ) : Prop := |A| ≤ π ∧ |a - A| + π ≤ q

namespace Ap

theorem nonneg {a A π q : ℝ} (h : Ap a A π q) : 0 ≤ π ∧ π ≤ q := ⟨(abs_nonneg A).trans h.1, by have := abs_nonneg (a - A); linarith [h.2]⟩

theorem abs_le {a A π q : ℝ} (h : Ap a A π q) : |a| ≤ q := by
  have : |a| ≤ |a - A| + |A| := by
    have := abs_add_le (a - A) A
    simpa using this
  linarith [h.1, h.2]

theorem zero {π q : ℝ} (h1 : 0 ≤ π) (h2 : π ≤ q) : Ap 0 0 π q := ⟨by simpa using h1, by simpa using h2⟩

theorem weaken {a A π q π' q' : ℝ} (h : Ap a A π q) (h1 : π ≤ π') (h2 : q - π ≤ q' - π') : Ap a A π' q' :=
  ⟨h.1.trans h1, by linarith [h.2]⟩

theorem neg {a A π q : ℝ} (h : Ap a A π q) : Ap (-a) (-A) π q :=
  ⟨by rw [abs_neg]; exact h.1, by rw [show -a - -A = -(a - A) by ring, abs_neg]; exact h.2⟩

end Ap

/-- Numbers with rounding, one operation at a time: `fin x` says that `x` is a finite number, `val x` is its value. Sums and products are finite as long as the
exact result is at most `Ω`, with relative error `u` and absolute error `ω`. -/
structure Stepwise (α : Type) [Zero α] [Add α] [Mul α] [Neg α] [Inhabited α] (u ω Ω : ℝ) where
  val : α → ℝ
  fin : α → Prop
  zero : fin 0 ∧ val 0 = 0
  neg : ∀ x, fin x → fin (-x) ∧ val (-x) = -val x
  add : ∀ x y, fin x → fin y → |val x + val y| ≤ Ω → fin (x + y) ∧ |val (x + y) - (val x + val y)| ≤ u * |val x + val y| + ω
  mul : ∀ x y, fin x → fin y → |val x * val y| ≤ Ω → fin (x * y) ∧ |val (x * y) - val x * val y| ≤ u * |val x * val y| + ω

/-- Numbers with rounding: what the transform needs. A sum of `n` products is finite as long as the bound for the computed value is at most `Ω`. How the sum
is computed is left open: one operation at a time (`Stepwise.scalars`), or in any order and with fused operations (`Verif.Proof.AnyOrder`). -/
structure Scalars (α : Type) [Zero α] [Add α] [Mul α] [Neg α] [Inhabited α] (u ω Ω : ℝ) where
  val : α → ℝ
  fin : α → Prop
  zero : fin 0 ∧ val 0 = 0
  neg : ∀ x, fin x → fin (-x) ∧ val (-x) = -val x
  dot : ∀ (n : ℕ) (x y : ℕ → α) (P : ℕ → ℝ), (∀ j < n, fin (x j) ∧ fin (y j) ∧ |val (x j) * val (y j)| ≤ P j) →
    (1 + u) ^ n * (∑ j ∈ range n, ((1 + u) * P j + ω) + n * ω) ≤ Ω →
    fin ((List.range n).foldl (fun acc j => acc + x j * y j) 0) ∧
    |val ((List.range n).foldl (fun acc j => acc + x j * y j) 0) - ∑ j ∈ range n, val (x j) * val (y j)| ≤
      (1 + u) ^ n * (∑ j ∈ range n, ((1 + u) * P j + ω) + n * ω) - ∑ j ∈ range n, P j

/-- Real numbers with an arithmetic that obeys the standard model. -/
def Stepwise.ofStd {a : Arith} {u ω : ℝ} (hs : a.Std u ω) (Ω : ℝ) : Stepwise (Fl a) u ω Ω where
  val := Fl.val
  fin _ := True
  zero := ⟨trivial, rfl⟩
  neg _ _ := ⟨trivial, rfl⟩
  add x y _ _ _ := ⟨trivial, hs.1 x y⟩
  mul x y _ _ _ := ⟨trivial, hs.2 x y⟩

namespace Stepwise
variable {α : Type} [Zero α] [Add α] [Mul α] [Neg α] [Inhabited α] {u ω Ω : ℝ} (sc : Stepwise α u ω Ω)

/-- A finite number near the exact value. -/
def Ap (x : α) (A π q : ℝ) : Prop := sc.fin x ∧ WB.Ap (sc.val x) A π q

variable {sc}

theorem Ap.nonneg {x : α} {A π q : ℝ} (h : sc.Ap x A π q) : 0 ≤ π ∧ π ≤ q := WB.Ap.nonneg h.2

theorem Ap.abs_le {x : α} {A π q : ℝ} (h : sc.Ap x A π q) : |sc.val x| ≤ q := WB.Ap.abs_le h.2

theorem Ap.zero {π q : ℝ} (h1 : 0 ≤ π) (h2 : π ≤ q) : sc.Ap 0 0 π q := ⟨sc.zero.1, by rw [sc.zero.2]; exact WB.Ap.zero h1 h2⟩

theorem Ap.weaken {x : α} {A π q π' q' : ℝ} (h : sc.Ap x A π q) (h1 : π ≤ π') (h2 : q - π ≤ q' - π') : sc.Ap x A π' q' :=
  ⟨h.1, WB.Ap.weaken h.2 h1 h2⟩

theorem Ap.neg {x : α} {A π q : ℝ} (h : sc.Ap x A π q) : sc.Ap (-x) (-A) π q :=
  ⟨(sc.neg x h.1).1, by rw [(sc.neg x h.1).2]; exact WB.Ap.neg h.2⟩

theorem Ap.add (hu : 0 ≤ u) (hω : 0 ≤ ω) {x y : α} {A B π q π' q' : ℝ} (h : sc.Ap x A π q) (h' : sc.Ap y B π' q')
    (hΩ : (1 + u) * (q + q') + ω ≤ Ω) : sc.Ap (x + y) (A + B) (π + π') ((1 + u) * (q + q') + ω) := by
  have e2 : |sc.val x + sc.val y| ≤ q + q' := (abs_add_le _ _).trans (add_le_add h.abs_le h'.abs_le)
  have n1 := h.nonneg
  have n2 := h'.nonneg
  obtain ⟨f, e1⟩ := sc.add x y h.1 h'.1 (by nlinarith)
  refine ⟨f, (abs_add_le A B).trans (add_le_add h.2.1 h'.2.1), ?_⟩
  have e3 : |sc.val (x + y) - (A + B)| ≤ |sc.val (x + y) - (sc.val x + sc.val y)| + (|sc.val x - A| + |sc.val y - B|) := by
    have i1 := abs_add_le (sc.val (x + y) - (sc.val x + sc.val y)) ((sc.val x - A) + (sc.val y - B))
    have i2 := abs_add_le (sc.val x - A) (sc.val y - B)
    rw [show sc.val (x + y) - (sc.val x + sc.val y) + (sc.val x - A + (sc.val y - B)) = sc.val (x + y) - (A + B) by ring] at i1
    linarith
  have e4 : u * |sc.val x + sc.val y| ≤ u * (q + q') := mul_le_mul_of_nonneg_left e2 hu
  have := h.2.2
  have := h'.2.2
  linarith

theorem fold (hu : 0 ≤ u) (hω : 0 ≤ ω) (t : ℕ → α) (T : ℕ → ℝ) (π β : ℕ → ℝ) (n : ℕ)
    (h : ∀ j < n, sc.Ap (t j) (T j) (π j) (β j)) (hΩ : (1 + u) ^ n * (∑ j ∈ range n, β j + n * ω) ≤ Ω) :
    sc.Ap ((List.range n).foldl (fun acc j => acc + t j) (0 : α)) ((List.range n).foldl (fun acc j => acc + T j) (0 : ℝ))
      (∑ j ∈ range n, π j) ((1 + u) ^ n * (∑ j ∈ range n, β j + n * ω)) := by
  induction n with
  | zero =>
    have := Stepwise.Ap.zero (sc := sc) (le_refl 0) (le_refl 0)
    simpa using this
  | succ n ih =>
    have h2 := h n (by omega)
    have hβ : 0 ≤ β n := h2.nonneg.1.trans h2.nonneg.2
    have hp : 1 ≤ (1 + u) ^ n := one_le_pow₀ (by linarith)
    have hp1 : 1 ≤ (1 + u) ^ (n + 1) := one_le_pow₀ (by linarith)
    have e1 : (1 + u) * β n ≤ (1 + u) ^ (n + 1) * β n := by
      rw [pow_succ]
      nlinarith [mul_nonneg (sub_nonneg.2 hp) (mul_nonneg (show 0 ≤ 1 + u by linarith) hβ)]
    have e2 : ω ≤ (1 + u) ^ (n + 1) * ω := by nlinarith
    have hsn : 0 ≤ ∑ j ∈ range n, β j := sum_nonneg fun j hj => by
      have := (h j (by have := mem_range.1 hj; omega)).nonneg
      exact this.1.trans this.2
    have key : (1 + u) * ((1 + u) ^ n * (∑ j ∈ range n, β j + n * ω) + β n) + ω ≤
        (1 + u) ^ (n + 1) * (∑ j ∈ range (n + 1), β j + (n + 1 : ℕ) * ω) := by
      rw [sum_range_succ]
      push_cast
      calc (1 + u) * ((1 + u) ^ n * (∑ j ∈ range n, β j + n * ω) + β n) + ω
          = (1 + u) ^ (n + 1) * (∑ j ∈ range n, β j + n * ω) + (1 + u) * β n + ω := by ring
        _ ≤ (1 + u) ^ (n + 1) * (∑ j ∈ range n, β j + n * ω) + (1 + u) ^ (n + 1) * β n + (1 + u) ^ (n + 1) * ω := by linarith
        _ = _ := by ring
    have hprev : 0 ≤ (1 + u) ^ n * (∑ j ∈ range n, β j + n * ω) := by positivity
    have h1 := ih (fun j hj => h j (by omega)) (by nlinarith)
    rw [List.range_succ, List.foldl_append, List.foldl_append]
    have hsum := Stepwise.Ap.add hu hω h1 h2 (key.trans hΩ)
    rw [sum_range_succ π]
    exact hsum.weaken le_rfl (sub_le_sub_right key _)

/-- Sums of products, one operation at a time. -/
def scalars (hu : 0 ≤ u) (hω : 0 ≤ ω) (sc : Stepwise α u ω Ω) : Scalars α u ω Ω where
  val := sc.val
  fin := sc.fin
  zero := sc.zero
  neg := sc.neg
  dot n x y P h hΩ := by
    have hu1 : 1 ≤ 1 + u := by linarith
    have hpos : ∀ j ∈ range n, 0 ≤ (1 + u) * P j + ω := fun j hj => by
      have := (abs_nonneg _).trans (h j (mem_range.1 hj)).2.2
      positivity
    have hs0 : 0 ≤ ∑ j ∈ range n, ((1 + u) * P j + ω) := sum_nonneg hpos
    have hP : 1 ≤ (1 + u) ^ n := one_le_pow₀ hu1
    have k := Stepwise.fold (sc := sc) hu hω (fun j => x j * y j) (fun j => sc.val (x j) * sc.val (y j)) P (fun j => (1 + u) * P j + ω) n
      (fun j hj => by
        obtain ⟨h1, h2, h3⟩ := h j hj
        have hP0 := (abs_nonneg _).trans h3
        have top : (1 + u) * P j + ω ≤ Ω := by
          have e1 := single_le_sum hpos (mem_range.2 hj)
          have e2 : 0 ≤ (n : ℝ) * ω := by positivity
          nlinarith
        obtain ⟨f, e⟩ := sc.mul _ _ h1 h2 (by nlinarith)
        refine ⟨f, h3, ?_⟩
        have : u * |sc.val (x j) * sc.val (y j)| ≤ u * P j := mul_le_mul_of_nonneg_left h3 hu
        linarith) hΩ
    refine ⟨k.1, ?_⟩
    have e : (List.range n).foldl (fun acc j => acc + sc.val (x j) * sc.val (y j)) (0 : ℝ) = ∑ j ∈ range n, sc.val (x j) * sc.val (y j) := by
      clear k hΩ h hpos hs0 hP
      induction n with
      | zero => rfl
      | succ n ih => rw [List.range_succ, List.foldl_append, ih, sum_range_succ]; rfl
    rw [← e]
    exact le_sub_iff_add_le.2 k.2.2

end Stepwise

namespace Scalars
variable {α : Type} [Zero α] [Add α] [Mul α] [Neg α] [Inhabited α] {u ω Ω : ℝ} (sc : Scalars α u ω Ω)

/-- A finite number near the exact value. -/
def Ap (x : α) (A π q : ℝ) : Prop := sc.fin x ∧ WB.Ap (sc.val x) A π q

variable {sc}

theorem Ap.nonneg {x : α} {A π q : ℝ} (h : sc.Ap x A π q) : 0 ≤ π ∧ π ≤ q := WB.Ap.nonneg h.2

theorem Ap.abs_le {x : α} {A π q : ℝ} (h : sc.Ap x A π q) : |sc.val x| ≤ q := WB.Ap.abs_le h.2

theorem Ap.zero {π q : ℝ} (h1 : 0 ≤ π) (h2 : π ≤ q) : sc.Ap 0 0 π q := ⟨sc.zero.1, by rw [sc.zero.2]; exact WB.Ap.zero h1 h2⟩

theorem Ap.weaken {x : α} {A π q π' q' : ℝ} (h : sc.Ap x A π q) (h1 : π ≤ π') (h2 : q - π ≤ q' - π') : sc.Ap x A π' q' :=
  ⟨h.1, WB.Ap.weaken h.2 h1 h2⟩

theorem Ap.neg {x : α} {A π q : ℝ} (h : sc.Ap x A π q) : sc.Ap (-x) (-A) π q :=
  ⟨(sc.neg x h.1).1, by rw [(sc.neg x h.1).2]; exact WB.Ap.neg h.2⟩

/-- A product of two finite numbers near the exact value, not yet rounded: `β` bounds the rounded product. -/
def Pr (sc : Scalars α u ω Ω) (t : α) (T π β : ℝ) : Prop :=
  ∃ x y P, t = x * y ∧ sc.fin x ∧ sc.fin y ∧ |T| ≤ π ∧ |sc.val x * sc.val y - T| ≤ P - π ∧ (1 + u) * P + ω ≤ β

theorem Pr.nonneg {t : α} {T π β : ℝ} (h : sc.Pr t T π β) : 0 ≤ π := by
  obtain ⟨x, y, P, _, _, _, h1, h2, _⟩ := h
  exact (abs_nonneg _).trans h1

theorem Pr.weaken {t : α} {T π β β' : ℝ} (h : sc.Pr t T π β) (h' : β ≤ β') : sc.Pr t T π β' := by
  obtain ⟨x, y, P, h1, h2, h3, h4, h5, h6⟩ := h
  exact ⟨x, y, P, h1, h2, h3, h4, h5, h6.trans h'⟩

theorem Ap.mul {x y : α} {A B π q π' q' : ℝ} (h : sc.Ap x A π q) (h' : sc.Ap y B π' q') :
    sc.Pr (x * y) (A * B) (π * π') ((1 + u) * (q * q') + ω) := by
  have n1 := h.nonneg
  have n2 := h'.nonneg
  refine ⟨x, y, q * q', rfl, h.1, h'.1, by rw [abs_mul]; exact mul_le_mul h.2.1 h'.2.1 (abs_nonneg _) n1.1, ?_, le_rfl⟩
  have k1 := h.2
  have k2 := h'.2
  have a1 := h.abs_le
  have a2 := h'.abs_le
  generalize sc.val x = a at *
  generalize sc.val y = b at *
  have e3 : |a * b - A * B| ≤ |a - A| * |b| + |A| * |b - B| := by
    have i2 := abs_add_le ((a - A) * b) (A * (b - B))
    rw [abs_mul, abs_mul] at i2
    rwa [show (a - A) * b + A * (b - B) = a * b - A * B by ring] at i2
  have e5 : |a - A| * |b| ≤ (q - π) * q' :=
    mul_le_mul (by linarith [k1.2]) a2 (abs_nonneg _) (by linarith [n1.2])
  have e6 : |A| * |b - B| ≤ π * (q' - π') :=
    mul_le_mul k1.1 (by linarith [k2.2]) (abs_nonneg _) n1.1
  nlinarith

end Scalars

section Fold
variable {α : Type} [Zero α] [Add α] [Mul α] [Neg α] [Inhabited α] {u ω Ω : ℝ} {sc : Scalars α u ω Ω}

theorem fold_add_sum (T : ℕ → ℝ) (n : ℕ) : (List.range n).foldl (fun acc j => acc + T j) (0 : ℝ) = ∑ j ∈ range n, T j := by
  induction n with
  | zero => rfl
  | succ n ih => rw [List.range_succ, List.foldl_append, ih, sum_range_succ]; rfl

theorem ap_fold1 (hu : 0 ≤ u) (t : ℕ → α) (T : ℕ → ℝ) (π β : ℕ → ℝ) (n : ℕ)
    (h : ∀ j < n, sc.Pr (t j) (T j) (π j) (β j)) (hΩ : (1 + u) ^ n * (∑ j ∈ range n, β j + n * ω) ≤ Ω) :
    sc.Ap ((List.range n).foldl (fun acc j => acc + t j) (0 : α)) ((List.range n).foldl (fun acc j => acc + T j) (0 : ℝ))
      (∑ j ∈ range n, π j) ((1 + u) ^ n * (∑ j ∈ range n, β j + n * ω)) := by
  have ex : ∀ j, ∃ x y P, j < n → t j = x * y ∧ sc.fin x ∧ sc.fin y ∧ |T j| ≤ π j ∧ |sc.val x * sc.val y - T j| ≤ P - π j ∧ (1 + u) * P + ω ≤ β j := by
    intro j
    by_cases hj : j < n
    · obtain ⟨x, y, P, h⟩ := h j hj
      exact ⟨x, y, P, fun _ => h⟩
    · exact ⟨0, 0, 0, fun h => absurd h hj⟩
  choose x y P hx using ex
  have hb : ∑ j ∈ range n, ((1 + u) * P j + ω) ≤ ∑ j ∈ range n, β j := sum_le_sum fun j hj => (hx j (mem_range.1 hj)).2.2.2.2.2
  have hP : 0 ≤ (1 + u) ^ n := by positivity
  have hle : (1 + u) ^ n * (∑ j ∈ range n, ((1 + u) * P j + ω) + n * ω) ≤ (1 + u) ^ n * (∑ j ∈ range n, β j + n * ω) :=
    mul_le_mul_of_nonneg_left (by linarith) hP
  obtain ⟨k1, k2⟩ := sc.dot n x y P (fun j hj => by
    obtain ⟨_, h2, h3, h4, h5, _⟩ := hx j hj
    refine ⟨h2, h3, ?_⟩
    have := abs_add_le (sc.val (x j) * sc.val (y j) - T j) (T j)
    rw [sub_add_cancel] at this
    linarith) (hle.trans hΩ)
  have e : (List.range n).foldl (fun acc j => acc + t j) (0 : α) = (List.range n).foldl (fun acc j => acc + x j * y j) 0 := by
    refine List.foldl_ext _ _ _ fun a j hj => ?_
    rw [(hx j (List.mem_range.1 hj)).1]
  rw [fold_add_sum, e]
  refine ⟨k1, (abs_sum_le_sum_abs _ _).trans (sum_le_sum fun j hj => (hx j (mem_range.1 hj)).2.2.2.1), ?_⟩
  have d : |∑ j ∈ range n, sc.val (x j) * sc.val (y j) - ∑ j ∈ range n, T j| ≤ ∑ j ∈ range n, P j - ∑ j ∈ range n, π j := by
    rw [← sum_sub_distrib, ← sum_sub_distrib]
    exact (abs_sum_le_sum_abs _ _).trans (sum_le_sum fun j hj => (hx j (mem_range.1 hj)).2.2.2.2.1)
  have := abs_sub_le (sc.val ((List.range n).foldl (fun acc j => acc + x j * y j) 0)) (∑ j ∈ range n, sc.val (x j) * sc.val (y j)) (∑ j ∈ range n, T j)
  linarith

/-- Two terms at a time. -/
theorem fold_pairs {β : Type} [Add β] (t s : ℕ → β) (z : β) (n : ℕ) : (List.range n).foldl (fun acc j => acc + t j + s j) z =
    (List.range (2 * n)).foldl (fun acc k => acc + if k % 2 = 0 then t (k / 2) else s (k / 2)) z := by
  induction n with
  | zero => rfl
  | succ n ih =>
    rw [List.range_succ, List.foldl_append, ih, show 2 * (n + 1) = 2 * n + 1 + 1 by ring, List.range_succ, List.range_succ, List.foldl_append,
      List.foldl_append]
    simp only [List.foldl_cons, List.foldl_nil]
    rw [if_pos (by omega), if_neg (by omega), show 2 * n / 2 = n by omega, show (2 * n + 1) / 2 = n by omega]

theorem sum_pairs (t s : ℕ → ℝ) (n : ℕ) : ∑ k ∈ range (2 * n), (if k % 2 = 0 then t (k / 2) else s (k / 2)) = ∑ j ∈ range n, (t j + s j) := by
  induction n with
  | zero => rfl
  | succ n ih =>
    rw [show 2 * (n + 1) = 2 * n + 1 + 1 by ring, sum_range_succ, sum_range_succ, ih, sum_range_succ, if_pos (by omega), if_neg (by omega),
      show 2 * n / 2 = n by omega, show (2 * n + 1) / 2 = n by omega, add_assoc]

theorem ap_fold2 (hu : 0 ≤ u) (t s : ℕ → α) (T S : ℕ → ℝ) (π ρ β γ : ℕ → ℝ) (n : ℕ)
    (h : ∀ j < n, sc.Pr (t j) (T j) (π j) (β j)) (h' : ∀ j < n, sc.Pr (s j) (S j) (ρ j) (γ j))
    (hΩ : (1 + u) ^ (2 * n) * (∑ j ∈ range n, (β j + γ j) + (2 * n : ℕ) * ω) ≤ Ω) :
    sc.Ap ((List.range n).foldl (fun acc j => acc + t j + s j) (0 : α)) ((List.range n).foldl (fun acc j => acc + T j + S j) (0 : ℝ))
      (∑ j ∈ range n, (π j + ρ j)) ((1 + u) ^ (2 * n) * (∑ j ∈ range n, (β j + γ j) + (2 * n : ℕ) * ω)) := by
  rw [fold_pairs t s, fold_pairs T S, ← sum_pairs π ρ, ← sum_pairs β γ]
  rw [← sum_pairs β γ] at hΩ
  refine ap_fold1 hu _ _ _ _ (2 * n) (fun k hk => ?_) hΩ
  split_ifs
  · exact h _ (by omega)
  · exact h' _ (by omega)

end Fold

section Defs
variable {α : Type} [Zero α] [Add α] [Mul α] [Neg α] [Inhabited α] {u ω Ω : ℝ} (sc : Scalars α u ω Ω)

/-- All entries of a list. -/
def ApL (π q : ℝ) (x : List α) (X : List ℝ) : Prop :=
  x.length = X.length ∧ ∀ j, sc.Ap (x.getD j 0) (X.getD j 0) π q

/-- The coefficients in use and the exact ones. -/
def ApF (η : ℝ) (f : List α) (F : List ℝ) : Prop :=
  f.length = F.length ∧ ∀ j, sc.Ap (f.getD j 0) (F.getD j 0) |F.getD j 0| ((1 + η) * |F.getD j 0|)

end Defs

section Steps
variable {α : Type} [Zero α] [Add α] [Mul α] [Neg α] [Inhabited α] {u ω Ω η S : ℝ} {sc : Scalars α u ω Ω}

/-- Growth of the bound for computed values in one step. -/
def gr (u ω η S : ℝ) (t : ℕ) (q : ℝ) : ℝ := (1 + u) ^ (2 * t) * ((1 + u) * ((1 + η) * S * q) + (4 * t : ℕ) * ω)

/-- The bound of one step covers that of a row with a smaller sum of absolute values. -/
theorem gr_covers (hu : 0 ≤ u) (hη : 0 ≤ η) {π q σ : ℝ} (n1 : 0 ≤ π) (n2 : π ≤ q) (hS : σ ≤ S) (t : ℕ) :
    (1 + u) ^ (2 * t) * ((1 + u) * ((1 + η) * σ * q) + 4 * t * ω) - σ * π ≤ gr u ω η S t q - S * π := by
  have hP : 1 ≤ (1 + u) ^ (2 * t) := one_le_pow₀ (by linarith)
  unfold gr
  push_cast
  have e : (1 + u) ^ (2 * t) * ((1 + u) * ((1 + η) * S * q) + 4 * t * ω) - S * π -
      ((1 + u) ^ (2 * t) * ((1 + u) * ((1 + η) * σ * q) + 4 * t * ω) - σ * π) =
      (S - σ) * ((1 + u) ^ (2 * t) * ((1 + u) * ((1 + η) * q)) - π) := by ring
  have e2 : π ≤ (1 + u) ^ (2 * t) * ((1 + u) * ((1 + η) * q)) := by
    have f0 : 0 ≤ q := n1.trans n2
    have f1 : q ≤ (1 + η) * q := by nlinarith
    have f2 : (1 + η) * q ≤ (1 + u) * ((1 + η) * q) := by nlinarith
    have f3 : (1 + u) * ((1 + η) * q) ≤ (1 + u) ^ (2 * t) * ((1 + u) * ((1 + η) * q)) := by nlinarith
    linarith
  have e3 := mul_nonneg (sub_nonneg.2 hS) (sub_nonneg.2 e2)
  linarith

/-- One product is within the bound of one step. -/
theorem term_le_gr (hu : 0 ≤ u) (hω : 0 ≤ ω) (hη : 0 ≤ η) {q c : ℝ} (hq : 0 ≤ q) (hc0 : 0 ≤ c) (hc : c ≤ S) {t : ℕ} (ht : 0 < t) :
    (1 + u) * (q * ((1 + η) * c)) + ω ≤ gr u ω η S t q := by
  have hP : 1 ≤ (1 + u) ^ (2 * t) := one_le_pow₀ (by linarith)
  have ht1 : (1 : ℝ) ≤ t := by exact_mod_cast ht
  unfold gr
  push_cast
  have h1 : (1 + u) * (q * ((1 + η) * c)) ≤ (1 + u) * ((1 + η) * S * q) := by
    have : 0 ≤ (1 + u) * (1 + η) * q := by positivity
    nlinarith
  have h2 : ω ≤ 4 * t * ω := by nlinarith
  have h0 : 0 ≤ (1 + u) * ((1 + η) * S * q) + 4 * t * ω := by
    have : 0 ≤ S := hc0.trans hc
    positivity
  nlinarith

theorem ap_ana (hu : 0 ≤ u) (_hω : 0 ≤ ω) (hη : 0 ≤ η) {π q : ℝ} {x f : List α} {X F : List ℝ} (hx : ApL sc π q x X)
    (hf : ApF sc η f F) {t : ℕ} (hl : F.length = 2 * t) (hS : ∑ j ∈ range (2 * t), |F.getD j 0| ≤ S) (hΩ : gr u ω η S t q ≤ Ω) (i : ℕ) :
    sc.Ap (anaP x f i) (anaP X F i) (S * π) (gr u ω η S t q) := by
  obtain ⟨n1, n2⟩ := (hx.2 0).nonneg
  have hS0 : 0 ≤ S := (sum_nonneg fun _ _ => abs_nonneg _).trans hS
  have r2 : ∑ j ∈ range (2 * t), ((1 + u) * (q * ((1 + η) * |F.getD j 0|)) + ω) + (2 * t : ℕ) * ω =
      (1 + u) * ((1 + η) * (∑ j ∈ range (2 * t), |F.getD j 0|) * q) + 4 * t * ω := by
    rw [sum_add_distrib, sum_const, card_range, nsmul_eq_mul, mul_sum, sum_mul, mul_sum]
    push_cast
    rw [sum_congr rfl fun j _ => show (1 + u) * (q * ((1 + η) * |F.getD j 0|)) = (1 + u) * ((1 + η) * |F.getD j 0| * q) by ring]
    ring
  have cov := gr_covers (ω := ω) hu hη n1 n2 hS t
  have top : (1 + u) ^ (2 * t) * (∑ j ∈ range (2 * t), ((1 + u) * (q * ((1 + η) * |F.getD j 0|)) + ω) + (2 * t : ℕ) * ω) ≤ Ω := by
    rw [r2]
    nlinarith
  unfold anaP
  rw [hf.1, hl, hx.1]
  have := ap_fold1 (sc := sc) hu (fun j => x.getD ((i * 2 + j) % X.length) 0 * f.getD j 0)
    (fun j => X.getD ((i * 2 + j) % X.length) 0 * F.getD j 0)
    (fun j => π * |F.getD j 0|) (fun j => (1 + u) * (q * ((1 + η) * |F.getD j 0|)) + ω) (2 * t)
    (fun j _ => Scalars.Ap.mul (hx.2 _) (hf.2 j)) top
  rw [r2, ← mul_sum] at this
  refine this.weaken (by nlinarith) ?_
  rw [mul_comm π]
  exact cov

theorem apF_reverse {f : List α} {F : List ℝ} (hf : ApF sc η f F) : ApF sc η f.reverse F.reverse := by
  obtain ⟨h1, h2⟩ := hf
  refine ⟨by simp [h1], fun j => ?_⟩
  by_cases hj : j < F.length
  · have := h2 (F.length - 1 - j)
    have e1 : f.reverse.getD j 0 = f.getD (F.length - 1 - j) 0 := by
      simp only [List.getD]
      rw [List.getElem?_reverse (by omega), h1]
    have e2 : F.reverse.getD j 0 = F.getD (F.length - 1 - j) 0 := by
      simp only [List.getD]
      rw [List.getElem?_reverse hj]
    rw [e1, e2]
    exact this
  · have e1 : f.reverse.getD j 0 = 0 := by simp [List.getD, List.getElem?_eq_none (show f.reverse.length ≤ j by simp; omega)]
    have e2 : F.reverse.getD j 0 = 0 := by simp [List.getD, List.getElem?_eq_none (show F.reverse.length ≤ j by simp; omega)]
    rw [e1, e2]
    simpa using Scalars.Ap.zero (sc := sc) (le_refl 0) (le_refl 0)

theorem getD_qmf' {α : Type} [Zero α] [Neg α] (x : List α) (t : ℕ) (hx : x.length = 2 * t) {j : ℕ} (hj : j < 2 * t) :
    (qmf x).getD j 0 = if j % 2 = 0 then x.getD (2 * t - 1 - j) 0 else -x.getD (2 * t - 1 - j) 0 := by
  unfold qmf
  have h1 : j < x.length := by omega
  simp only [List.getD, List.getElem?_mapIdx, List.getElem?_reverse h1, hx]
  rw [List.getElem?_eq_getElem (show 2 * t - 1 - j < x.length by omega)]
  simp only [Option.map_some, Option.getD_some]
  have he : (if 2 * t % 2 = 0 then 1 else 2) = 1 := if_pos (by omega)
  rw [he]
  by_cases h : j % 2 = 0
  · rw [if_neg (by omega), if_pos h]
  · rw [if_pos (by omega), if_neg h]

theorem apF_qmf {f : List α} {F : List ℝ} (hf : ApF sc η f F) {t : ℕ} (hl : F.length = 2 * t) : ApF sc η (qmf f) (qmf F) := by
  obtain ⟨h1, h2⟩ := hf
  refine ⟨by simp [h1], fun j => ?_⟩
  by_cases hj : j < 2 * t
  · rw [getD_qmf' f t (by omega) hj, getD_qmf' F t hl hj]
    split_ifs
    · exact h2 _
    · rw [abs_neg]; exact (h2 _).neg
  · have e1 : (qmf f).getD j 0 = 0 := by simp [List.getD, List.getElem?_eq_none (show (qmf f).length ≤ j by simp; omega)]
    have e2 : (qmf F).getD j 0 = 0 := by simp [List.getD, List.getElem?_eq_none (show (qmf F).length ≤ j by simp; omega)]
    rw [e1, e2]
    simpa using Scalars.Ap.zero (sc := sc) (le_refl 0) (le_refl 0)

theorem abs_qmf {F : List ℝ} {t : ℕ} (hl : F.length = 2 * t) {j : ℕ} (hj : j < 2 * t) :
    |(qmf F).getD j 0| = |F.getD (2 * t - 1 - j) 0| := by
  rw [getD_qmf' F t hl hj]
  split_ifs
  · rfl
  · rw [abs_neg]

theorem sum_abs_qmf {F : List ℝ} {t : ℕ} (hl : F.length = 2 * t) :
    ∑ j ∈ range (2 * t), |(qmf F).getD j 0| = ∑ j ∈ range (2 * t), |F.getD j 0| := by
  rw [← sum_range_reflect (fun j => |F.getD j 0|)]
  exact sum_congr rfl fun j hj => abs_qmf hl (mem_range.1 hj)

theorem getD_reverse' {α : Type} [Zero α] (x : List α) {j : ℕ} (hj : j < x.length) : x.reverse.getD j 0 = x.getD (x.length - 1 - j) 0 := by
  simp only [List.getD]
  rw [List.getElem?_reverse hj]

/-- The coefficients that enter one sample of the synthesis. -/
theorem sum_abs_syn {F : List ℝ} {t : ℕ} (hl : F.length = 2 * t) (e : ℕ) (he : e < 2) :
    ∑ j ∈ range t, (|F.reverse.getD (e + 2 * j) 0| + |(qmf F).reverse.getD (e + 2 * j) 0|) = ∑ j ∈ range (2 * t), |F.getD j 0| := by
  have h1 : ∀ j ∈ range t, |F.reverse.getD (e + 2 * j) 0| + |(qmf F).reverse.getD (e + 2 * j) 0| =
      |F.getD (2 * t - 1 - (e + 2 * j)) 0| + |F.getD (e + 2 * j) 0| := by
    intro j hj
    rw [mem_range] at hj
    rw [getD_reverse' F (by omega), getD_reverse' (qmf F) (by simp; omega), length_qmf, hl, abs_qmf hl (by omega)]
    congr 3
    omega
  rw [sum_congr rfl h1, sum_add_distrib, FB.sum_even_odd, sum_add_distrib]
  rw [← sum_range_reflect (fun j => |F.getD (2 * t - 1 - (e + 2 * j)) 0|)]
  have h2 : ∀ j ∈ range t, |F.getD (2 * t - 1 - (e + 2 * (t - 1 - j))) 0| = |F.getD (2 * j + (1 - e)) 0| := by
    intro j hj
    rw [mem_range] at hj
    congr 2
    omega
  rw [sum_congr rfl h2]
  have : e = 0 ∨ e = 1 := by omega
  rcases this with rfl | rfl
  · simp only [Nat.zero_add, Nat.sub_zero]
    rw [add_comm]
  · simp only [Nat.sub_self, Nat.add_zero]
    congr 1
    exact sum_congr rfl fun j _ => by rw [add_comm]

theorem ap_syn (hu : 0 ≤ u) (hω : 0 ≤ ω) (hη : 0 ≤ η) {π q : ℝ} {x y f : List α} {X Y F : List ℝ} (hx : ApL sc π q x X)
    (hy : ApL sc π q y Y) (hf : ApF sc η f F) {t : ℕ} (hl : F.length = 2 * t)
    (hS : ∑ j ∈ range (2 * t), |F.getD j 0| ≤ S) (hΩ : gr u ω η S t q ≤ Ω) (i : ℕ) :
    sc.Ap (synP x y f.reverse (qmf f).reverse i) (synP X Y F.reverse (qmf F).reverse i) (S * π) (gr u ω η S t q) := by
  obtain ⟨n1, n2⟩ := (hx.2 0).nonneg
  have hlf : f.reverse.length = 2 * t := by simp [hf.1, hl]
  have hlF : F.reverse.length = 2 * t := by simp [hl]
  unfold synP
  rw [hlf, hlF, hx.1, show (2 * t + 1) / 2 = t by omega]
  have g1 := apF_reverse hf
  have g2 := apF_reverse (apF_qmf hf hl)
  set e := if i % 2 = 0 then 1 else 0 with hE
  have he : e < 2 := by rw [hE]; split_ifs <;> omega
  have hsum := sum_abs_syn hl e he
  have r1 : ∑ j ∈ range t, (|F.reverse.getD (e + 2 * j) 0| * π + |(qmf F).reverse.getD (e + 2 * j) 0| * π) =
      (∑ j ∈ range (2 * t), |F.getD j 0|) * π := by
    rw [← hsum, sum_mul]
    exact sum_congr rfl fun j _ => by ring
  have r0 : ∑ j ∈ range t, ((1 + u) * ((1 + η) * |F.reverse.getD (e + 2 * j) 0| * q) + ω +
      ((1 + u) * ((1 + η) * |(qmf F).reverse.getD (e + 2 * j) 0| * q) + ω)) =
      (1 + u) * ((1 + η) * (∑ j ∈ range (2 * t), |F.getD j 0|) * q) + 2 * t * ω := by
    rw [← hsum, show (1 + u) * ((1 + η) * (∑ j ∈ range t, (|F.reverse.getD (e + 2 * j) 0| + |(qmf F).reverse.getD (e + 2 * j) 0|)) * q) =
      (∑ j ∈ range t, (|F.reverse.getD (e + 2 * j) 0| + |(qmf F).reverse.getD (e + 2 * j) 0|)) * ((1 + u) * (1 + η) * q) by ring, sum_mul,
      show 2 * (t : ℝ) * ω = ∑ j ∈ range t, 2 * ω by rw [sum_const, card_range, nsmul_eq_mul]; ring, ← sum_add_distrib]
    exact sum_congr rfl fun j _ => by ring
  have r2 : ∑ j ∈ range t, ((1 + u) * ((1 + η) * |F.reverse.getD (e + 2 * j) 0| * q) + ω +
      ((1 + u) * ((1 + η) * |(qmf F).reverse.getD (e + 2 * j) 0| * q) + ω)) + (2 * t : ℕ) * ω =
      (1 + u) * ((1 + η) * (∑ j ∈ range (2 * t), |F.getD j 0|) * q) + 4 * t * ω := by
    rw [r0]
    push_cast
    ring
  have cov := gr_covers (ω := ω) hu hη n1 n2 hS t
  have top : (1 + u) ^ (2 * t) * (∑ j ∈ range t, ((1 + u) * ((1 + η) * |F.reverse.getD (e + 2 * j) 0| * q) + ω +
      ((1 + u) * ((1 + η) * |(qmf F).reverse.getD (e + 2 * j) 0| * q) + ω)) + (2 * t : ℕ) * ω) ≤ Ω := by
    rw [r2]
    nlinarith
  have small : ∀ j < t, |F.reverse.getD (e + 2 * j) 0| ≤ S ∧ |(qmf F).reverse.getD (e + 2 * j) 0| ≤ S := by
    intro j hj
    have := single_le_sum (f := fun j => |F.reverse.getD (e + 2 * j) 0| + |(qmf F).reverse.getD (e + 2 * j) 0|)
      (fun _ _ => add_nonneg (abs_nonneg _) (abs_nonneg _)) (mem_range.2 hj)
    rw [hsum] at this
    have i1 := abs_nonneg (F.reverse.getD (e + 2 * j) 0)
    have i2 := abs_nonneg ((qmf F).reverse.getD (e + 2 * j) 0)
    constructor <;> linarith
  have tl : ∀ {c : ℝ}, 0 < t → 0 ≤ c → c ≤ S → (1 + u) * ((1 + η) * c * q) + ω ≤ Ω := by
    intro c ht h0 h1
    have := (term_le_gr hu hω hη (n1.trans n2) h0 h1 ht).trans hΩ
    rwa [mul_comm q] at this
  have := ap_fold2 (sc := sc) hu
    (fun j => f.reverse.getD (e + 2 * j) 0 * x.getD ((X.length - (2 * t - 2) / 2 + i / 2 + j) % X.length) 0)
    (fun j => (qmf f).reverse.getD (e + 2 * j) 0 * y.getD ((X.length - (2 * t - 2) / 2 + i / 2 + j) % X.length) 0)
    (fun j => F.reverse.getD (e + 2 * j) 0 * X.getD ((X.length - (2 * t - 2) / 2 + i / 2 + j) % X.length) 0)
    (fun j => (qmf F).reverse.getD (e + 2 * j) 0 * Y.getD ((X.length - (2 * t - 2) / 2 + i / 2 + j) % X.length) 0)
    (fun j => |F.reverse.getD (e + 2 * j) 0| * π) (fun j => |(qmf F).reverse.getD (e + 2 * j) 0| * π)
    (fun j => (1 + u) * ((1 + η) * |F.reverse.getD (e + 2 * j) 0| * q) + ω)
    (fun j => (1 + u) * ((1 + η) * |(qmf F).reverse.getD (e + 2 * j) 0| * q) + ω) t
    (fun j _ => Scalars.Ap.mul (g1.2 _) (hx.2 _)) (fun j _ => Scalars.Ap.mul (g2.2 _) (hy.2 _)) top
  rw [r1, r2] at this
  exact this.weaken (mul_le_mul_of_nonneg_right hS n1) cov

/-! ### columns -/

/-- All samples of an `n × 1` matrix. -/
def ApM (sc : Scalars α u ω Ω) (π q : ℝ) (m : Mat α) (M : Mat ℝ) : Prop :=
  m.rows = M.rows ∧ m.cols = 1 ∧ M.cols = 1 ∧ 0 ≤ π ∧ π ≤ q ∧ ∀ i < M.rows, sc.Ap (m.get i 0) (M.get i 0) π q

theorem ApM.col {π q : ℝ} {m : Mat α} {M : Mat ℝ} (h : ApM sc π q m M) : ApL sc π q (m.col 0) (M.col 0) := by
  obtain ⟨h1, _, _, n1, n2, h2⟩ := h
  refine ⟨by simp [h1], fun j => ?_⟩
  by_cases hj : j < M.rows
  · have e1 : (m.col 0).getD j 0 = m.get j 0 := by simp [Mat.col, List.getD, h1, hj]
    have e2 : (M.col 0).getD j 0 = M.get j 0 := by simp [Mat.col, List.getD, hj]
    rw [e1, e2]; exact h2 j hj
  · have e1 : (m.col 0).getD j 0 = 0 := by simp [Mat.col, List.getD, h1, hj]
    have e2 : (M.col 0).getD j 0 = 0 := by simp [Mat.col, List.getD, hj]
    rw [e1, e2]; exact Scalars.Ap.zero n1 n2

theorem apM_ofCol {π q : ℝ} (n1 : 0 ≤ π) (n2 : π ≤ q) (n : ℕ) (g : ℕ → α) (G : ℕ → ℝ) (h : ∀ i < n, sc.Ap (g i) (G i) π q) :
    ApM sc π q (Mat.ofCol ((List.range n).map g)) (Mat.ofCol ((List.range n).map G)) := by
  refine ⟨by simp, by simp, by simp, n1, n2, ?_⟩
  intro i hi
  have hi' : i < n := by simpa using hi
  rw [Mat.get_ofCol, Mat.get_ofCol]
  simpa [List.getD, hi'] using h i hi'

theorem ApM.weaken {π q π' q' : ℝ} {m : Mat α} {M : Mat ℝ} (h : ApM sc π q m M) (h1 : π ≤ π') (h2 : q - π ≤ q' - π') : ApM sc π' q' m M :=
  ⟨h.1, h.2.1, h.2.2.1, h.2.2.2.1.trans h1, by linarith [h.2.2.2.2.1], fun i hi => (h.2.2.2.2.2 i hi).weaken h1 h2⟩

theorem gr_ge (hu : 0 ≤ u) (hω : 0 ≤ ω) (hη : 0 ≤ η) (hS : 0 ≤ S) (t : ℕ) {q : ℝ} (hq : 0 ≤ q) : S * q ≤ gr u ω η S t q := by
  unfold gr
  have hP : 1 ≤ (1 + u) ^ (2 * t) := one_le_pow₀ (by linarith)
  have h0 : 0 ≤ S * q := mul_nonneg hS hq
  have h1 : S * q ≤ (1 + η) * S * q := by nlinarith
  have h2 : (1 + η) * S * q ≤ (1 + u) * ((1 + η) * S * q) := by nlinarith
  have h3 : 0 ≤ ((4 * t : ℕ) : ℝ) * ω := by positivity
  nlinarith

end Steps

/-! ### levels -/

section Levels
variable {α : Type} [Zero α] [Add α] [Mul α] [Neg α] [Inhabited α] {u ω Ω η S : ℝ} {sc : Scalars α u ω Ω} {t : ℕ} {M : ℝ}

/-- Bound for the computed values after `m` steps. -/
def gr_iter (u ω η S : ℝ) (t : ℕ) (M : ℝ) : ℕ → ℝ
  | 0 => M
  | m + 1 => gr u ω η S t (gr_iter u ω η S t M m)

theorem pi_le (hu : 0 ≤ u) (hω : 0 ≤ ω) (hη : 0 ≤ η) (hS : 1 ≤ S) (hM : 0 ≤ M) (m : ℕ) :
    0 ≤ S ^ m * M ∧ S ^ m * M ≤ gr_iter u ω η S t M m := by
  refine ⟨by positivity, ?_⟩
  induction m with
  | zero => simp [gr_iter]
  | succ m ih =>
    have h0 : 0 ≤ S ^ m * M := by positivity
    have := gr_ge hu hω hη (by linarith : 0 ≤ S) t (h0.trans ih)
    rw [gr_iter, pow_succ]
    nlinarith

theorem level_mono (hu : 0 ≤ u) (hω : 0 ≤ ω) (hη : 0 ≤ η) (hS : 1 ≤ S) (hM : 0 ≤ M) {m m' : ℕ} (h : m ≤ m') :
    S ^ m * M ≤ S ^ m' * M ∧ gr_iter u ω η S t M m - S ^ m * M ≤ gr_iter u ω η S t M m' - S ^ m' * M := by
  induction m', h using Nat.le_induction with
  | base => exact ⟨le_rfl, le_rfl⟩
  | succ k _ ih =>
    obtain ⟨p1, p2⟩ := pi_le (t := t) hu hω hη hS hM k
    have hg := gr_ge hu hω hη (by linarith : 0 ≤ S) t (p1.trans p2)
    rw [gr_iter, pow_succ]
    constructor
    · refine ih.1.trans ?_; nlinarith
    · refine ih.2.trans ?_; nlinarith

theorem gr_iter_mono (hu : 0 ≤ u) (hω : 0 ≤ ω) (hη : 0 ≤ η) (hS : 1 ≤ S) (hM : 0 ≤ M) {m m' : ℕ} (h : m ≤ m') :
    gr_iter u ω η S t M m ≤ gr_iter u ω η S t M m' := by
  obtain ⟨h1, h2⟩ := level_mono (t := t) hu hω hη hS hM h
  linarith

variable {p : Params} {f : List α} {F : List ℝ}

theorem ap_sig (hu : 0 ≤ u) (hω : 0 ≤ ω) (hη : 0 ≤ η) (hS1 : 1 ≤ S) (hM : 0 ≤ M) (hd : p.dimension = 1) (hf : ApF sc η f F)
    (hl : F.length = 2 * t) (hS : ∑ j ∈ range (2 * t), |F.getD j 0| ≤ S) {x : Mat α} {X : Mat ℝ} (hx : ApM sc M M x X) (s : ℕ)
    (hΩ : gr_iter u ω η S t M s ≤ Ω) :
    ApM sc (S ^ s * M) (gr_iter u ω η S t M s) (sig p f x s) (sig p F X s) := by
  induction s with
  | zero => simpa [gr_iter, sig] using hx
  | succ s ih =>
    obtain ⟨p1, p2⟩ := pi_le (t := t) hu hω hη hS1 hM (s + 1)
    have ih := ih ((gr_iter_mono hu hω hη hS1 hM (Nat.le_succ s)).trans hΩ)
    simp only [sig]
    unfold approxStep
    rw [if_pos hd, if_pos hd, ih.1]
    refine apM_ofCol p1 p2 _ _ _ fun i _ => ?_
    rw [pow_succ', mul_assoc]
    exact ap_ana hu hω hη ih.col hf hl hS hΩ i

theorem ap_detail (hu : 0 ≤ u) (hω : 0 ≤ ω) (hη : 0 ≤ η) (hS1 : 1 ≤ S) (hM : 0 ≤ M) (hd : p.dimension = 1) (hf : ApF sc η f F)
    (hl : F.length = 2 * t) (hS : ∑ j ∈ range (2 * t), |F.getD j 0| ≤ S) {x : Mat α} {X : Mat ℝ} (hx : ApM sc M M x X) (s : ℕ)
    (hΩ : gr_iter u ω η S t M (s + 1) ≤ Ω) :
    ApM sc (S ^ (s + 1) * M) (gr_iter u ω η S t M (s + 1)) ((detailStep p f nullDenoiser s (sig p f x s)).getD 0 default)
      ((detailStep p F nullDenoiser s (sig p F X s)).getD 0 default) := by
  have ih := ap_sig hu hω hη hS1 hM hd hf hl hS hx s ((gr_iter_mono hu hω hη hS1 hM (Nat.le_succ s)).trans hΩ)
  obtain ⟨p1, p2⟩ := pi_le (t := t) hu hω hη hS1 hM (s + 1)
  unfold detailStep
  rw [if_pos hd, if_pos hd, ih.1]
  simp only [List.getD_cons_zero, nullDenoiser]
  refine apM_ofCol p1 p2 _ _ _ fun i _ => ?_
  rw [pow_succ', mul_assoc]
  exact ap_ana hu hω hη ih.col (apF_qmf hf hl) (by simp [hl]) (by rw [sum_abs_qmf hl]; exact hS) hΩ i

theorem ap_recon (hu : 0 ≤ u) (hω : 0 ≤ ω) (hη : 0 ≤ η) (hS1 : 1 ≤ S) (hM : 0 ≤ M) (hd : p.dimension = 1) (hf : ApF sc η f F)
    (hl : F.length = 2 * t) (hS : ∑ j ∈ range (2 * t), |F.getD j 0| ≤ S) {c : Channel α} {C : Channel ℝ}
    (hc : ∀ s < p.steps, ApM sc (S ^ (s + 1) * M) (gr_iter u ω η S t M (s + 1)) ((detailsAt p c s).getD 0 default) ((detailsAt p C s).getD 0 default))
    (n i r : ℕ) (hn : n ≤ i) (hi : i ≤ p.steps) (hr : p.steps ≤ r) {m : Mat α} {X : Mat ℝ}
    (hx : ApM sc (S ^ r * M) (gr_iter u ω η S t M r) m X) (hΩ : gr_iter u ω η S t M (r + n) ≤ Ω) :
    ApM sc (S ^ (r + n) * M) (gr_iter u ω η S t M (r + n)) (reconFrom p f c n i m) (reconFrom p F C n i X) := by
  induction n generalizing i r m X with
  | zero => exact hx
  | succ n ih =>
    simp only [reconFrom]
    rw [show r + (n + 1) = r + 1 + n by omega] at hΩ ⊢
    refine ih (i - 1) (r + 1) (by omega) (by omega) (by omega) ?_ hΩ
    obtain ⟨p1, p2⟩ := pi_le (t := t) hu hω hη hS1 hM (r + 1)
    obtain ⟨m1, m2⟩ := level_mono (t := t) hu hω hη hS1 hM (show i - 1 + 1 ≤ r by omega)
    have hdet := (hc (i - 1) (by omega)).weaken m1 m2
    unfold synthStep
    rw [if_pos hd, if_pos hd, hx.1]
    refine apM_ofCol p1 p2 _ _ _ fun j _ => ?_
    rw [pow_succ', mul_assoc]
    exact ap_syn hu hω hη hx.col hdet.col hf hl hS ((gr_iter_mono hu hω hη hS1 hM (Nat.le_add_right (r + 1) n)).trans hΩ) j

theorem gr_iter_eq (m : ℕ) :
    gr_iter u ω η S t M m = ((1 + u) ^ (2 * t + 1) * (1 + η) * S) ^ m * M +
      (1 + u) ^ (2 * t) * (4 * t) * ω * ∑ j ∈ range m, ((1 + u) ^ (2 * t + 1) * (1 + η) * S) ^ j := by
  induction m with
  | zero => simp [gr_iter]
  | succ m ih =>
    rw [gr_iter, ih, gr, sum_range_succ', pow_zero]
    have : ∑ k ∈ range m, ((1 + u) ^ (2 * t + 1) * (1 + η) * S) ^ (k + 1) =
        ((1 + u) ^ (2 * t + 1) * (1 + η) * S) * ∑ k ∈ range m, ((1 + u) ^ (2 * t + 1) * (1 + η) * S) ^ k := by
      rw [mul_sum]
      exact sum_congr rfl fun k _ => by rw [pow_succ']
    rw [this, pow_succ (1 + u) (2 * t)]
    push_cast
    ring

theorem apM_padOf (hv : ValidParams p) (hd : p.dimension = 1) {x : Mat α} (hx : Shaped p x) (hM : 0 ≤ M)
    (hb : ∀ i < x.rows, sc.fin (x.get i 0) ∧ |sc.val (x.get i 0)| ≤ M) : ApM sc M M (padOf p x) (padOf p (x.map sc.val)) := by
  have self : ∀ z : α, sc.fin z ∧ |sc.val z| ≤ M → sc.Ap z (sc.val z) M M := fun z hz => ⟨hz.1, hz.2, by simp⟩
  have hget : ∀ i < x.rows, (x.map sc.val).get i 0 = sc.val (x.get i 0) := by
    intro i hi
    have hc : x.cols = 1 := by
      obtain ⟨n, hsh, _⟩ | ⟨_, _, _, h2⟩ := shape_cases hv
      · have := of_shaped hv hx; rw [hsh] at this; exact this.2
      · omega
    have hlt : i * x.cols + 0 < x.data.length := by rw [x.wf, hc]; omega
    unfold Mat.get Mat.map
    simp only [List.getD, List.getElem?_map, List.getElem?_eq_getElem hlt, Option.map_some, Option.getD_some]
  have hc : x.cols = 1 := by
    obtain ⟨n, hsh, _⟩ | ⟨_, _, _, h2⟩ := shape_cases hv
    · have := of_shaped hv hx; rw [hsh] at this; exact this.2
    · omega
  have hf := fits_padOf hv hx
  have hx' : Shaped p (x.map sc.val) := hx
  have hf' := fits_padOf hv hx'
  have hc1 : (padOf p x).cols = 1 := by rw [hf.2, if_pos hd]
  have hc2 : (padOf p (x.map sc.val)).cols = 1 := by rw [hf'.2, if_pos hd]
  refine ⟨by rw [hf.1, hf'.1], hc1, hc2, hM, le_rfl, ?_⟩
  intro i hi
  unfold padOf at hi hc1 hc2 ⊢
  by_cases ht : p.wtype = 0
  · rw [if_pos ht] at hi ⊢
    rw [if_pos ht, hget i hi]
    exact self _ (hb i hi)
  · rw [if_neg ht] at hi hc1 hc2 ⊢
    rw [if_neg ht]
    simp only [Mat.rows_ofFn, Mat.cols_ofFn] at hi hc1
    rw [Mat.get_ofFn hi (by omega), Mat.get_ofFn hi (by omega)]
    simp only [Mat.rows_map, Mat.cols_map]
    have hrow : 0 < x.rows := by
      obtain ⟨n, hsh, _⟩ | ⟨_, _, _, h2⟩ := shape_cases hv
      · have h1 := (valid_side hv ht (n := n) (by simp [hsh])).1
        have := of_shaped hv hx
        rw [hsh] at this
        have h3 := this.1
        omega
      · omega
    have hcl : ∀ o i, clampIdx o x.rows i < x.rows := by intro o i; unfold clampIdx; omega
    have hcl0 : ∀ o i, clampIdx o x.cols i = 0 := by intro o i; rw [hc]; unfold clampIdx; omega
    rw [hcl0, hget _ (hcl _ _)]
    exact self _ (hb _ (hcl _ _))

/-- The whole round trip of one channel. -/
theorem ap_out (hu : 0 ≤ u) (hω : 0 ≤ ω) (hη : 0 ≤ η) (hS1 : 1 ≤ S) (hM : 0 ≤ M) (hv : ValidParams p) (hd : p.dimension = 1)
    {kF : Kit α} {kR : Kit ℝ} (hkF : FilterLen kF p) (hkR : FilterLen kR p)
    (hf : p.steps ≠ 0 → ApF sc η (scaling kF p) (scaling kR p))
    (hS : p.steps ≠ 0 → ∑ j ∈ range (2 * p.wtype), |(scaling kR p).getD j 0| ≤ S)
    (hΩ : gr_iter u ω η S p.wtype M (2 * p.steps) ≤ Ω) {x : Mat α} (hx : Shaped p x)
    (hb : ∀ i < x.rows, sc.fin (x.get i 0) ∧ |sc.val (x.get i 0)| ≤ M) :
    (outP kF p 0 (chanP p (scaling kF p) nullDenoiser x)).rows = x.rows ∧
    (outP kF p 0 (chanP p (scaling kF p) nullDenoiser x)).cols = 1 ∧
    (outP kR p 0 (chanP p (scaling kR p) nullDenoiser (x.map sc.val))).rows = x.rows ∧
    (outP kR p 0 (chanP p (scaling kR p) nullDenoiser (x.map sc.val))).cols = 1 ∧
    ∀ i < x.rows, sc.fin ((outP kF p 0 (chanP p (scaling kF p) nullDenoiser x)).get i 0) ∧
      |sc.val ((outP kF p 0 (chanP p (scaling kF p) nullDenoiser x)).get i 0) -
      (outP kR p 0 (chanP p (scaling kR p) nullDenoiser (x.map sc.val))).get i 0| ≤
      gr_iter u ω η S p.wtype M (2 * p.steps) - S ^ (2 * p.steps) * M := by
  have hx' : Shaped p (x.map sc.val) := hx
  have hpad := apM_padOf hv hd hx hM hb
  have hk1 : subbandsPerWT p = 1 := by simp [subbandsPerWT, hd]
  have main : ApM sc (S ^ (2 * p.steps) * M) (gr_iter u ω η S p.wtype M (2 * p.steps))
      (reconP p (scaling kF p) 0 (chanP p (scaling kF p) nullDenoiser x))
      (reconP p (scaling kR p) 0 (chanP p (scaling kR p) nullDenoiser (x.map sc.val))) := by
    unfold reconP
    rw [chanP_last, chanP_last]
    by_cases h0 : p.steps = 0
    · rw [h0]
      simpa [reconFrom, sig, gr_iter] using hpad
    · have ht := wavelet_of_steps hv (show 0 < p.steps by omega)
      have hl := length_scaling hkR ht
      have low : ∀ m ≤ 2 * p.steps, gr_iter u ω η S p.wtype M m ≤ Ω := fun m hm => (gr_iter_mono hu hω hη hS1 hM hm).trans hΩ
      rw [show 2 * p.steps = p.steps + (p.steps - 0) by omega]
      refine ap_recon hu hω hη hS1 hM hd (hf h0) hl (hS h0) ?_ _ _ _ (by omega) le_rfl le_rfl
        (ap_sig hu hω hη hS1 hM hd (hf h0) hl (hS h0) hpad _ (low _ (by omega))) (low _ (by omega))
      intro s hs'
      rw [detailsAt_chanP _ _ _ _ hs', detailsAt_chanP _ _ _ _ hs']
      exact ap_detail hu hω hη hS1 hM hd (hf h0) hl (hS h0) hpad s (low _ (by omega))
  obtain ⟨m1, m2, m3, m4, m5, m6⟩ := main
  have fit := (composeChannel_ok hv hkF (d := [chanP p (scaling kF p) nullDenoiser x]) (ch := 0) (Nat.zero_le p.steps)
    (by simp) (chanP_sized (k := kF) hv nullDenoiser_sized hx)).2
  have fit' := (composeChannel_ok hv hkR (d := [chanP p (scaling kR p) nullDenoiser (x.map sc.val)]) (ch := 0) (Nat.zero_le p.steps)
    (by simp) (chanP_sized (k := kR) hv nullDenoiser_sized hx')).2
  simp only [List.getD, List.getElem?_cons_zero, Option.getD_some] at fit fit'
  have sz := finishP_size (k := kF) hv (Nat.zero_le _) fit
  have sz' := finishP_size (k := kR) hv (Nat.zero_le _) fit'
  have hmap : p.shape.map (· / 2 ^ 0) = p.shape := by simp
  rw [hmap] at sz sz'
  have hrc : matRows p.shape = x.rows ∧ matCols p.shape = 1 := by
    obtain ⟨n, hsh, _⟩ | ⟨_, _, _, h2⟩ := shape_cases hv
    · have := of_shaped hv hx
      rw [hsh] at this ⊢
      exact ⟨this.1.symm, rfl⟩
    · omega
  rw [hrc.1, hrc.2] at sz sz'
  refine ⟨sz.1, sz.2, sz'.1, sz'.2, ?_⟩
  intro i hi
  unfold outP finishP
  rw [if_neg (by omega), if_neg (by omega)]
  unfold cropOf
  simp only [hmap, hrc.1, hrc.2]
  have fin : ∀ {c : α} {C π q : ℝ}, sc.Ap c C π q → sc.fin c ∧ |sc.val c - C| ≤ q - π := fun h => ⟨h.1, by linarith [h.2.2]⟩
  rw [if_neg (by omega), if_neg (by omega), Mat.get_ofFn hi (by omega), Mat.get_ofFn hi (by omega), m1, m2, m3]
  obtain ⟨l1, _⟩ := scaled_le hv fit'
  rw [hmap, hrc.1] at l1
  have o1 := padOffset_add_le .both l1
  have o2 : padOffset .both 1 1 + 0 = 0 := by
    have := padOffset_add_le .both (le_refl 1)
    omega
  rw [o2]
  exact fin (m6 _ (by omega))

end Levels

/-! ### rounding to nearest -/

theorem rounds_std {p : ℕ} (hp : 1 ≤ p) {emin : ℤ} {f : ℝ → ℝ} (hf : RoundsToNearest (FloatNumbers p emin) f) (x : ℝ) :
    |f x - x| ≤ (2 : ℝ) ^ (-(p : ℤ)) * |x| + 2 ^ (emin - 1) := by
  have hz : (0 : ℝ) < 2 ^ (emin - 1) := zpow_pos (by norm_num) _
  by_cases hx : x = 0
  · subst hx
    have := (hf 0).2 0 ⟨0, emin, by simp, le_rfl, by simp⟩
    simp only [sub_self, abs_zero] at this ⊢
    linarith
  set L : ℤ := Int.log 2 |x| with hL
  have hpos : 0 < |x| := abs_pos.2 hx
  have l1 : (2 : ℝ) ^ L ≤ |x| := by exact_mod_cast Int.zpow_log_le_self (b := 2) (by norm_num) hpos
  have l2 : |x| < (2 : ℝ) ^ (L + 1) := by exact_mod_cast Int.lt_zpow_succ_log_self (b := 2) (by norm_num) |x|
  set e : ℤ := max emin (L - p + 1) with he
  have h2e : (0 : ℝ) < 2 ^ e := zpow_pos (by norm_num) _
  set m : ℤ := round (x / 2 ^ e) with hm
  have hr : |x / 2 ^ e - m| ≤ 1 / 2 := abs_sub_round _
  have hd : |(m : ℝ) * 2 ^ e - x| ≤ 2 ^ e / 2 := by
    have : (m : ℝ) * 2 ^ e - x = -((x / 2 ^ e - m) * 2 ^ e) := by field_simp; ring
    rw [this, abs_neg, abs_mul, abs_of_pos h2e]
    nlinarith
  have hq : |x / 2 ^ e| < 2 ^ p := by
    rw [abs_div, abs_of_pos h2e, div_lt_iff₀ h2e]
    refine l2.trans_le ?_
    rw [← zpow_natCast, ← zpow_add₀ (by norm_num)]
    exact zpow_le_zpow_right₀ (by norm_num) (by have := le_max_right emin (L - p + 1); omega)
  have hmle : |m| ≤ 2 ^ p := by
    have h1 : |(m : ℝ)| ≤ |x / 2 ^ e| + 1 / 2 := by
      have := abs_sub_abs_le_abs_sub (m : ℝ) (x / 2 ^ e)
      rw [abs_sub_comm] at this
      linarith
    have h2 : ((|m| : ℤ) : ℝ) < ((2 ^ p + 1 : ℤ) : ℝ) := by
      push_cast
      linarith
    have := Int.cast_lt.1 h2
    omega
  have hmem : (m : ℝ) * 2 ^ e ∈ FloatNumbers p emin := by
    have hge := le_max_left emin (L - p + 1)
    rcases lt_or_eq_of_le hmle with h | h
    · exact ⟨m, e, h, hge, rfl⟩
    · have hpp : (2 : ℤ) ^ p = 2 * 2 ^ (p - 1) := by rw [← pow_succ']; congr 1; omega
      have hdvd : (2 : ℤ) ∣ m := by
        rw [← dvd_abs, h, hpp]
        exact dvd_mul_right _ _
      obtain ⟨c, hc⟩ := hdvd
      have h1 : (0 : ℤ) < 2 ^ (p - 1) := by positivity
      refine ⟨c, e + 1, ?_, by omega, ?_⟩
      · rw [hc, abs_mul, hpp] at h
        rw [show |(2 : ℤ)| = 2 from rfl] at h
        omega
      · rw [hc, zpow_add₀ (by norm_num)]
        push_cast
        ring
  have hn := (hf x).2 _ hmem
  refine hn.trans (hd.trans ?_)
  have hw : (0 : ℝ) < 2 ^ (-(p : ℤ)) := zpow_pos (by norm_num) _
  have hx1 : (2 : ℝ) ^ (-(p : ℤ)) * 2 ^ L ≤ (2 : ℝ) ^ (-(p : ℤ)) * |x| := mul_le_mul_of_nonneg_left l1 hw.le
  have hx0 : 0 < (2 : ℝ) ^ (-(p : ℤ)) * |x| := mul_pos hw hpos
  rcases max_cases emin (L - p + 1) with ⟨h, _⟩ | ⟨h, _⟩
  · rw [he, h, zpow_sub_one₀ (by norm_num)]
    linarith
  · have : (2 : ℝ) ^ e / 2 = (2 : ℝ) ^ (-(p : ℤ)) * 2 ^ L := by
      rw [he, h, ← zpow_add₀ (by norm_num), show -(p : ℤ) + L = L - p + 1 - 1 by ring, zpow_sub_one₀ (by norm_num) (L - p + 1)]
      ring
    rw [this]
    linarith

theorem std_of_rounds {p : ℕ} (hp : 1 ≤ p) {emin : ℤ} {f : ℝ → ℝ} (hf : RoundsToNearest (FloatNumbers p emin) f) :
    (Arith.rounded f).Std (2 ^ (-(p : ℤ))) (2 ^ (emin - 1)) :=
  ⟨fun x y => rounds_std hp hf (x + y), fun x y => rounds_std hp hf (x * y)⟩

end WB
