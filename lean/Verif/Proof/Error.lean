import Verif.Proof.Linear
import Mathlib.Analysis.InnerProductSpace.Basic
import Mathlib.Analysis.Real.Sqrt
import Mathlib.Algebra.Order.Chebyshev

/-!
Euclidean bounds for the transforms with a filter that is only nearly orthonormal.
-/

set_option linter.unusedSectionVars false

namespace WB

open Finset Spec

/-! ### Euclidean length of finite families -/

/-- Euclidean length. -/
noncomputable def len {ι : Type} (S : Finset ι) (f : ι → ℝ) : ℝ := Real.sqrt (∑ i ∈ S, f i * f i)

theorem len_nonneg {ι : Type} (S : Finset ι) (f : ι → ℝ) : 0 ≤ len S f := Real.sqrt_nonneg _

theorem sum_sq_nonneg {ι : Type} (S : Finset ι) (f : ι → ℝ) : 0 ≤ ∑ i ∈ S, f i * f i :=
  sum_nonneg (fun i _ => mul_self_nonneg (f i))

theorem len_sq {ι : Type} (S : Finset ι) (f : ι → ℝ) : len S f * len S f = ∑ i ∈ S, f i * f i :=
  Real.mul_self_sqrt (sum_sq_nonneg S f)

theorem len_congr {ι : Type} {S : Finset ι} {f g : ι → ℝ} (h : ∀ i ∈ S, f i = g i) : len S f = len S g := by
  unfold len; rw [sum_congr rfl (fun i hi => by rw [h i hi])]

theorem cauchy {ι : Type} (S : Finset ι) (f g : ι → ℝ) : ∑ i ∈ S, f i * g i ≤ len S f * len S g := by
  have h := sum_mul_sq_le_sq_mul_sq S f g
  have e1 : ∑ i ∈ S, f i ^ 2 = len S f * len S f := by rw [len_sq]; exact sum_congr rfl (fun i _ => pow_two _)
  have e2 : ∑ i ∈ S, g i ^ 2 = len S g * len S g := by rw [len_sq]; exact sum_congr rfl (fun i _ => pow_two _)
  rw [e1, e2] at h
  have : (∑ i ∈ S, f i * g i) ^ 2 ≤ (len S f * len S g) ^ 2 := by
    calc _ ≤ _ := h
      _ = _ := by ring
  exact (abs_le_of_sq_le_sq' this (mul_nonneg (len_nonneg _ _) (len_nonneg _ _))).2

theorem len_add {ι : Type} (S : Finset ι) (f g : ι → ℝ) : len S (fun i => f i + g i) ≤ len S f + len S g := by
  apply Real.sqrt_le_iff.2
  refine ⟨add_nonneg (len_nonneg _ _) (len_nonneg _ _), ?_⟩
  have h := cauchy S f g
  have e : ∑ i ∈ S, (f i + g i) * (f i + g i) = ∑ i ∈ S, f i * f i + ∑ i ∈ S, g i * g i + 2 * ∑ i ∈ S, f i * g i := by
    rw [mul_sum, ← sum_add_distrib, ← sum_add_distrib]
    exact sum_congr rfl (fun i _ => by ring)
  rw [e, ← len_sq S f, ← len_sq S g]
  nlinarith

theorem len_smul {ι : Type} (S : Finset ι) (c : ℝ) (f : ι → ℝ) : len S (fun i => c * f i) = |c| * len S f := by
  unfold len
  have : ∑ i ∈ S, c * f i * (c * f i) = (c * c) * ∑ i ∈ S, f i * f i := by
    rw [mul_sum]; exact sum_congr rfl (fun i _ => by ring)
  rw [this, Real.sqrt_mul (mul_self_nonneg c), Real.sqrt_mul_self_eq_abs]

theorem len_sum {ι κ : Type} (S : Finset ι) (T : Finset κ) (f : κ → ι → ℝ) :
    len S (fun i => ∑ s ∈ T, f s i) ≤ ∑ s ∈ T, len S (f s) := by
  classical
  induction T using Finset.induction_on with
  | empty => simp [len]
  | insert a T ha ih =>
    rw [sum_insert ha]
    have : (fun i => ∑ s ∈ insert a T, f s i) = fun i => f a i + ∑ s ∈ T, f s i := by
      funext i; rw [sum_insert ha]
    rw [this]
    exact (len_add _ _ _).trans (by linarith)

theorem len_le_of_sq {ι κ : Type} {S : Finset ι} {T : Finset κ} {f : ι → ℝ} {g : κ → ℝ} {c : ℝ} (hc : 0 ≤ c)
    (h : ∑ i ∈ S, f i * f i ≤ c * c * ∑ i ∈ T, g i * g i) : len S f ≤ c * len T g := by
  apply Real.sqrt_le_iff.2
  refine ⟨mul_nonneg hc (len_nonneg _ _), h.trans (le_of_eq ?_)⟩
  rw [← len_sq]; ring

theorem abs_le_len {ι : Type} {S : Finset ι} (f : ι → ℝ) {i : ι} (hi : i ∈ S) : |f i| ≤ len S f := by
  unfold len
  rw [← Real.sqrt_mul_self_eq_abs]
  exact Real.sqrt_le_sqrt (single_le_sum (f := fun i => f i * f i) (fun j _ => mul_self_nonneg _) hi)

/-! ### bounded kernels -/

/-- Apply a kernel. -/
def app (n : ℕ) (K : ℕ → ℕ → ℝ) (v : ℕ → ℝ) (i : ℕ) : ℝ := ∑ a ∈ range n, K i a * v a

/-- The kernel enlarges lengths at most by the factor `c`. -/
def Bd (n : ℕ) (K : ℕ → ℕ → ℝ) (c : ℝ) : Prop := 0 ≤ c ∧ ∀ v, len (range n) (app n K v) ≤ c * len (range n) v

/-- Deviation of `KᵀK` from the identity. -/
def gramErr (n : ℕ) (K : ℕ → ℕ → ℝ) (i a : ℕ) : ℝ := ∑ l ∈ range n, K l i * K l a - delta i a

/-- `KᵀK`. -/
def gram (n : ℕ) (K : ℕ → ℕ → ℝ) (i a : ℕ) : ℝ := ∑ l ∈ range n, K l i * K l a

theorem app_delta (n : ℕ) (v : ℕ → ℝ) {i : ℕ} (hi : i < n) : app n delta v i = v i := by
  unfold app delta
  simp [hi]

theorem bd_delta (n : ℕ) : Bd n delta 1 :=
  ⟨zero_le_one, fun v => by rw [one_mul]; exact (len_congr (fun i hi => app_delta n v (mem_range.1 hi))).le⟩

theorem app_gram (n : ℕ) (K : ℕ → ℕ → ℝ) (v : ℕ → ℝ) (i : ℕ) : app n (gram n K) v i = app n (tr K) (app n K v) i := by
  unfold app gram tr
  simp_rw [sum_mul, mul_sum]
  rw [sum_comm]
  exact sum_congr rfl (fun l _ => sum_congr rfl (fun a _ => by ring))

theorem app_gramErr (n : ℕ) (K : ℕ → ℕ → ℝ) (v : ℕ → ℝ) {i : ℕ} (hi : i < n) :
    app n (gramErr n K) v i = app n (gram n K) v i - v i := by
  have : app n (gramErr n K) v i = app n (gram n K) v i - app n delta v i := by
    unfold app gramErr gram
    rw [← sum_sub_distrib]
    exact sum_congr rfl (fun a _ => by ring)
  rw [this, app_delta n v hi]

/-- `⟨Kᵀu, v⟩ = ⟨u, Kv⟩`. -/
theorem adjoint (n : ℕ) (K : ℕ → ℕ → ℝ) (u v : ℕ → ℝ) :
    ∑ i ∈ range n, app n (tr K) u i * v i = ∑ i ∈ range n, u i * app n K v i := by
  unfold app tr
  simp_rw [sum_mul, mul_sum]
  rw [sum_comm]
  exact sum_congr rfl (fun l _ => sum_congr rfl (fun a _ => by ring))

theorem bd_of_gram {n : ℕ} {K : ℕ → ℕ → ℝ} {ε : ℝ} (h : Bd n (gramErr n K) ε) : Bd n K (Real.sqrt (1 + ε)) := by
  refine ⟨Real.sqrt_nonneg _, fun v => ?_⟩
  have h0 := h.1
  apply len_le_of_sq (Real.sqrt_nonneg _)
  rw [Real.mul_self_sqrt (by linarith), ← adjoint]
  have e : ∀ i ∈ range n, app n (tr K) (app n K v) i * v i = v i * v i + app n (gramErr n K) v i * v i := by
    intro i hi
    rw [← app_gram, app_gramErr n K v (mem_range.1 hi)]; ring
  rw [sum_congr rfl e, sum_add_distrib]
  have c1 := cauchy (range n) (app n (gramErr n K) v) v
  have c2 := h.2 v
  have c3 := len_nonneg (range n) v
  rw [← len_sq]
  nlinarith

theorem bd_tr {n : ℕ} {K : ℕ → ℕ → ℝ} {c : ℝ} (h : Bd n K c) : Bd n (tr K) c := by
  refine ⟨h.1, fun u => ?_⟩
  have e := adjoint n K u (app n (tr K) u)
  rw [← len_sq] at e
  have c1 := cauchy (range n) u (app n K (app n (tr K) u))
  have c2 := h.2 (app n (tr K) u)
  have hu := len_nonneg (range n) u
  have hx := len_nonneg (range n) (app n (tr K) u)
  by_contra hcon
  rw [not_le] at hcon
  have hxp : 0 < len (range n) (app n (tr K) u) := lt_of_le_of_lt (mul_nonneg h.1 hu) hcon
  have h3 : len (range n) u * len (range n) (app n K (app n (tr K) u)) ≤ len (range n) u * (c * len (range n) (app n (tr K) u)) :=
    mul_le_mul_of_nonneg_left c2 hu
  have h4 := mul_lt_mul_of_pos_right hcon hxp
  nlinarith

theorem bd_gram {n : ℕ} {K : ℕ → ℕ → ℝ} {c : ℝ} (h : Bd n K c) : Bd n (gram n K) (c * c) := by
  refine ⟨mul_self_nonneg c, fun v => ?_⟩
  rw [len_congr (fun i _ => app_gram n K v i), mul_assoc]
  exact ((bd_tr h).2 _).trans (mul_le_mul_of_nonneg_left (h.2 v) h.1)

theorem gramErr_delta (n : ℕ) : Bd n (gramErr n delta) 0 := by
  refine ⟨le_rfl, fun v => ?_⟩
  rw [zero_mul]
  have : len (range n) (app n (gramErr n delta) v) = len (range n) (fun _ => 0) := by
    apply len_congr
    intro i hi
    have hi := mem_range.1 hi
    have ht : (tr delta : ℕ → ℕ → ℝ) = delta := by funext a b; unfold tr delta; simp [eq_comm]
    rw [app_gramErr n _ v hi, app_gram, ht, app_delta n _ hi, app_delta n _ hi, sub_self]
  rw [this]; simp [len]

/-! ### matrices -/

/-- Euclidean length of a matrix. -/
noncomputable def nrm (m : Mat ℝ) : ℝ := Real.sqrt (energy m)

theorem energy_prod (m : Mat ℝ) : energy m = ∑ q ∈ range m.rows ×ˢ range m.cols, m.get q.1 q.2 * m.get q.1 q.2 := by
  unfold energy; rw [sum_product]

theorem nrm_len (m : Mat ℝ) : nrm m = len (range m.rows ×ˢ range m.cols) (fun q => m.get q.1 q.2) := by
  unfold nrm len; rw [energy_prod]

theorem nrm_nonneg (m : Mat ℝ) : 0 ≤ nrm m := Real.sqrt_nonneg _

theorem energy_nonneg (m : Mat ℝ) : 0 ≤ energy m := by rw [energy_prod]; exact sum_sq_nonneg _ _

theorem nrm_sq (m : Mat ℝ) : nrm m * nrm m = energy m := Real.mul_self_sqrt (energy_nonneg m)

theorem nrm_comb {x y z : Mat ℝ} (h : Comb 1 1 x y z) : nrm z ≤ nrm x + nrm y := by
  obtain ⟨h1, h2, h3, h4, h5⟩ := h
  rw [nrm_len, nrm_len, nrm_len, h1, h2, h3, h4]
  refine le_trans (le_of_eq (len_congr ?_)) (len_add _ _ _)
  intro q hq
  rw [mem_product, mem_range, mem_range] at hq
  rw [h5 _ hq.1 _ hq.2]; ring

theorem abs_le_nrm {m : Mat ℝ} {i j : ℕ} (hi : i < m.rows) (hj : j < m.cols) : |m.get i j| ≤ nrm m := by
  rw [nrm_len]
  exact abs_le_len (fun q : ℕ × ℕ => m.get q.1 q.2) (i := (i, j)) (by simp [hi, hj])

theorem nrm_sepOp {KH KW : ℕ → ℕ → ℝ} {x : Mat ℝ} {c1 c2 : ℝ} (h1 : Bd x.rows KH c1) (h2 : Bd x.cols KW c2) :
    nrm (sepOp KH KW x) ≤ c1 * c2 * nrm x := by
  have hsq : ∀ {n : ℕ} {K : ℕ → ℕ → ℝ} {c : ℝ}, Bd n K c → ∀ v, ∑ i ∈ range n, app n K v i * app n K v i ≤ c * c * ∑ i ∈ range n, v i * v i := by
    intro n K c hb v
    rw [← len_sq, ← len_sq]
    have := hb.2 v
    have := len_nonneg (range n) (app n K v)
    have := len_nonneg (range n) v
    calc _ ≤ (c * len (range n) v) * (c * len (range n) v) := mul_self_le_mul_self (len_nonneg _ _) (hb.2 v)
      _ = _ := by ring
  have e : energy (sepOp KH KW x) ≤ (c1 * c2) * (c1 * c2) * energy x := by
    have e0 : energy (sepOp KH KW x) = ∑ j ∈ range x.cols, ∑ i ∈ range x.rows,
        app x.rows KH (fun a => app x.cols KW (fun b => x.get a b) j) i *
        app x.rows KH (fun a => app x.cols KW (fun b => x.get a b) j) i := by
      rw [sum_comm]
      exact sum_congr rfl (fun i hi => sum_congr rfl (fun j hj => by
        rw [sepOp_get (mem_range.1 hi) (mem_range.1 hj)]; rfl))
    rw [e0]
    calc _ ≤ ∑ j ∈ range x.cols, c1 * c1 * ∑ i ∈ range x.rows, app x.cols KW (fun b => x.get i b) j *
          app x.cols KW (fun b => x.get i b) j := sum_le_sum (fun j _ => hsq h1 _)
      _ = c1 * c1 * ∑ i ∈ range x.rows, ∑ j ∈ range x.cols, app x.cols KW (fun b => x.get i b) j *
          app x.cols KW (fun b => x.get i b) j := by rw [← mul_sum, sum_comm]
      _ ≤ c1 * c1 * ∑ i ∈ range x.rows, c2 * c2 * ∑ j ∈ range x.cols, x.get i j * x.get i j :=
          mul_le_mul_of_nonneg_left (sum_le_sum (fun i _ => hsq h2 _)) (mul_self_nonneg _)
      _ = _ := by rw [← mul_sum]; unfold energy; ring
  unfold nrm
  apply Real.sqrt_le_iff.2
  refine ⟨mul_nonneg (mul_nonneg h1.1 h2.1) (Real.sqrt_nonneg _), e.trans (le_of_eq ?_)⟩
  rw [mul_pow, Real.sq_sqrt (energy_nonneg x)]; ring

/-- Difference. -/
def msub (x y : Mat ℝ) : Mat ℝ := Mat.ofFn x.rows x.cols (fun i j => x.get i j - y.get i j)

theorem msub_get {x y : Mat ℝ} {i j : ℕ} (hi : i < x.rows) (hj : j < x.cols) : (msub x y).get i j = x.get i j - y.get i j := by
  unfold msub; rw [Mat.get_ofFn hi hj]

theorem sepOp_get' {KH KW : ℕ → ℕ → ℝ} {x : Mat ℝ} {i j : ℕ} (hi : i < x.rows) (hj : j < x.cols) :
    (sepOp KH KW x).get i j = app x.rows KH (fun a => app x.cols KW (fun b => x.get a b) j) i := sepOp_get hi hj

theorem app_congr {n : ℕ} {K : ℕ → ℕ → ℝ} {v w : ℕ → ℝ} (h : ∀ a < n, v a = w a) (i : ℕ) : app n K v i = app n K w i := by
  unfold app; exact sum_congr rfl (fun a ha => by rw [h a (mem_range.1 ha)])

theorem app_add (n : ℕ) (K : ℕ → ℕ → ℝ) (v w : ℕ → ℝ) (i : ℕ) : app n K (fun a => v a + w a) i = app n K v i + app n K w i := by
  unfold app; rw [← sum_add_distrib]; exact sum_congr rfl (fun a _ => by ring)

theorem app_swap (n m : ℕ) (K L : ℕ → ℕ → ℝ) (F : ℕ → ℕ → ℝ) (i j : ℕ) :
    app n K (fun a => app m L (fun b => F a b) j) i = app m L (fun b => app n K (fun a => F a b) i) j := by
  unfold app
  simp_rw [mul_sum]
  rw [sum_comm]
  exact sum_congr rfl (fun l _ => sum_congr rfl (fun a _ => by ring))

/-- Analysis followed by the transposed operator. -/
theorem sepOp_gram (KH KW : ℕ → ℕ → ℝ) (x : Mat ℝ) :
    sepOp (tr KH) (tr KW) (sepOp KH KW x) = sepOp (gram x.rows KH) (gram x.cols KW) x := by
  refine Mat.ext' rfl rfl ?_
  intro i hi j hj
  have hi' : i < x.rows := hi
  have hj' : j < x.cols := hj
  rw [sepOp_get' (x := sepOp KH KW x) hi' hj', sepOp_get' hi' hj']
  change app x.rows (tr KH) (fun a => app x.cols (tr KW) (fun b => (sepOp KH KW x).get a b) j) i = _
  rw [app_gram]
  apply app_congr
  intro a ha
  have e1 : app x.cols (tr KW) (fun b => (sepOp KH KW x).get a b) j =
      app x.cols (tr KW) (fun b => app x.rows KH (fun u => app x.cols KW (fun v => x.get u v) b) a) j :=
    app_congr (fun b hb => sepOp_get' ha hb) j
  rw [e1, app_swap]
  apply app_congr
  intro u _
  rw [app_gram]

theorem nrm_gram_sub {KH KW : ℕ → ℕ → ℝ} {x : Mat ℝ} {c1 c2 : ℝ} (h1 : Bd x.rows (gramErr x.rows KH) c1)
    (h2 : Bd x.cols (gramErr x.cols KW) c2) :
    nrm (msub (sepOp (gram x.rows KH) (gram x.cols KW) x) x) ≤ ((1 + c1) * (1 + c2) - 1) * nrm x := by
  have hc : Comb 1 1 (sepOp (gramErr x.rows KH) (gram x.cols KW) x) (sepOp delta (gramErr x.cols KW) x)
      (msub (sepOp (gram x.rows KH) (gram x.cols KW) x) x) := by
    refine ⟨rfl, rfl, rfl, rfl, ?_⟩
    intro i hi j hj
    have hi' : i < x.rows := hi
    have hj' : j < x.cols := hj
    rw [msub_get (x := sepOp (gram x.rows KH) (gram x.cols KW) x) hi' hj', sepOp_get' hi' hj', sepOp_get' hi' hj', sepOp_get' hi' hj', app_gramErr _ _ _ hi',
      app_delta _ _ hi', app_gramErr _ _ _ hj']
    ring
  have g2 : Bd x.cols (gram x.cols KW) (1 + c2) := by
    have := bd_gram (bd_of_gram h2)
    rwa [Real.mul_self_sqrt (by linarith [h2.1])] at this
  have a := nrm_comb hc
  have b := nrm_sepOp (x := x) h1 g2
  have c := nrm_sepOp (x := x) (bd_delta x.rows) h2
  calc _ ≤ _ := a
    _ ≤ c1 * (1 + c2) * nrm x + 1 * c2 * nrm x := add_le_add b c
    _ = _ := by ring

/-! ### the transform kernel -/

theorem len_per (x : List ℝ) (n : ℕ) (hx : x.length = n) (hn : 0 < n) (z : ℤ) :
    len (range n) (fun k => per x (k + z)) = len (range n) (fun k => x.getD k 0) := by
  have hpos : (0 : ℤ) < n := by exact_mod_cast hn
  have hne : (n : ℤ) ≠ 0 := ne_of_gt hpos
  unfold len
  congr 1
  refine sum_bij' (fun k _ => (((k : ℤ) + z) % n).toNat) (fun k _ => (((k : ℤ) - z) % n).toNat) ?_ ?_ ?_ ?_ ?_
  · intro k _
    have := Int.emod_lt_of_pos ((k : ℤ) + z) hpos
    have := Int.emod_nonneg ((k : ℤ) + z) hne
    rw [mem_range]; omega
  · intro k _
    have := Int.emod_lt_of_pos ((k : ℤ) - z) hpos
    have := Int.emod_nonneg ((k : ℤ) - z) hne
    rw [mem_range]; omega
  · intro k hk
    rw [mem_range] at hk
    rw [Int.toNat_of_nonneg (Int.emod_nonneg _ hne), Int.emod_sub_emod, add_sub_cancel_right,
      Int.emod_eq_of_lt (by positivity) (by exact_mod_cast hk)]
    simp
  · intro k hk
    rw [mem_range] at hk
    rw [Int.toNat_of_nonneg (Int.emod_nonneg _ hne), Int.emod_add_emod, sub_add_cancel,
      Int.emod_eq_of_lt (by positivity) (by exact_mod_cast hk)]
    simp
  · intro k _
    unfold per
    rw [hx]

/-- Deviation of a filter from orthonormality. -/
noncomputable def dev (t : ℕ) (h : List ℝ) : ℝ := |FB.auto t (fl h) 0 - 1| + 2 * ∑ s ∈ range t, |FB.auto t (fl h) (s + 1)|

theorem gram_trans (h : List ℝ) (t n2 : ℕ) (hL : h.length = 2 * t) (hn : 0 < n2) (v : ℕ → ℝ) {k : ℕ} (hk : k < 2 * n2) :
    app (2 * n2) (gram (2 * n2) (trans n2 t h)) v k =
      FB.auto t (fl h) 0 * v k + ∑ s ∈ range t, FB.auto t (fl h) (s + 1) *
        (per ((List.range (2 * n2)).map v) (k + (2 * (s + 1) : ℤ)) + per ((List.range (2 * n2)).map v) (k + -(2 * (s + 1) : ℤ))) := by
  set x : List ℝ := (List.range (2 * n2)).map v with hx
  have hxl : x.length = 2 * n2 := by simp [hx]
  have hxg : ∀ q < 2 * n2, x.getD q 0 = v q := fun q hq => by rw [hx, getD_map_range _ _ hq]
  have hana : ∀ (f : List ℝ), f.length = 2 * t → ∀ i, anaP x f i = ∑ a ∈ range (2 * n2), kern (2 * n2) (fl f) (2 * t) i a * v a := by
    intro f hf i
    rw [ana_kern x f i (by omega), hxl, hf]
    exact sum_congr rfl (fun a ha => by rw [hxg a (mem_range.1 ha)])
  have hlow : per ((List.range n2).map (anaP x h)) = FB.low t (fl h) (per x) := by
    funext z
    rw [per_ana x h n2 hxl hn, hL]; rfl
  have hhigh : per ((List.range n2).map (anaP x (qmf h))) = FB.high t (fl h) (per x) := by
    funext z
    rw [per_ana x _ n2 hxl hn, length_qmf, hL]
    unfold FB.high
    refine sum_congr rfl (fun j hj => ?_)
    rw [← getD_qmf h t hL (mem_range.1 hj)]
  have hrec := FB.synth_analysis t (fl h) (per x) (k % 2) (Nat.mod_lt _ (by omega)) ((k / 2 : ℕ) : ℤ)
  have hkk : (2 * ((k / 2 : ℕ) : ℤ) + ((k % 2 : ℕ) : ℤ)) = (k : ℤ) := by omega
  rw [FB.sum_corr_group t (fl h) (fun j hj => fl_zero h (by omega)) (fun s => per x (2 * ((k / 2 : ℕ) : ℤ) + (k % 2 : ℕ) + 2 * s)),
    ← hlow, ← hhigh, synth_trans _ _ h t n2 (by simp) (by simp) hL hn k hk, hkk] at hrec
  rw [app_gram]
  have e : app (2 * n2) (tr (trans n2 t h)) (app (2 * n2) (trans n2 t h) v) k =
      ∑ i ∈ range n2, trans n2 t h i k * ((List.range n2).map (anaP x h)).getD i 0 +
        ∑ i ∈ range n2, trans n2 t h (n2 + i) k * ((List.range n2).map (anaP x (qmf h))).getD i 0 := by
    unfold app tr
    rw [sum_halves]
    congr 1
    · refine sum_congr rfl (fun i hi => ?_)
      rw [mem_range] at hi
      rw [getD_map_range _ _ hi, hana h hL]
      congr 1
      exact sum_congr rfl (fun a _ => by rw [trans_low h hi])
    · refine sum_congr rfl (fun i hi => ?_)
      rw [mem_range] at hi
      rw [getD_map_range _ _ hi, hana (qmf h) (by simpa using hL)]
      congr 1
      exact sum_congr rfl (fun a _ => by rw [trans_high h])
  rw [e, hrec]
  simp only [mul_zero, add_zero]
  rw [per_lt x (by omega), hxg k hk]
  congr 1

theorem bd_trans (h : List ℝ) (t n2 : ℕ) (hL : h.length = 2 * t) (hn : 0 < n2) :
    Bd (2 * n2) (gramErr (2 * n2) (trans n2 t h)) (dev t h) := by
  refine ⟨by unfold dev; positivity, fun v => ?_⟩
  set x : List ℝ := (List.range (2 * n2)).map v with hx
  have hxl : x.length = 2 * n2 := by simp [hx]
  have hxv : len (range (2 * n2)) (fun k => x.getD k 0) = len (range (2 * n2)) v :=
    len_congr (fun q hq => by rw [hx, getD_map_range _ _ (mem_range.1 hq)])
  have e : len (range (2 * n2)) (app (2 * n2) (gramErr (2 * n2) (trans n2 t h)) v) =
      len (range (2 * n2)) (fun k => (FB.auto t (fl h) 0 - 1) * v k + ∑ s ∈ range t, FB.auto t (fl h) (s + 1) *
        (per x (k + (2 * (s + 1) : ℤ)) + per x (k + -(2 * (s + 1) : ℤ)))) := by
    apply len_congr
    intro k hk
    have hk := mem_range.1 hk
    rw [app_gramErr _ _ _ hk, gram_trans h t n2 hL hn v hk]
    ring
  rw [e]
  refine (len_add _ _ _).trans ?_
  rw [len_smul]
  have e2 : len (range (2 * n2)) (fun k => ∑ s ∈ range t, FB.auto t (fl h) (s + 1) *
        (per x (k + (2 * (s + 1) : ℤ)) + per x (k + -(2 * (s + 1) : ℤ)))) ≤
      ∑ s ∈ range t, |FB.auto t (fl h) (s + 1)| * (2 * len (range (2 * n2)) v) := by
    refine (len_sum (range (2 * n2)) (range t) (fun s (k : ℕ) => FB.auto t (fl h) (s + 1) *
        (per x ((k : ℤ) + (2 * (s + 1) : ℤ)) + per x (k + -(2 * (s + 1) : ℤ))))).trans ?_
    refine sum_le_sum (fun s _ => ?_)
    rw [len_smul]
    refine mul_le_mul_of_nonneg_left ?_ (abs_nonneg _)
    refine (len_add _ _ _).trans (le_of_eq ?_)
    rw [len_per x _ hxl (by omega), len_per x _ hxl (by omega), hxv]; ring
  refine (add_le_add_right e2 _).trans (le_of_eq ?_)
  rw [← sum_mul]
  unfold dev
  ring

/-! ### one step and all steps -/

theorem energy_msub_glue {p : Params} (hd : p.dimension = 1 ∨ p.dimension = 2) {r c : ℕ} {x y : Mat ℝ} {ds : List (Mat ℝ)}
    (hx : Parts p r c x ds) (hy : Parts p r c y ds) : nrm (msub (glue p x ds) (glue p y ds)) = nrm (msub x y) := by
  set zs : List (Mat ℝ) := (List.range (subbandsPerWT p)).map (fun _ => Mat.ofFn r c (fun _ _ => 0)) with hzs
  have hz : ∀ q < subbandsPerWT p, zs.getD q default = Mat.ofFn r c (fun _ _ => 0) := fun q hq => by
    rw [hzs, getD_map_range' _ _ _ hq]
  have hp : Parts p r c (msub x y) zs := ⟨hx.1, hx.2.1, hx.2.2.1, fun q hq => by rw [hz q hq]; exact ⟨rfl, rfl⟩⟩
  have e : msub (glue p x ds) (glue p y ds) = glue p (msub x y) zs := by
    refine Mat.ext' (by rw [glue_rows]; unfold msub; simp [glue_rows]) (by rw [glue_cols p hp]; unfold msub; simp [glue_cols p hx]) ?_
    intro i hi j hj
    have hi' : i < (glue p x ds).rows := hi
    have hj' : j < (glue p x ds).cols := hj
    rw [msub_get hi' hj']
    rcases glue_cases hx hd hi' hj' with ⟨h1, h2⟩ | ⟨q, hq, i', hi2, j', hj2, rfl, rfl⟩
    · rw [glue_low hx h1 h2, glue_low hy h1 h2, glue_low hp h1 h2, msub_get (by rw [hx.1]; exact h1) (by rw [hx.2.1]; exact h2)]
    · rw [glue_detail hx hq hi2 hj2, glue_detail hy hq hi2 hj2, glue_detail hp hq hi2 hj2, hz q hq, Mat.get_ofFn hi2 hj2, sub_self]
  unfold nrm
  rw [e, energy_glue hd hp]
  have : ∑ q ∈ range (subbandsPerWT p), energy (zs.getD q default) = 0 := by
    apply sum_eq_zero
    intro q hq
    rw [hz q (mem_range.1 hq)]
    unfold energy
    apply sum_eq_zero
    intro i hi
    apply sum_eq_zero
    intro j hj
    simp only [Mat.rows_ofFn, Mat.cols_ofFn, mem_range] at hi hj
    rw [Mat.get_ofFn hi hj]; ring
  rw [this, add_zero]

/-- Growth factor of one step. -/
noncomputable def growth (p : Params) (ε : ℝ) : ℝ := (1 + ε) * (if p.dimension = 1 then 1 else 1 + ε)

theorem near_kernels {k : Kit ℝ} {p : Params} (hv : ValidParams p) (hf : FilterLen k p) {s : ℕ} (hs : s < p.steps) {m : Mat ℝ}
    (hm : Fits p s m) : Bd m.rows (gramErr m.rows (kR p (scaling k p) m.rows)) (dev p.wtype (scaling k p)) ∧
      Bd m.cols (gramErr m.cols (kC p (scaling k p) m.cols)) (if p.dimension = 1 then 0 else dev p.wtype (scaling k p)) := by
  have ht := wavelet_of_steps hv hs
  have hL := length_scaling hf ht
  unfold kR kC
  rcases fits_halves hv ht hs hm with ⟨hd, n2, h1, h2, h3, h4⟩ | ⟨hd, sh, sw, h1, h2, h3, h4, h5, h6, _⟩
  · rw [if_pos hd, if_pos hd, h1, Nat.mul_div_cancel_left _ (by omega : 0 < 2)]
    exact ⟨bd_trans _ _ _ hL (by omega), gramErr_delta _⟩
  · rw [if_neg (by omega), if_neg (by omega), h1, h2, Nat.mul_div_cancel_left _ (by omega : 0 < 2),
      Nat.mul_div_cancel_left _ (by omega : 0 < 2)]
    exact ⟨bd_trans _ _ _ hL (by omega), bd_trans _ _ _ hL (by omega)⟩

theorem growth_eq (p : Params) (ε : ℝ) : growth p ε = (1 + ε) * (1 + (if p.dimension = 1 then 0 else ε)) := by
  unfold growth; split_ifs <;> simp

theorem dev_nonneg (t : ℕ) (h : List ℝ) : 0 ≤ dev t h := by unfold dev; positivity

theorem growth_ge {p : Params} {ε : ℝ} (h : 0 ≤ ε) : 1 ≤ growth p ε := by
  unfold growth
  split_ifs
  · linarith
  · nlinarith

theorem sqrt_growth (p : Params) {ε : ℝ} (h : 0 ≤ ε) :
    Real.sqrt (1 + ε) * Real.sqrt (1 + (if p.dimension = 1 then 0 else ε)) = Real.sqrt (growth p ε) := by
  rw [growth_eq, Real.sqrt_mul (by linarith)]

/-- The approximation grows at most by the square root of the growth factor. -/
theorem nrm_approx {k : Kit ℝ} {p : Params} (hv : ValidParams p) (hf : FilterLen k p) {s : ℕ} (hs : s < p.steps) {m : Mat ℝ}
    (hm : Fits p s m) : nrm (approxStep p (scaling k p) m) ≤ Real.sqrt (growth p (dev p.wtype (scaling k p))) * nrm m := by
  obtain ⟨h1, h2⟩ := near_kernels (k := k) hv hf hs hm
  have h := nrm_sepOp (x := m) (bd_of_gram h1) (bd_of_gram h2)
  rw [sqrt_growth p (dev_nonneg _ _)] at h
  refine le_trans ?_ h
  have hg := glue_analysis (k := k) hv hf hs hm
  unfold fullStep at hg
  rw [← hg]
  unfold nrm
  apply Real.sqrt_le_sqrt
  rw [energy_glue (dim_cases hv) (analysis_parts (k := k) hv hs hm)]
  have := sum_nonneg (s := range (subbandsPerWT p)) (f := fun q => energy ((detailStep p (scaling k p) nullDenoiser s m).getD q default))
    (fun q _ => energy_nonneg _)
  linarith

/-- One synthesis step. -/
theorem synth_err {k : Kit ℝ} {p : Params} (hv : ValidParams p) (hf : FilterLen k p) {s : ℕ} (hs : s < p.steps) {x m : Mat ℝ}
    (hx : Fits p s x) (hm : Fits p (s + 1) m) (e : ℕ)
    (h : nrm (msub m (approxStep p (scaling k p) x)) ≤
      (growth p (dev p.wtype (scaling k p)) ^ e - 1) * nrm (approxStep p (scaling k p) x)) :
    nrm (msub (synthStep p (scaling k p) m (detailStep p (scaling k p) nullDenoiser s x)) x) ≤
      (growth p (dev p.wtype (scaling k p)) ^ (e + 1) - 1) * nrm x := by
  set A := growth p (dev p.wtype (scaling k p)) with hA
  have hA1 : 1 ≤ A := growth_ge (dev_nonneg _ _)
  set ds := detailStep p (scaling k p) nullDenoiser s x with hds
  set ap := approxStep p (scaling k p) x with hap
  have hfit : ∀ q < subbandsPerWT p, Fits p (s + 1) (ds.getD q default) := fun q hq =>
    detailStep_fits hv nullDenoiser_sized hs hx hq
  have pm := parts_of_fits hm hfit
  have pa := analysis_parts (k := k) hv hs hx
  rw [synth_glue hv hf hs hm hfit]
  have hfull := glue_analysis (k := k) hv hf hs hx
  rw [← hds, ← hap] at hfull
  have hrow : (glue p m ds).rows = x.rows := by
    have : (glue p m ds).rows = (glue p ap ds).rows := by rw [glue_rows, glue_rows, pm.1, pa.1]
    rw [this, hfull]; rfl
  have hcol : (glue p m ds).cols = x.cols := by
    have : (glue p m ds).cols = (glue p ap ds).cols := by rw [glue_cols p pm, glue_cols p pa]
    rw [this, hfull]; rfl
  rw [hrow, hcol]
  obtain ⟨g1, g2⟩ := near_kernels (k := k) hv hf hs hx
  set KH := kR p (scaling k p) x.rows
  set KW := kC p (scaling k p) x.cols
  have hcomb : Comb 1 1 (msub (glue p m ds) (glue p ap ds)) (glue p ap ds) (glue p m ds) := by
    refine ⟨rfl, rfl, by rw [hfull, hrow]; rfl, by rw [hfull, hcol]; rfl, ?_⟩
    intro i hi j hj
    rw [msub_get hi hj]; ring
  have hc2 := comb_sepOp (KH := tr KH) (KW := tr KW) hcomb
  have hc3 : Comb 1 1 (sepOp (tr KH) (tr KW) (msub (glue p m ds) (glue p ap ds)))
      (msub (sepOp (tr KH) (tr KW) (glue p ap ds)) x) (msub (sepOp (tr KH) (tr KW) (glue p m ds)) x) := by
    obtain ⟨b1, b2, b3, b4, b5⟩ := hc2
    refine ⟨b1, b2, b3, b4, ?_⟩
    intro i hi j hj
    have hi' : i < (sepOp (tr KH) (tr KW) (glue p m ds)).rows := hi
    have hj' : j < (sepOp (tr KH) (tr KW) (glue p m ds)).cols := hj
    rw [msub_get hi' hj', msub_get (by omega) (by omega), b5 i hi' j hj']
    ring
  have t1 := nrm_comb hc3
  have t2 : nrm (sepOp (tr KH) (tr KW) (msub (glue p m ds) (glue p ap ds))) ≤ Real.sqrt A * nrm (msub m ap) := by
    have := nrm_sepOp (x := msub (glue p m ds) (glue p ap ds)) (KH := tr KH) (KW := tr KW)
      (c1 := Real.sqrt (1 + dev p.wtype (scaling k p)))
      (c2 := Real.sqrt (1 + (if p.dimension = 1 then 0 else dev p.wtype (scaling k p))))
      (by change Bd (glue p m ds).rows _ _; rw [hrow]; exact bd_tr (bd_of_gram g1))
      (by change Bd (glue p m ds).cols _ _; rw [hcol]; exact bd_tr (bd_of_gram g2))
    rwa [sqrt_growth p (dev_nonneg _ _), energy_msub_glue (dim_cases hv) pm pa] at this
  have t3 : nrm (msub (sepOp (tr KH) (tr KW) (glue p ap ds)) x) ≤ (A - 1) * nrm x := by
    rw [hfull]
    unfold fullStep
    rw [sepOp_gram]
    have := nrm_gram_sub (x := x) g1 g2
    rwa [← growth_eq] at this
  have t4 := nrm_approx (k := k) hv hf hs hx
  rw [← hap, ← hA] at t4
  have hAe : 0 ≤ A ^ e - 1 := by have := one_le_pow₀ hA1 (n := e); linarith
  have hsA : Real.sqrt A * Real.sqrt A = A := Real.mul_self_sqrt (by linarith)
  have hs0 := Real.sqrt_nonneg A
  have t5 : Real.sqrt A * nrm (msub m ap) ≤ A * (A ^ e - 1) * nrm x := by
    calc _ ≤ Real.sqrt A * ((A ^ e - 1) * nrm ap) := mul_le_mul_of_nonneg_left h hs0
      _ ≤ Real.sqrt A * ((A ^ e - 1) * (Real.sqrt A * nrm x)) :=
          mul_le_mul_of_nonneg_left (mul_le_mul_of_nonneg_left t4 hAe) hs0
      _ = (Real.sqrt A * Real.sqrt A) * (A ^ e - 1) * nrm x := by ring
      _ = _ := by rw [hsA]
  calc _ ≤ _ := t1
    _ ≤ A * (A ^ e - 1) * nrm x + (A - 1) * nrm x := add_le_add (t2.trans t5) t3
    _ = _ := by ring

theorem recon_err {k : Kit ℝ} {p : Params} (hv : ValidParams p) (hf : FilterLen k p) {x : Mat ℝ} (hx : Shaped p x)
    (n i : ℕ) (hi : i ≤ p.steps) (hn : n ≤ i) {m : Mat ℝ} (hm : Fits p i m) (e : ℕ)
    (h : nrm (msub m (sig p (scaling k p) (padOf p x) i)) ≤
      (growth p (dev p.wtype (scaling k p)) ^ e - 1) * nrm (sig p (scaling k p) (padOf p x) i)) :
    nrm (msub (reconFrom p (scaling k p) (chanP p (scaling k p) nullDenoiser x) n i m) (sig p (scaling k p) (padOf p x) (i - n))) ≤
      (growth p (dev p.wtype (scaling k p)) ^ (e + n) - 1) * nrm (sig p (scaling k p) (padOf p x) (i - n)) := by
  induction n generalizing i m e with
  | zero => exact h
  | succ n ih =>
    obtain ⟨j, rfl⟩ : ∃ j, i = j + 1 := ⟨i - 1, by omega⟩
    have hs : j < p.steps := by omega
    simp only [reconFrom, Nat.add_sub_cancel]
    rw [detailsAt_chanP _ _ _ _ hs]
    have := ih j (by omega) (by omega) (m := synthStep p (scaling k p) m
      (detailStep p (scaling k p) nullDenoiser j (sig p (scaling k p) (padOf p x) j)))
      (fits_synth hv _ hs hm _) (e + 1) (synth_err hv hf hs (fits_sig hv (fits_padOf hv hx) hs.le) hm e h)
    rw [show j + 1 - (n + 1) = j - n by omega, show e + (n + 1) = e + 1 + n by omega]
    exact this

theorem nrm_msub_self (m : Mat ℝ) : nrm (msub m m) = 0 := by
  rw [nrm_len]
  have : len (range (msub m m).rows ×ˢ range (msub m m).cols) (fun q => (msub m m).get q.1 q.2) =
      len (range (msub m m).rows ×ˢ range (msub m m).cols) (fun _ => 0) := by
    apply len_congr
    intro q hq
    rw [mem_product, mem_range, mem_range] at hq
    rw [msub_get (x := m) hq.1 hq.2, sub_self]
  rw [this]; simp [len]

theorem roundtrip_err {k : Kit ℝ} {p : Params} (hv : ValidParams p) (hf : FilterLen k p) {x : Mat ℝ} (hx : Shaped p x) :
    nrm (msub (reconP p (scaling k p) 0 (chanP p (scaling k p) nullDenoiser x)) (padOf p x)) ≤
      (growth p (dev p.wtype (scaling k p)) ^ p.steps - 1) * nrm (padOf p x) := by
  unfold reconP
  rw [chanP_last]
  have := recon_err (k := k) hv hf hx p.steps p.steps le_rfl le_rfl
    (fits_sig (k := k) hv (fits_padOf hv hx) le_rfl) 0 (by rw [nrm_msub_self]; simp)
  simpa [sig] using this

/-- Sample by sample, after cropping. -/
theorem sample_err {k : Kit ℝ} {p : Params} (hv : ValidParams p) (hf : FilterLen k p) {x : Mat ℝ} (hx : Shaped p x) :
    (outP k p 0 (chanP p (scaling k p) nullDenoiser x)).rows = x.rows ∧
    (outP k p 0 (chanP p (scaling k p) nullDenoiser x)).cols = x.cols ∧
    ∀ i < x.rows, ∀ j < x.cols, |(outP k p 0 (chanP p (scaling k p) nullDenoiser x)).get i j - x.get i j| ≤
      (growth p (dev p.wtype (scaling k p)) ^ p.steps - 1) * nrm (padOf p x) := by
  have hmap : p.shape.map (· / 2 ^ 0) = p.shape := by simp
  have hsz := chanP_sized (k := k) hv nullDenoiser_sized hx
  have fit := (composeChannel_ok hv hf (d := [chanP p (scaling k p) nullDenoiser x]) (ch := 0) (Nat.zero_le p.steps)
    (by simp) hsz).2
  simp only [List.getD, List.getElem?_cons_zero, Option.getD_some] at fit
  have fp := fits_padOf hv hx
  have hr := roundtrip_err (k := k) hv hf hx
  set y := reconP p (scaling k p) 0 (chanP p (scaling k p) nullDenoiser x) with hy
  have hback := cropOf_padOf hv hx
  have hr' : y.rows = (padOf p x).rows := by rw [fit.1, fp.1]
  have hc' : y.cols = (padOf p x).cols := by rw [fit.2, fp.2]
  unfold outP finishP
  rw [if_neg (by omega), ← hy]
  generalize hq : padOf p x = q at *
  generalize (growth p (dev p.wtype (scaling k p)) ^ p.steps - 1) * nrm q = B at *
  rw [← hback]
  unfold cropOf
  simp only [hmap]
  have hdiff : ∀ i < y.rows, ∀ j < y.cols, |y.get i j - q.get i j| ≤ B := by
    intro i hi j hj
    rw [← msub_get hi hj]
    exact (abs_le_nrm (m := msub y q) hi hj).trans hr
  split_ifs with h0
  · refine ⟨hr', hc', ?_⟩
    intro i hi j hj
    exact hdiff i (by omega) j (by omega)
  · refine ⟨rfl, rfl, ?_⟩
    intro i hi j hj
    simp only [Mat.rows_ofFn, Mat.cols_ofFn] at hi hj
    rw [Mat.get_ofFn hi hj, Mat.get_ofFn hi hj, ← hr', ← hc']
    obtain ⟨l1, l2⟩ := scaled_le hv fit
    rw [hmap] at l1 l2
    have o1 := padOffset_add_le .both l1
    have o2 := padOffset_add_le .both l2
    exact hdiff _ (by omega) _ (by omega)

end WB
