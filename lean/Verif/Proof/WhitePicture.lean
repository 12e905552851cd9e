import Verif.Props.Overflow

/-!
A white picture of 2 x 2 pixels goes through a round trip with DB1 and one step, operation by operation.
-/

set_option linter.unusedSectionVars false

namespace WB.Props

open Finset Spec

section
variable {α : Type} [Zero α] [Add α] [Mul α] [Neg α] [Inhabited α] (a b v : α)

theorem qmf2 : qmf [a, b] = [b, -a] := by simp [qmf]

theorem daub2 : (daubP [a, b] (qmf [a, b]) 2).rowsE = [[(0, a), (1, b)], [(0, b), (1, -a)]] := by
  rw [qmf2]
  simp [daubP, rowP, List.range_succ, tapCol, tapIdx]

theorem daub2T : (daubP [a, b] (qmf [a, b]) 2).transpose.rowsE = [[(0, a), (1, b)], [(0, b), (1, -a)]] := by
  unfold SpMat.transpose
  rw [daub2]
  simp [daubP, List.range_succ]

theorem rows2 {X : Mat α} (hr : X.rows = 2) (hc : X.cols = 2) {W : SpMat α} {p q s t : α} (hW : W.rowsE = [[(0, p), (1, q)], [(0, s), (1, t)]]) :
    rowsP X W = Mat.ofFn 2 2 (fun i j => if j = 0 then 0 + p * X.get i 0 + q * X.get i 1 else 0 + s * X.get i 0 + t * X.get i 1) := by
  unfold rowsP SpMat.mulP
  rw [hr, hc, hW]
  refine Mat.ofFn_congr fun i hi j hj => ?_
  have h0 : (X.row i).getD 0 0 = X.get i 0 := by simp [Mat.row, hc, List.range_succ]
  have h1 : (X.row i).getD 1 0 = X.get i 1 := by simp [Mat.row, hc, List.range_succ]
  rcases (by omega : j = 0 ∨ j = 1) with rfl | rfl
  · simp only [List.map_cons, List.getD_cons_zero, List.foldl_cons, List.foldl_nil, h0, h1, if_pos]
  · simp only [List.map_cons, List.getD_cons_succ, List.getD_cons_zero, List.foldl_cons, List.foldl_nil, h0, h1]
    rfl

theorem cols2 {X : Mat α} (hr : X.rows = 2) (hc : X.cols = 2) {W : SpMat α} {p q s t : α} (hW : W.rowsE = [[(0, p), (1, q)], [(0, s), (1, t)]]) :
    colsP X W = Mat.ofFn 2 2 (fun i j => if i = 0 then 0 + p * X.get 0 j + q * X.get 1 j else 0 + s * X.get 0 j + t * X.get 1 j) := by
  unfold colsP SpMat.mulP
  rw [hr, hc, hW]
  refine Mat.ofFn_congr fun i hi j hj => ?_
  have h0 : (X.col j).getD 0 0 = X.get 0 j := by simp [Mat.col, hr, List.range_succ]
  have h1 : (X.col j).getD 1 0 = X.get 1 j := by simp [Mat.col, hr, List.range_succ]
  rcases (by omega : i = 0 ∨ i = 1) with rfl | rfl
  · simp only [List.map_cons, List.getD_cons_zero, List.foldl_cons, List.foldl_nil, h0, h1, if_pos]
  · simp only [List.map_cons, List.getD_cons_succ, List.getD_cons_zero, List.foldl_cons, List.foldl_nil, h0, h1]
    rfl

theorem trip_2x2 (x : Mat α) (hx : x = Mat.ofFn 2 2 (fun _ _ => v)) (i j : ℕ) (hi : i < 2) (hj : j < 2) :
    let p : Params := ⟨[2, 2], 1, 1, 1⟩
    let L := 0 + a * v + b * v
    let H := 0 + b * v + -a * v
    let ll := 0 + a * L + b * L
    let lh := 0 + b * L + -a * L
    let hl := 0 + a * H + b * H
    let hh := 0 + b * H + -a * H
    (cropOf p 0 (reconP p [a, b] 0 (chanP p [a, b] nullDenoiser x))).get i j =
      (let c := fun u w => if j = 0 then 0 + a * u + b * w else 0 + b * u + -a * w
      if i = 0 then 0 + a * c ll hl + b * c lh hh else 0 + b * c ll hl + -a * c lh hh) := by
  intro p L H ll lh hl hh
  subst hx
  have hpad : padOf p (Mat.ofFn 2 2 (fun _ _ => v)) = Mat.ofFn 2 2 (fun _ _ => v) := by
    have e1 : matRows (paddedShape p) = 2 := by decide
    have e2 : matCols (paddedShape p) = 2 := by decide
    unfold padOf
    rw [e1, e2, if_neg (by decide)]
    refine Mat.ofFn_congr fun i hi j hj => ?_
    simp only [Mat.rows_ofFn, Mat.cols_ofFn]
    refine Mat.get_ofFn ?_ ?_
    · rcases (by omega : i = 0 ∨ i = 1) with rfl | rfl <;> decide
    · rcases (by omega : j = 0 ∨ j = 1) with rfl | rfl <;> decide
  have hdim : ¬p.dimension = 1 := by decide
  have hch : chanP p [a, b] nullDenoiser (Mat.ofFn 2 2 (fun _ _ => v)) =
      [Mat.ofFn 1 1 (fun _ _ => lh), Mat.ofFn 1 1 (fun _ _ => hl), Mat.ofFn 1 1 (fun _ _ => hh), Mat.ofFn 1 1 (fun _ _ => ll)] := by
    unfold chanP
    rw [hpad]
    have hq : quadOf [a, b] (Mat.ofFn 2 2 (fun _ _ => v)) = ⟨Mat.ofFn 1 1 (fun _ _ => ll), Mat.ofFn 1 1 (fun _ _ => lh),
        Mat.ofFn 1 1 (fun _ _ => hl), Mat.ofFn 1 1 (fun _ _ => hh)⟩ := by
      unfold quadOf
      simp only [Mat.rows_ofFn, Mat.cols_ofFn]
      rw [rows2 rfl rfl (daub2 a b), cols2 rfl rfl (daub2 a b)]
      unfold quadP
      congr 1
    show (List.range 1).flatMap _ ++ [approxStep p [a, b] (Mat.ofFn 2 2 (fun _ _ => v))] = _
    simp only [List.range_succ, List.range_zero, List.nil_append, List.flatMap_cons, List.flatMap_nil, List.append_nil]
    unfold detailStep approxStep
    rw [if_neg hdim, if_neg hdim]
    simp only [sig, hq, nullDenoiser]
    rfl
  rw [hch]
  have hrec : reconP p [a, b] 0 [Mat.ofFn 1 1 (fun _ _ => lh), Mat.ofFn 1 1 (fun _ _ => hl), Mat.ofFn 1 1 (fun _ _ => hh), Mat.ofFn 1 1 (fun _ _ => ll)] =
      synthStep p [a, b] (Mat.ofFn 1 1 (fun _ _ => ll)) [Mat.ofFn 1 1 (fun _ _ => lh), Mat.ofFn 1 1 (fun _ _ => hl), Mat.ofFn 1 1 (fun _ _ => hh)] := rfl
  rw [hrec]
  unfold synthStep
  rw [if_neg hdim]
  simp only [Mat.rows_ofFn, Mat.cols_ofFn, Nat.mul_one]
  rw [rows2 rfl rfl (daub2T a b), cols2 rfl rfl (daub2T a b)]
  unfold cropOf
  rw [if_neg (by decide), Mat.get_ofFn (by exact hi) (by exact hj)]
  simp only [Mat.rows_ofFn, Mat.cols_ofFn]
  rw [show padOffset .both 2 (matRows (p.shape.map (· / 2 ^ 0))) = 0 by decide,
    show padOffset .both 2 (matCols (p.shape.map (· / 2 ^ 0))) = 0 by decide, Nat.zero_add, Nat.zero_add, Mat.get_ofFn hi hj,
    Mat.get_ofFn (by norm_num) hj, Mat.get_ofFn (by norm_num) hj]
  rfl
end

theorem rounds_neg {S : Set ℝ} (hS : ∀ x ∈ S, -x ∈ S) {f : ℝ → ℝ} (hf : RoundsToNearest S f) : RoundsToNearest S (fun x => -f (-x)) := by
  intro x
  obtain ⟨h1, h2⟩ := hf (-x)
  refine ⟨hS _ h1, fun y hy => ?_⟩
  have := h2 (-y) (hS y hy)
  rw [show -f (-x) - x = -(f (-x) - -x) by ring, abs_neg]
  rwa [show -y - -x = -(y - x) by ring, abs_neg] at this

theorem floatNumbers_neg {p : ℕ} {emin : ℤ} : ∀ x ∈ FloatNumbers p emin, -x ∈ FloatNumbers p emin := by
  rintro x ⟨m, e, h1, h2, rfl⟩
  exact ⟨-m, e, by rwa [abs_neg], h2, by push_cast; ring⟩

section
variable {r : Rounding} (hr : r.IEEE)
include hr

/-- Rounding to a `float` with 24 significant bits, by hand. -/
theorem to_float (n : ℤ) (e : ℤ) {y : ℝ} (h1 : 2 ^ 23 < n) (h2 : n < 2 ^ 24) (he : -149 ≤ e) (hy : |y - n * 2 ^ e| < 2 ^ e / 2) :
    r.toFloat y = n * 2 ^ e ∧ r.toFloat (-y) = -(n * 2 ^ e) := by
  obtain ⟨l1, l2⟩ := abs_lt.1 hy
  refine ⟨rounds_to (by norm_num) hr.1 (by norm_num; omega) (by exact_mod_cast h2) he (by linarith) (.inr ⟨by norm_num; omega, by linarith⟩), ?_⟩
  have := rounds_to (by norm_num) (rounds_neg floatNumbers_neg hr.1) (n := n) (e := e) (y := y) (by norm_num; omega) (by exact_mod_cast h2) he (by linarith)
    (.inr ⟨by norm_num; omega, by linarith⟩)
  linarith

theorem small_le {x : ℝ} (h : |x| ≤ 4) : |x| ≤ maxFloat := h.trans (le_trans (by norm_num) maxFloat_big)

theorem ov_mul {x y z : ℝ} (h : r.toFloat (x * y) = z) (h4 : |x * y| ≤ 4) : (Ov.of x * Ov.of y : Ov r.toFloat maxFloat) = Ov.of z := by
  rw [← h]
  exact ov_round hr (small_le hr h4)

theorem ov_add {x y z : ℝ} (h : r.toFloat (x + y) = z) (h4 : |x + y| ≤ 4) : (Ov.of x + Ov.of y : Ov r.toFloat maxFloat) = Ov.of z := by
  rw [← h]
  exact ov_round hr (small_le hr h4)

theorem ov_zero_add {x : ℝ} (h : x ∈ FloatNumbers 24 (-149)) (h4 : |x| ≤ 4) : (0 + Ov.of x : Ov r.toFloat maxFloat) = Ov.of x :=
  ov_add hr (by rw [zero_add]; exact rounds_self hr.1 h) (by rwa [zero_add])

theorem float_zero : (0 : ℝ) ∈ FloatNumbers 24 (-149) := ⟨0, 0, by norm_num, by norm_num, by norm_num⟩

/-- The coefficients of DB1. -/
theorem db1_float (p : Params) (hp : p.wtype = 1) : scaling (overflowKit r) p = [Ov.of (11863283 / 2 ^ 24), Ov.of (11863283 / 2 ^ 24)] := by
  have e : (1 / 2 : ℝ) = (1 : ℤ) * 2 ^ (-1 : ℤ) := by norm_num
  have dhalf : r.toDouble (1 / 2) = 1 / 2 := by rw [e]; exact rounds_self hr.2 (float_mem 1 (-1) (by norm_num) (by norm_num))
  have fhalf : r.toFloat (1 / 2) = 1 / 2 := by rw [e]; exact rounds_self hr.1 (float_mem 1 (-1) (by norm_num) (by norm_num))
  have hη : (2 : ℝ) ^ ((-1074 : ℤ) - 1) ≤ 1 / 2 ^ 60 := by
    rw [show (1 : ℝ) / 2 ^ 60 = 2 ^ (-60 : ℤ) by norm_num]
    exact zpow_le_zpow_right₀ (by norm_num) (by norm_num)
  have hs1 : 1.4142135623 ≤ Real.sqrt 2 := Real.le_sqrt_of_sq_le (by norm_num)
  have hs2 : Real.sqrt 2 ≤ 1.4142135624 := Real.sqrt_le_iff.2 ⟨by norm_num, by norm_num⟩
  have s1 := rounds_std (by norm_num) hr.2 (Real.sqrt 2)
  have s2 := rounds_std (by norm_num) hr.2 (r.toDouble (Real.sqrt 2) * (1 / 2))
  rw [show (2 : ℝ) ^ (-((53 : ℕ) : ℤ)) = 1 / 2 ^ 53 by norm_num] at s1 s2
  generalize (2 : ℝ) ^ ((-1074 : ℤ) - 1) = ω at *
  rw [abs_of_nonneg (Real.sqrt_nonneg 2)] at s1
  have s1' := abs_le.1 s1
  have k1 : (1 : ℝ) / 2 ^ 53 * Real.sqrt 2 ≤ 1 / 2 ^ 50 := by norm_num at hs2 ⊢; linarith
  have k2 : (1 : ℝ) / 2 ^ 50 + 1 / 2 ^ 60 ≤ 1 / 10 ^ 14 := by norm_num
  have d1 : 1.41421356 ≤ r.toDouble (Real.sqrt 2) := by norm_num at hs1 k2 ⊢; linarith
  have d2 : r.toDouble (Real.sqrt 2) ≤ 1.41421357 := by norm_num at hs2 k2 ⊢; linarith
  rw [abs_of_nonneg (show 0 ≤ r.toDouble (Real.sqrt 2) * (1 / 2) by norm_num at d1 ⊢; linarith)] at s2
  have s2' := abs_le.1 s2
  have k3 : (1 : ℝ) / 2 ^ 53 * (r.toDouble (Real.sqrt 2) * (1 / 2)) ≤ 1 / 2 ^ 50 := by norm_num at d2 ⊢; linarith
  have hη' : ω ≤ 1 / 10 ^ 14 := hη.trans (by norm_num)
  have k4 : (1 : ℝ) / 2 ^ 50 ≤ 1 / 10 ^ 14 := by norm_num
  set D := r.toDouble (r.toDouble (Real.sqrt 2) * (1 / 2)) with hD
  have D1 : 0.7071067799 ≤ D := by norm_num at d1 hη' k4 ⊢; linarith
  have D2 : D ≤ 0.7071067851 := by norm_num at d2 hη' k4 ⊢; linarith
  have val : r.toFloat D = 11863283 / 2 ^ 24 := by
    rw [(to_float hr 11863283 (-24) (by norm_num) (by norm_num) (by norm_num) (by
      rw [abs_lt]
      norm_num at D1 D2 ⊢
      constructor <;> linarith)).1]
    norm_num
  have one : (overflowKit r).mulSqrt2 (Ov.round r.toFloat maxFloat (r.toDouble (((0.50000000000000 : ℚ)) : ℝ))) = Ov.of (11863283 / 2 ^ 24) := by
    rw [show (((0.50000000000000 : ℚ)) : ℝ) = 1 / 2 by norm_num]
    have e1 : Ov.round r.toFloat maxFloat (r.toDouble (1 / 2)) = Ov.of (1 / 2) := by
      rw [dhalf]
      refine (ov_round hr (small_le hr ?_)).trans (congrArg Ov.of fhalf)
      norm_num [abs_of_nonneg]
    rw [e1, ← val]
    show Ov.round r.toFloat maxFloat D = _
    refine ov_round hr (small_le hr ?_)
    rw [abs_le]
    norm_num at D1 D2
    constructor <;> linarith
  unfold scaling
  rw [hp]
  show [_, _] = [_, _]
  rw [one]

/-- A white picture of 2 x 2 pixels, DB1, one step. -/
theorem white_value (i j : ℕ) (hi : i < 2) (hj : j < 2) :
    let p : Params := ⟨[2, 2], 1, 1, 1⟩
    (cropOf p 0 (reconP p (scaling (overflowKit r) p) 0 (chanP p (scaling (overflowKit r) p) nullDenoiser
      (Mat.ofFn 2 2 (fun _ _ => (Ov.of 1 : Ov r.toFloat maxFloat)))))).get i j = Ov.of (16777214 / 2 ^ 24) := by
  intro p
  rw [db1_float hr p rfl]
  rw [trip_2x2 _ _ _ _ rfl i j hi hj]
  set h : ℝ := 11863283 / 2 ^ 24 with hh
  have neg : ∀ x : ℝ, (-Ov.of x : Ov r.toFloat maxFloat) = Ov.of (-x) := fun _ => rfl
  have mem : ∀ (n e : ℤ), |n| < 2 ^ 24 → -149 ≤ e → ∀ x : ℝ, x = n * 2 ^ e → x ∈ FloatNumbers 24 (-149) := fun n e a b x c => ⟨n, e, a, b, c⟩
  have m1 : h ∈ FloatNumbers 24 (-149) := mem 11863283 (-24) (by norm_num) (by norm_num) _ (by rw [hh]; norm_num)
  have m2 : h + h ∈ FloatNumbers 24 (-149) := mem 11863283 (-23) (by norm_num) (by norm_num) _ (by rw [hh]; norm_num)
  have hpos : 0 < h ∧ h < 1 := by rw [hh]; norm_num
  have a4 : ∀ {x : ℝ}, -4 ≤ x → x ≤ 4 → |x| ≤ 4 := fun a b => abs_le.2 ⟨a, b⟩
  have t1 : (Ov.of h * Ov.of 1 : Ov r.toFloat maxFloat) = Ov.of h := ov_mul hr (by rw [mul_one]; exact rounds_self hr.1 m1) (by rw [mul_one]; exact a4 (by linarith) (by linarith))
  have t2 : (Ov.of (-h) * Ov.of 1 : Ov r.toFloat maxFloat) = Ov.of (-h) := ov_mul hr (by rw [mul_one]; exact rounds_self hr.1 (floatNumbers_neg _ m1))
    (by rw [mul_one]; exact a4 (by linarith) (by linarith))
  have z1 : (0 + Ov.of h : Ov r.toFloat maxFloat) = Ov.of h := ov_zero_add hr m1 (a4 (by linarith) (by linarith))
  have z2 : (Ov.of h + Ov.of h : Ov r.toFloat maxFloat) = Ov.of (h + h) := ov_add hr (rounds_self hr.1 m2) (a4 (by linarith) (by linarith))
  have f0 : r.toFloat 0 = 0 := rounds_self hr.1 (float_zero hr)
  have z3 : ∀ x : ℝ, (Ov.of x + Ov.of (-x) : Ov r.toFloat maxFloat) = Ov.of 0 := fun x => ov_add hr (by rw [add_neg_cancel]; exact f0) (by simp)
  -- second pass
  set q : ℝ := 16777215 / 2 ^ 24 with hq
  have mq : q ∈ FloatNumbers 24 (-149) := mem 16777215 (-24) (by norm_num) (by norm_num) _ (by rw [hq]; norm_num)
  have mq2 : q + q ∈ FloatNumbers 24 (-149) := mem 16777215 (-23) (by norm_num) (by norm_num) _ (by rw [hq]; norm_num)
  have r1 := to_float hr 16777215 (-24) (y := h * (h + h)) (by norm_num) (by norm_num) (by norm_num) (by rw [hh, abs_lt]; norm_num)
  have qv : ((16777215 : ℤ) : ℝ) * 2 ^ (-24 : ℤ) = q := by rw [hq]; norm_num
  rw [qv] at r1
  have b1 : |h * (h + h)| ≤ 4 := a4 (by nlinarith) (by nlinarith)
  have t3 : (Ov.of h * Ov.of (h + h) : Ov r.toFloat maxFloat) = Ov.of q := ov_mul hr r1.1 b1
  have t4 : (Ov.of (-h) * Ov.of (h + h) : Ov r.toFloat maxFloat) = Ov.of (-q) := ov_mul hr (by rw [neg_mul]; exact r1.2) (by rw [neg_mul, abs_neg]; exact b1)
  have z4 : (0 + Ov.of q : Ov r.toFloat maxFloat) = Ov.of q := ov_zero_add hr mq (a4 (by rw [hq]; norm_num) (by rw [hq]; norm_num))
  have z5 : (Ov.of q + Ov.of q : Ov r.toFloat maxFloat) = Ov.of (q + q) := ov_add hr (rounds_self hr.1 mq2) (a4 (by rw [hq]; norm_num) (by rw [hq]; norm_num))
  have t5 : ∀ x : ℝ, (Ov.of x * Ov.of 0 : Ov r.toFloat maxFloat) = Ov.of 0 := fun x => ov_mul hr (by rw [mul_zero]; exact f0) (by simp)
  have z6 : (0 + Ov.of 0 : Ov r.toFloat maxFloat) = Ov.of 0 := ov_zero_add hr (float_zero hr) (by simp)
  have z7 : ∀ x ∈ FloatNumbers 24 (-149), |x| ≤ 4 → (Ov.of x + Ov.of 0 : Ov r.toFloat maxFloat) = Ov.of x := fun x hx h4 =>
    ov_add hr (by rw [add_zero]; exact rounds_self hr.1 hx) (by rwa [add_zero])
  -- third pass
  set w : ℝ := 11863282 / 2 ^ 23 with hw
  have mw : w ∈ FloatNumbers 24 (-149) := mem 11863282 (-23) (by norm_num) (by norm_num) _ (by rw [hw]; norm_num)
  have wv : ((11863282 : ℤ) : ℝ) * 2 ^ (-23 : ℤ) = w := by rw [hw]; norm_num
  have r2 := to_float hr 11863282 (-23) (y := h * (q + q)) (by norm_num) (by norm_num) (by norm_num) (by rw [hh, hq, abs_lt]; norm_num)
  rw [wv] at r2
  have bw : |w| ≤ 4 := a4 (by rw [hw]; norm_num) (by rw [hw]; norm_num)
  have t6 : (Ov.of h * Ov.of (q + q) : Ov r.toFloat maxFloat) = Ov.of w := ov_mul hr r2.1 (a4 (by rw [hh, hq]; norm_num) (by rw [hh, hq]; norm_num))
  have z8 : (0 + Ov.of w : Ov r.toFloat maxFloat) = Ov.of w := ov_zero_add hr mw bw
  -- fourth pass
  have r3 := to_float hr 16777214 (-24) (y := h * w) (by norm_num) (by norm_num) (by norm_num) (by rw [hh, hw, abs_lt]; norm_num)
  set s : ℝ := 16777214 / 2 ^ 24 with hs
  have sv : ((16777214 : ℤ) : ℝ) * 2 ^ (-24 : ℤ) = s := by rw [hs]; norm_num
  rw [sv] at r3
  have ms : s ∈ FloatNumbers 24 (-149) := ⟨16777214, -24, by norm_num, by norm_num, sv.symm⟩
  have bs : |s| ≤ 4 := a4 (by rw [hs]; norm_num) (by rw [hs]; norm_num)
  have t7 : (Ov.of h * Ov.of w : Ov r.toFloat maxFloat) = Ov.of s := ov_mul hr r3.1 (a4 (by rw [hh, hw]; norm_num) (by rw [hh, hw]; norm_num))
  have z9 : (0 + Ov.of s : Ov r.toFloat maxFloat) = Ov.of s := ov_zero_add hr ms bs
  simp only [neg, t1, t2, z1, z2, z3, t3, t4, z4, z5, t5, z6, z7 0 (float_zero hr) (by simp), t6, z8, z7 w mw bw, ite_self]
  simp only [t7, z9, z7 s ms bs]

end
end WB.Props
