import Verif.Spec.FloatMetrics
import Verif.Proof.FloatBits
import Verif.Proof.Metrics

/-! Rounding errors of sums of squares. -/

namespace WB

open Finset Spec

/-- `s` is not negative and differs from `x` by at most a share `g - 1` and `A g`. -/
def Err (g A s x : ℝ) : Prop := 0 ≤ s ∧ |s - x| ≤ (g - 1) * x + A * g

theorem Err.le {g A s x : ℝ} (h : Err g A s x) : s ≤ g * (x + A) := by
  have := (abs_le.1 h.2).2
  linarith

theorem Err.mono {g g' A A' s x : ℝ} (h : Err g A s x) (hg : g ≤ g') (hg0 : 0 ≤ g) (hA : A ≤ A') (hA0 : 0 ≤ A') (hx : 0 ≤ x) : Err g' A' s x := by
  refine ⟨h.1, h.2.trans ?_⟩
  have h1 : (g - 1) * x ≤ (g' - 1) * x := mul_le_mul_of_nonneg_right (by linarith) hx
  have h2 : A * g ≤ A' * g := mul_le_mul_of_nonneg_right hA hg0
  have h3 : A' * g ≤ A' * g' := mul_le_mul_of_nonneg_left hg hA0
  linarith

/-- One more operation with a relative error `a - 1` and an absolute error `w`. -/
theorem Err.step {g A s x a w t : ℝ} (h : Err g A s x) (ha : 1 ≤ a) (hg : 1 ≤ g) (hw : 0 ≤ w) (ht0 : 0 ≤ t) (ht : |t - s| ≤ (a - 1) * s + w) :
    Err (g * a) (A + w) t x := by
  refine ⟨ht0, ?_⟩
  have h1 : |t - x| ≤ |t - s| + |s - x| := abs_sub_le _ _ _
  have h2 : (a - 1) * s ≤ (a - 1) * (g * (x + A)) := mul_le_mul_of_nonneg_left h.le (by linarith)
  have h3 : w ≤ w * (g * a) := le_mul_of_one_le_right hw (one_le_mul_of_one_le_of_one_le hg ha)
  have := h.2
  linarith

theorem Err.add {g A s x B t y : ℝ} (h : Err g A s x) (k : Err g B t y) : Err g (A + B) (s + t) (x + y) := by
  refine ⟨add_nonneg h.1 k.1, ?_⟩
  have := abs_add_le (s - x) (t - y)
  rw [show s + t - (x + y) = s - x + (t - y) by ring]
  have h1 := h.2
  have h2 := k.2
  linarith

theorem Err.div {g A s x : ℝ} (h : Err g A s x) {n : ℝ} (hn : 0 < n) : Err g (A / n) (s / n) (x / n) := by
  refine ⟨div_nonneg h.1 hn.le, ?_⟩
  rw [← sub_div, abs_div, abs_of_pos hn, div_le_iff₀ hn]
  have := h.2
  have e : ((g - 1) * (x / n) + A / n * g) * n = (g - 1) * x + A * g := by field_simp
  rw [e]
  exact this

/-! ### rounding -/

theorem nearest_nonneg {p : ℕ} {emin : ℤ} {f : ℝ → ℝ} (hf : RoundsToNearest (FloatNumbers p emin) f) {x : ℝ} (hx : 0 ≤ x) : 0 ≤ f x := by
  have h0 := (hf x).2 0 ⟨0, emin, by simp, le_rfl, by simp⟩
  rw [zero_sub, abs_neg, abs_of_nonneg hx] at h0
  have := (abs_le.1 h0).1
  linarith

theorem nearest_self {p : ℕ} {emin : ℤ} {f : ℝ → ℝ} (hf : RoundsToNearest (FloatNumbers p emin) f) {x : ℝ} (hx : x ∈ FloatNumbers p emin) : f x = x := by
  have h0 := (hf x).2 x hx
  rw [sub_self, abs_zero] at h0
  exact sub_eq_zero.1 (abs_nonpos_iff.1 h0)

theorem nearest_zero {p : ℕ} {emin : ℤ} {f : ℝ → ℝ} (hf : RoundsToNearest (FloatNumbers p emin) f) : f 0 = 0 :=
  nearest_self hf ⟨0, emin, by simp, le_rfl, by simp⟩

variable {r : Rounding}

theorem float_step (hr : r.IEEE) (x : ℝ) : |r.toFloat x - x| ≤ 1 / 2 ^ 24 * |x| + 1 / 2 ^ 150 := by
  have := rounds_std (by norm_num) hr.1 x
  norm_num [zpow_neg] at this ⊢
  exact this

theorem double_step (hr : r.IEEE) (x : ℝ) : |r.toDouble x - x| ≤ 1 / 2 ^ 52 * |x| + 1 / 2 ^ 1075 := by
  have h := rounds_std (by norm_num) hr.2 x
  have e1 : (2 : ℝ) ^ (-((53 : ℕ) : ℤ)) ≤ 1 / 2 ^ 52 := by
    rw [zpow_neg, one_div, zpow_natCast]
    exact inv_anti₀ (by positivity) (pow_le_pow_right₀ (by norm_num) (by norm_num))
  have e2 : (2 : ℝ) ^ ((-1074 : ℤ) - 1) = 1 / 2 ^ 1075 := by
    rw [show (-1074 : ℤ) - 1 = -((1075 : ℕ) : ℤ) by norm_num, zpow_neg, one_div, zpow_natCast]
  rw [e2] at h
  exact h.trans (add_le_add (mul_le_mul_of_nonneg_right e1 (abs_nonneg _)) le_rfl)

theorem Err.toFloat (hr : r.IEEE) {g A s x : ℝ} (h : Err g A s x) (hg : 1 ≤ g) : Err (g * (1 + 1 / 2 ^ 24)) (A + 1 / 2 ^ 150) (r.toFloat s) x := by
  refine h.step (by norm_num) hg (by positivity) (nearest_nonneg hr.1 h.1) ?_
  have := float_step hr s
  rw [abs_of_nonneg h.1] at this
  linarith

theorem Err.toDouble (hr : r.IEEE) {g A s x : ℝ} (h : Err g A s x) (hg : 1 ≤ g) : Err (g * (1 + 1 / 2 ^ 52)) (A + 1 / 2 ^ 1075) (r.toDouble s) x := by
  refine h.step (by norm_num) hg (by positivity) (nearest_nonneg hr.2 h.1) ?_
  have := double_step hr s
  rw [abs_of_nonneg h.1] at this
  rwa [add_sub_cancel_left]

theorem Err.self {x : ℝ} (hx : 0 ≤ x) : Err 1 0 x x := ⟨hx, by simp⟩

/-- The numbers are multiples of the least one. -/
theorem number_multiple (x : F32) : ∃ k : ℤ, ((number x : ℚ) : ℝ) = k * (2 : ℝ) ^ (-149 : ℤ) := by
  have key : ∀ n : ℕ, ∃ k : ℤ, ((magnitude n : ℚ) : ℝ) = k * (2 : ℝ) ^ (-149 : ℤ) := by
    intro n
    unfold magnitude
    split_ifs with h
    · exact ⟨n, by push_cast; ring⟩
    · obtain ⟨e, he⟩ : ∃ e, n / 2 ^ 23 = e + 1 := ⟨n / 2 ^ 23 - 1, by omega⟩
      generalize n % 2 ^ 23 + 2 ^ 23 = q
      refine ⟨(q * 2 ^ e : ℕ), ?_⟩
      rw [he]
      push_cast
      rw [show ((e : ℤ) + 1 - 150) = (e : ℤ) + (-149) by ring, zpow_add₀ (by norm_num), zpow_natCast]
      ring
  obtain ⟨k, hk⟩ := key (x.toNat % 2 ^ 31)
  unfold number
  split_ifs
  · exact ⟨k, by rw [Rat.cast_mul, hk]; simp⟩
  · exact ⟨-k, by rw [Rat.cast_mul, hk]; simp⟩

/-- Sums of such multiples have no absolute error. -/
theorem multiple_step (hr : r.IEEE) {x : ℝ} (h : ∃ k : ℤ, x = k * (2 : ℝ) ^ (-149 : ℤ)) : |r.toFloat x - x| ≤ 1 / 2 ^ 23 * |x| := by
  obtain ⟨k, hk⟩ := h
  rcases lt_or_ge |k| (2 ^ 24) with h | h
  · rw [nearest_self hr.1 ⟨k, -149, h, le_rfl, hk⟩]
    simp
  · have h1 := float_step hr x
    have h2 : (2 : ℝ) ^ 24 * 2 ^ (-149 : ℤ) ≤ |x| := by
      rw [hk, abs_mul, abs_of_pos (a := (2 : ℝ) ^ (-149 : ℤ)) (by positivity)]
      refine mul_le_mul_of_nonneg_right ?_ (by positivity)
      exact_mod_cast h
    have h3 : (2 : ℝ) ^ 24 * 2 ^ (-149 : ℤ) = 1 / 2 ^ 125 := by norm_num
    rw [h3] at h2
    linarith

/-- The square root of a nonnegative number of the format. -/
theorem sqrt_step (hr : r.IEEE) {s : ℝ} (hs : s ∈ FloatNumbers 24 (-149)) (h0 : 0 ≤ s) :
    |r.toFloat (Real.sqrt s) - Real.sqrt s| ≤ 1 / 2 ^ 23 * Real.sqrt s := by
  rcases h0.eq_or_lt with h | h
  · rw [← h, Real.sqrt_zero, nearest_zero hr.1]
    simp
  · obtain ⟨m, e, h1, h2, h3⟩ := hs
    have hm : 1 ≤ m := by
      by_contra hm
      have : (m : ℝ) ≤ 0 := by exact_mod_cast (show m ≤ 0 by omega)
      have := mul_nonpos_of_nonpos_of_nonneg this (zpow_nonneg (show (0 : ℝ) ≤ 2 by norm_num) e)
      linarith
    have g1 : (2 : ℝ) ^ (-149 : ℤ) ≤ s := by
      rw [h3]
      calc (2 : ℝ) ^ (-149 : ℤ) ≤ 2 ^ e := zpow_le_zpow_right₀ (by norm_num) h2
        _ ≤ m * 2 ^ e := le_mul_of_one_le_left (by positivity) (by exact_mod_cast hm)
    have g2 : (1 : ℝ) / 2 ^ 75 ≤ Real.sqrt s := by
      refine Real.le_sqrt_of_sq_le (le_trans ?_ g1)
      norm_num
    have := float_step hr (Real.sqrt s)
    rw [abs_of_nonneg (Real.sqrt_nonneg s)] at this
    linarith

/-- The square of a difference of two values, in `float`. -/
theorem square_err (hr : r.IEEE) {x y : F32} (hx : finiteBits x) (hy : finiteBits y) {B : ℝ}
    (hB : (((number y : ℚ) : ℝ) - (number x : ℚ)) ^ 2 ≤ B) (hΩ : (1 + 1 / 2 ^ 24) ^ 5 * (B + 1 / 2 ^ 149) ≤ maxFloat) :
    ∃ q : ℝ, (floatOf r y + -floatOf r x) * (floatOf r y + -floatOf r x) = (some q : Option ℝ) ∧ q ∈ FloatNumbers 24 (-149) ∧
      Err ((1 + 1 / 2 ^ 24) ^ 5) (1 / 2 ^ 150) q ((((number y : ℚ) : ℝ) - (number x : ℚ)) ^ 2) := by
  set d : ℝ := ((number y : ℚ) : ℝ) - (number x : ℚ) with hd
  have hmax : maxFloat ≤ 2 ^ 128 := by simp only [maxFloat]; norm_num
  have hB0 : 0 ≤ B := (sq_nonneg d).trans hB
  have hm : ∃ k : ℤ, d = k * (2 : ℝ) ^ (-149 : ℤ) := by
    obtain ⟨k, hk⟩ := number_multiple x
    obtain ⟨l, hl⟩ := number_multiple y
    exact ⟨l - k, by rw [hd, hk, hl]; push_cast; ring⟩
  have h1 := multiple_step hr hm
  have hg1 : (1 : ℝ) ≤ (1 + 1 / 2 ^ 24) ^ 5 := one_le_pow₀ (by norm_num)
  have hd64 : |d| ≤ 2 ^ 64 := by
    refine abs_le_of_sq_le_sq (le_trans hB ?_) (by norm_num)
    have : 1 * (B + 1 / 2 ^ 149) ≤ (1 + 1 / 2 ^ 24) ^ 5 * (B + 1 / 2 ^ 149) := mul_le_mul_of_nonneg_right hg1 (by positivity)
    have e : ((2 : ℝ) ^ 64) ^ 2 = 2 ^ 128 := by norm_num
    have : (0 : ℝ) ≤ 1 / 2 ^ 149 := by positivity
    linarith
  have e1 : |r.toFloat d| ≤ (1 + 1 / 2 ^ 23) * |d| := by
    have := abs_sub_abs_le_abs_sub (r.toFloat d) d
    linarith
  have f1 : floatOf r y + -floatOf r x = Ov.of (r.toFloat d) := by
    have a1 : floatOf r y = Ov.of ((number y : ℚ) : ℝ) := if_pos hy
    have a2 : floatOf r x = Ov.of ((number x : ℚ) : ℝ) := if_pos hx
    rw [a1, a2]
    show Ov.round r.toFloat maxFloat (((number y : ℚ) : ℝ) + -((number x : ℚ) : ℝ)) = _
    rw [← sub_eq_add_neg, ← hd]
    unfold Ov.round
    refine if_pos (e1.trans ?_)
    have : (1 + 1 / 2 ^ 23) * |d| ≤ (1 + 1 / 2 ^ 23) * 2 ^ 64 := mul_le_mul_of_nonneg_left hd64 (by norm_num)
    refine this.trans ?_
    simp only [maxFloat]
    norm_num
  have q1 : Err ((1 + 1 / 2 ^ 24) ^ 4) 0 (r.toFloat d * r.toFloat d) (d ^ 2) := by
    refine ⟨mul_self_nonneg _, ?_⟩
    have k1 : r.toFloat d * r.toFloat d - d ^ 2 = (r.toFloat d - d) * (2 * d + (r.toFloat d - d)) := by ring
    have k2 : |2 * d + (r.toFloat d - d)| ≤ (2 + 1 / 2 ^ 23) * |d| := by
      refine (abs_add_le _ _).trans ?_
      rw [abs_mul, abs_two]
      linarith
    have k3 : |d| * |d| = d ^ 2 := by rw [← sq, sq_abs]
    rw [k1, abs_mul]
    have k4 := mul_le_mul h1 k2 (abs_nonneg _) (by positivity)
    refine k4.trans ?_
    rw [show 1 / 2 ^ 23 * |d| * ((2 + 1 / 2 ^ 23) * |d|) = 1 / 2 ^ 23 * (2 + 1 / 2 ^ 23) * (|d| * |d|) by ring, k3, zero_mul, add_zero]
    refine mul_le_mul_of_nonneg_right ?_ (sq_nonneg _)
    norm_num
  have q2 := q1.toFloat hr (one_le_pow₀ (by norm_num))
  rw [← pow_succ, zero_add] at q2
  refine ⟨r.toFloat (r.toFloat d * r.toFloat d), ?_, (hr.1 _).1, q2⟩
  rw [f1]
  show Ov.round r.toFloat maxFloat (r.toFloat d * r.toFloat d) = _
  unfold Ov.round
  refine if_pos ?_
  rw [abs_of_nonneg q2.1]
  refine q2.le.trans (le_trans (mul_le_mul_of_nonneg_left ?_ (by positivity)) hΩ)
  have : (1 : ℝ) / 2 ^ 150 ≤ 1 / 2 ^ 149 := by norm_num
  linarith

theorem depth_le (o : SumOrder) : o.depth + 1 ≤ o.terms.length := by
  induction o with
  | term k => simp [SumOrder.depth, SumOrder.terms]
  | plus a b iha ihb =>
    simp only [SumOrder.depth, SumOrder.terms, List.length_append]
    omega

/-- A sum in `float` in any order. -/
theorem sum_err (hr : r.IEEE) {xs : List (Ov r.toFloat maxFloat)} {X : ℕ → ℝ} {g B : ℝ} {h : ℕ} (hg : 1 ≤ g) (hX : ∀ k, 0 ≤ X k)
    (hΩ : g * (1 + 1 / 2 ^ 24) ^ h * B ≤ maxFloat) (o : SumOrder) (hh : o.depth ≤ h)
    (hxs : ∀ k ∈ o.terms, ∃ q : ℝ, xs.getD k default = (some q : Option ℝ) ∧ q ∈ FloatNumbers 24 (-149) ∧ Err g (1 / 2 ^ 150) q (X k))
    (hB : (o.terms.map X).sum + 1 / 2 ^ 149 * o.terms.length ≤ B) :
    ∃ s : ℝ, o.eval xs = (some s : Option ℝ) ∧ s ∈ FloatNumbers 24 (-149) ∧
      Err (g * (1 + 1 / 2 ^ 24) ^ o.depth) (1 / 2 ^ 149 * o.terms.length - 1 / 2 ^ 150) s (o.terms.map X).sum := by
  induction o with
  | term k =>
    obtain ⟨q, h1, h2, h3⟩ := hxs k (by simp [SumOrder.terms])
    refine ⟨q, h1, h2, ?_⟩
    have e1 : (SumOrder.depth (.term k)) = 0 := rfl
    have e2 : SumOrder.terms (.term k) = [k] := rfl
    rw [e1, e2, pow_zero, mul_one]
    simp only [List.map_cons, List.map_nil, List.sum_cons, List.sum_nil, add_zero, List.length_singleton, Nat.cast_one, mul_one]
    convert h3 using 1
    norm_num
  | plus a b iha ihb =>
    have e1 : (SumOrder.plus a b).depth = max a.depth b.depth + 1 := rfl
    have e2 : (SumOrder.plus a b).terms = a.terms ++ b.terms := rfl
    rw [e2] at hxs hB ⊢
    rw [e1] at hh ⊢
    rw [List.map_append, List.sum_append] at hB ⊢
    rw [List.length_append, Nat.cast_add] at hB ⊢
    have na : 0 ≤ (a.terms.map X).sum := List.sum_nonneg (by simp only [List.mem_map]; rintro _ ⟨k, _, rfl⟩; exact hX k)
    have nb : 0 ≤ (b.terms.map X).sum := List.sum_nonneg (by simp only [List.mem_map]; rintro _ ⟨k, _, rfl⟩; exact hX k)
    have la : (0 : ℝ) ≤ 1 / 2 ^ 149 * a.terms.length := by positivity
    have lb : (0 : ℝ) ≤ 1 / 2 ^ 149 * b.terms.length := by positivity
    have la1 : (1 : ℝ) ≤ a.terms.length := by exact_mod_cast le_trans (by omega) (depth_le a)
    have lb1 : (1 : ℝ) ≤ b.terms.length := by exact_mod_cast le_trans (by omega) (depth_le b)
    obtain ⟨s, s1, s2, s3⟩ := iha (by omega) (fun k hk => hxs k (List.mem_append_left _ hk)) (by linarith)
    obtain ⟨t, t1, t2, t3⟩ := ihb (by omega) (fun k hk => hxs k (List.mem_append_right _ hk)) (by linarith)
    have up : ∀ {d : ℕ}, d ≤ max a.depth b.depth → g * (1 + 1 / 2 ^ 24) ^ d ≤ g * (1 + 1 / 2 ^ 24) ^ max a.depth b.depth := fun hd =>
      mul_le_mul_of_nonneg_left (pow_le_pow_right₀ (by norm_num) hd) (by linarith)
    have s3 := s3.mono (up (le_max_left _ _)) (by positivity) le_rfl (by norm_num; linarith) na
    have t3 := t3.mono (up (le_max_right _ _)) (by positivity) le_rfl (by norm_num; linarith) nb
    have k := (s3.add t3).toFloat hr (one_le_mul_of_one_le_of_one_le hg (one_le_pow₀ (by norm_num)))
    rw [mul_assoc, ← pow_succ] at k
    have k := k.mono le_rfl (by positivity) (show _ ≤ 1 / 2 ^ 149 * ((a.terms.length : ℝ) + b.terms.length) - 1 / 2 ^ 150 by
      rw [show (1 : ℝ) / 2 ^ 149 * a.terms.length - 1 / 2 ^ 150 + (1 / 2 ^ 149 * b.terms.length - 1 / 2 ^ 150) + 1 / 2 ^ 150 =
        1 / 2 ^ 149 * ((a.terms.length : ℝ) + b.terms.length) - 1 / 2 ^ 150 by ring]) (by norm_num; linarith) (by positivity)
    refine ⟨r.toFloat (s + t), ?_, (hr.1 _).1, k⟩
    show a.eval xs + b.eval xs = _
    rw [s1, t1]
    show Ov.round r.toFloat maxFloat (s + t) = _
    unfold Ov.round
    refine if_pos ?_
    rw [abs_of_nonneg k.1]
    refine k.le.trans (le_trans ?_ hΩ)
    refine mul_le_mul (mul_le_mul_of_nonneg_left (pow_le_pow_right₀ (by norm_num) hh) (by linarith)) ?_ ?_ (by positivity)
    · have : (0 : ℝ) ≤ 1 / 2 ^ 150 := by positivity
      linarith
    · norm_num
      linarith

theorem zipWith_range {β γ δ : Type} (f : β → γ → δ) (a : List β) (b : List γ) (x : β) (y : γ) (h : a.length = b.length) :
    List.zipWith f a b = (List.range a.length).map fun k => f (a.getD k x) (b.getD k y) := by
  refine List.ext_getElem (by simp [h]) fun k h1 h2 => ?_
  have ha : k < a.length := by simpa using h2
  simp [List.getD, ha, h ▸ ha]

/-- The squared difference of the entries with number `k`. -/
noncomputable def entrySq (m n : Mat F32) (k : ℕ) : ℝ := (((number (n.data.getD k 0#32) : ℚ) : ℝ) - (number (m.data.getD k 0#32) : ℚ)) ^ 2

theorem sqDist_entrySq {m n : Mat F32} (h : n.rows = m.rows ∧ n.cols = m.cols) :
    sqDist (matNumbers m) (matNumbers n) = ((List.range (m.rows * m.cols)).map (entrySq m n)).sum := by
  rw [sqDist_data (x := matNumbers m) (y := matNumbers n) ⟨h.1.symm, h.2.symm⟩]
  have e : ∀ q : Mat F32, (matNumbers q).data = q.data.map fun x => ((number x : ℚ) : ℝ) := fun _ => rfl
  rw [e, e, List.zipWith_map, zipWith_range _ m.data n.data 0#32 0#32 (by rw [m.wf, n.wf, h.1, h.2]), m.wf]
  congr 1
  refine List.map_congr_left fun k _ => ?_
  unfold entrySq
  ring

theorem data_entry (m : Mat F32) (k : ℕ) : m.data.getD k 0#32 = m.get (k / m.cols) (k % m.cols) := by
  unfold Mat.get
  rw [Nat.mul_comm, Nat.div_add_mod]
  rfl

/-- The contribution of one subband. -/
theorem norm_err (hr : r.IEEE) {sq : ℝ → ℝ} (hsq : ∀ t, |sq t - t ^ 2| ≤ 1 / 2 ^ 52 * t ^ 2) {m n : Mat F32} (h : n.rows = m.rows ∧ n.cols = m.cols)
    (hm : ∀ i < m.rows, ∀ j < m.cols, finiteBits (m.get i j)) (hn : ∀ i < n.rows, ∀ j < n.cols, finiteBits (n.get i j)) {B C : ℝ}
    (hB : ∀ i < m.rows, ∀ j < m.cols, (((number (n.get i j) : ℚ) : ℝ) - (number (m.get i j) : ℚ)) ^ 2 ≤ B) (hB0 : 0 ≤ B) {o : SumOrder}
    (ho : 0 < m.rows * m.cols → o.Covers (m.rows * m.cols)) {k : ℕ} (hk : 0 < m.rows * m.cols → o.depth ≤ k)
    (hC : ((m.rows * m.cols : ℕ) : ℝ) ≤ C) (hΩ : (1 + 1 / 2 ^ 24) ^ (k + 5) * (C * (B + 1 / 2 ^ 149)) ≤ maxFloat) :
    ∃ d t, floatSub r n m = .ok d ∧ floatNorm r o d = some t ∧
      Err ((1 + 1 / 2 ^ 24) ^ (k + 9) * (1 + 1 / 2 ^ 52)) (1 / 2 ^ 149 * (m.rows * m.cols : ℕ)) (sq t) (sqDist (matNumbers m) (matNumbers n)) := by
  set N := m.rows * m.cols with hN
  have hlm : m.data.length = N := m.wf
  have hln : n.data.length = N := by rw [n.wf, h.1, h.2]
  have hsub : floatSub r n m = .ok (List.zipWith (fun y x => floatOf r y + -floatOf r x) n.data m.data) := if_pos h
  set d := List.zipWith (fun y x => floatOf r y + -floatOf r x) n.data m.data with hd
  have hdl : d.length = N := by rw [hd, List.length_zipWith, hlm, hln, min_self]
  have hgp : (1 : ℝ) ≤ (1 + 1 / 2 ^ 24) ^ (k + 9) := one_le_pow₀ (by norm_num)
  have hX : ∀ k, 0 ≤ entrySq m n k := fun k => sq_nonneg _
  have hsum0 : 0 ≤ sqDist (matNumbers m) (matNumbers n) := by
    rw [sqDist_entrySq h]
    exact List.sum_nonneg (by simp only [List.mem_map]; rintro _ ⟨k, _, rfl⟩; exact hX k)
  have fin : ∀ t : ℝ, Err ((1 + 1 / 2 ^ 24) ^ (k + 9)) (1 / 2 ^ 149 * (N : ℕ)) (t ^ 2) (sqDist (matNumbers m) (matNumbers n)) →
      Err ((1 + 1 / 2 ^ 24) ^ (k + 9) * (1 + 1 / 2 ^ 52)) (1 / 2 ^ 149 * (N : ℕ)) (sq t) (sqDist (matNumbers m) (matNumbers n)) := by
    intro t ht
    have h1 := hsq t
    have h0 : 0 ≤ sq t := by
      have := (abs_le.1 h1).1
      have : 1 / 2 ^ 52 * t ^ 2 ≤ 1 * t ^ 2 := mul_le_mul_of_nonneg_right (by norm_num) (sq_nonneg _)
      linarith
    have := ht.step (a := 1 + 1 / 2 ^ 52) (w := 0) (by norm_num) hgp le_rfl h0 (by linarith)
    rwa [add_zero] at this
  rcases Nat.eq_zero_or_pos N with h0 | h0
  · refine ⟨d, 0, hsub, ?_, fin 0 ?_⟩
    · unfold floatNorm
      rw [if_pos (by rw [List.isEmpty_iff, ← List.length_eq_zero_iff, hdl, h0])]
    · have : sqDist (matNumbers m) (matNumbers n) = 0 := by rw [sqDist_entrySq h, ← hN, h0]; rfl
      rw [this, h0]
      refine ⟨by norm_num, by norm_num⟩
  · have hNR : (1 : ℝ) ≤ N := by exact_mod_cast h0
    have hC1 : (1 : ℝ) ≤ C := hNR.trans hC
    have hp := ho h0
    have mem : ∀ q ∈ o.terms, q < N := fun q hq => List.mem_range.1 (hp.subset hq)
    have hle : ∀ q < N, entrySq m n q ≤ B ∧ finiteBits (m.data.getD q 0#32) ∧ finiteBits (n.data.getD q 0#32) := by
      intro q hq
      have hc : 0 < m.cols := Nat.pos_of_ne_zero (by rintro h; rw [hN, h] at hq; omega)
      have hi : q / m.cols < m.rows := Nat.div_lt_of_lt_mul (by rwa [hN, Nat.mul_comm] at hq)
      have hj : q % m.cols < m.cols := Nat.mod_lt _ hc
      unfold entrySq
      rw [data_entry, data_entry, h.2]
      exact ⟨hB _ hi _ hj, hm _ hi _ hj, hn _ (by rw [h.1]; exact hi) _ (by rw [h.2]; exact hj)⟩
    have hΩ1 : (1 + 1 / 2 ^ 24) ^ 5 * (B + 1 / 2 ^ 149) ≤ maxFloat := by
      refine le_trans ?_ hΩ
      refine mul_le_mul (pow_le_pow_right₀ (by norm_num) (by omega)) ?_ (by positivity) (by positivity)
      exact le_mul_of_one_le_left (by positivity) hC1
    obtain ⟨s, s1, s2, s3⟩ := sum_err hr (xs := d.map fun x => x * x) (X := entrySq m n) (g := (1 + 1 / 2 ^ 24) ^ 5) (B := C * (B + 1 / 2 ^ 149)) (h := k)
      (one_le_pow₀ (by norm_num)) hX (by rw [← pow_add, add_comm 5 k]; exact hΩ) o (hk h0) (by
        intro q hq
        have hq := mem q hq
        obtain ⟨f1, f2, f3⟩ := hle q hq
        obtain ⟨w, w1, w2, w3⟩ := square_err hr f2 f3 f1 hΩ1
        refine ⟨w, ?_, w2, w3⟩
        rw [← w1, hd, List.getD_eq_getElem _ _ (by simpa [hln, hlm] using hq)]
        rw [List.getElem_map, List.getElem_zipWith, List.getD_eq_getElem _ _ (by rw [hln]; exact hq), List.getD_eq_getElem _ _ (by rw [hlm]; exact hq)]) (by
        have e1 : (o.terms.map (entrySq m n)).sum ≤ (o.terms.length : ℕ) * B := by
          have := List.sum_le_card_nsmul (o.terms.map (entrySq m n)) B (by simp only [List.mem_map]; rintro _ ⟨q, hq, rfl⟩; exact (hle q (mem q hq)).1)
          simpa using this
        have e2 : o.terms.length = N := by rw [hp.length_eq, List.length_range]
        rw [e2] at e1 ⊢
        have e3 : (N : ℝ) * (B + 1 / 2 ^ 149) ≤ C * (B + 1 / 2 ^ 149) := mul_le_mul_of_nonneg_right hC (by positivity)
        linarith)
    have e2 : o.terms.length = N := by rw [hp.length_eq, List.length_range]
    have e3 : (o.terms.map (entrySq m n)).sum = sqDist (matNumbers m) (matNumbers n) := by
      rw [sqDist_entrySq h]
      exact (hp.map _).sum_eq
    rw [e2, e3, ← pow_add] at s3
    refine ⟨d, r.toFloat (Real.sqrt s), hsub, ?_, fin _ ?_⟩
    · unfold floatNorm
      rw [if_neg (by rw [List.isEmpty_iff, ← List.length_eq_zero_iff, hdl]; omega)]
      rw [s1]
      rfl
    · have s4 := s3.mono (pow_le_pow_right₀ (by norm_num) (show 5 + o.depth ≤ k + 5 by have := hk h0; omega)) (by positivity)
        (show _ ≤ 1 / 2 ^ 149 * (N : ℝ) by have : (0 : ℝ) ≤ 1 / 2 ^ 150 := by positivity
                                           linarith) (by positivity) hsum0
      have q := sqrt_step hr s2 s3.1
      set w := Real.sqrt s with hw
      have hw0 : 0 ≤ w := Real.sqrt_nonneg s
      have hws : w * w = s := Real.mul_self_sqrt s3.1
      have := s4.step (a := (1 + 1 / 2 ^ 24) ^ 4) (w := 0) (t := r.toFloat w ^ 2) (one_le_pow₀ (by norm_num)) (one_le_pow₀ (by norm_num)) le_rfl (sq_nonneg _) (by
        rw [← hws, show r.toFloat w ^ 2 - w * w = (r.toFloat w - w) * (2 * w + (r.toFloat w - w)) by ring, abs_mul]
        have k2 : |2 * w + (r.toFloat w - w)| ≤ (2 + 1 / 2 ^ 23) * w := by
          refine (abs_add_le _ _).trans ?_
          rw [abs_of_nonneg (show 0 ≤ 2 * w by linarith)]
          linarith
        refine (mul_le_mul q k2 (abs_nonneg _) (by positivity)).trans ?_
        rw [add_zero, show 1 / 2 ^ 23 * w * ((2 + 1 / 2 ^ 23) * w) = 1 / 2 ^ 23 * (2 + 1 / 2 ^ 23) * (w * w) by ring]
        exact mul_le_mul_of_nonneg_right (by norm_num) (by positivity))
      rw [← pow_add, add_zero] at this
      exact this

/-! ### the loops of `Distance` -/

theorem fold_inv {β : Type} {f : β → ℕ → Outcome β} {P : ℕ → β → Prop} {n : ℕ} (h : ∀ k < n, ∀ acc, P k acc → ∃ acc', f acc k = .ok acc' ∧ P (k + 1) acc')
    {b : β} (hb : P 0 b) : ∃ b', (List.range n).foldlM f b = .ok b' ∧ P n b' := by
  induction n with
  | zero => exact ⟨b, rfl, hb⟩
  | succ n ih =>
    obtain ⟨b', h1, h2⟩ := ih fun k hk => h k (by omega)
    obtain ⟨b'', h3, h4⟩ := h n (by omega) b' h2
    refine ⟨b'', ?_, h4⟩
    rw [List.range_succ, List.foldlM_append, h1, Outcome.bind_ok, List.foldlM_cons, h3, Outcome.bind_ok]
    rfl

/-- Two lists of subbands of equal form. -/
def SameSizes (a b : Decs F32) : Prop := List.Forall₂ (List.Forall₂ fun m n : Mat F32 => n.rows = m.rows ∧ n.cols = m.cols) a b

/-- Subband `i` of channel `ch`. -/
def band (a : Decs F32) (ch i : ℕ) : Mat F32 := (a.getD ch []).getD i default

/-- The number of subbands of a channel. -/
def bands (a : Decs F32) (ch : ℕ) : ℕ := (a.getD ch []).length

theorem sameSizes_band {a b : Decs F32} (h : SameSizes a b) {ch i : ℕ} (hc : ch < a.length) (hi : i < bands a ch) :
    (band b ch i).rows = (band a ch i).rows ∧ (band b ch i).cols = (band a ch i).cols := by
  have h1 := List.forall₂_iff_get.1 h
  have hb : ch < b.length := h1.1 ▸ hc
  have h2 := List.forall₂_iff_get.1 (h1.2 ch hc hb)
  have ea : a.getD ch [] = a.get ⟨ch, hc⟩ := List.getD_eq_getElem _ _ hc
  have eb : b.getD ch [] = b.get ⟨ch, hb⟩ := List.getD_eq_getElem _ _ hb
  unfold bands at hi
  unfold band
  rw [ea] at hi ⊢
  rw [eb]
  have hi' : i < (b.get ⟨ch, hb⟩).length := h2.1 ▸ hi
  have := h2.2 i hi hi'
  rw [List.getD_eq_getElem _ _ hi, List.getD_eq_getElem _ _ hi']
  exact this

theorem band_mem {a : Decs F32} {ch i : ℕ} (hc : ch < a.length) (hi : i < bands a ch) : ∃ c ∈ a, band a ch i ∈ c := by
  have ea : a.getD ch [] = a[ch] := List.getD_eq_getElem _ _ hc
  refine ⟨a[ch], List.getElem_mem hc, ?_⟩
  unfold bands at hi
  unfold band
  rw [ea] at hi ⊢
  rw [List.getD_eq_getElem _ _ hi]
  exact List.getElem_mem hi

/-- The loops over channels and subbands with an invariant `Q channel subband accumulator`. -/
theorem distance_loops {sq : ℝ → ℝ} {order : ℕ → ℕ → SumOrder} {a b : Decs F32} (h : SameSizes a b) {Q : ℕ → ℕ → Option ℝ → Prop}
    (h0 : Q 0 0 (some 0)) (hnext : ∀ ch < a.length, ∀ acc, Q ch (bands a ch) acc → Q (ch + 1) 0 acc)
    (hstep : ∀ ch < a.length, ∀ i < bands a ch, ∀ acc, Q ch i acc → ∃ d, floatSub r (band b ch i) (band a ch i) = .ok d ∧
      Q ch (i + 1) (addSquare r sq acc (floatNorm r (order ch i) d))) :
    ∃ s, ((List.range a.length).foldlM (fun acc ch => do
      let x ← rd a ch
      let y ← rd b ch
      (List.range x.length).foldlM (fun acc i => do
        let m ← rd x i
        let n ← rd y i
        let d ← floatSub r n m
        pure (addSquare r sq acc (floatNorm r (order ch i) d))) acc) (some 0)) = .ok s ∧ Q a.length 0 s := by
  refine fold_inv (P := fun ch acc => Q ch 0 acc) (fun ch hch acc hacc => ?_) h0
  have h1 := List.forall₂_iff_get.1 h
  have hb : ch < b.length := h1.1 ▸ hch
  have h2 := List.forall₂_iff_get.1 (h1.2 ch hch hb)
  have ea : a.getD ch [] = a[ch] := List.getD_eq_getElem _ _ hch
  have eb : b.getD ch [] = b[ch] := List.getD_eq_getElem _ _ hb
  have el : bands a ch = a[ch].length := by unfold bands; rw [ea]
  simp only [rd_ok hch, rd_ok hb, Outcome.bind_ok]
  obtain ⟨s, s1, s2⟩ := fold_inv (P := fun i acc => Q ch i acc) (n := a[ch].length) (f := fun acc i => do
        let m ← rd a[ch] i
        let n ← rd b[ch] i
        let d ← floatSub r n m
        pure (addSquare r sq acc (floatNorm r (order ch i) d))) (b := acc) (fun i hi acc' hacc' => by
      have hi' : i < b[ch].length := h2.1 ▸ hi
      obtain ⟨d, d1, d2⟩ := hstep ch hch i (el ▸ hi) acc' hacc'
      refine ⟨_, ?_, d2⟩
      have e1 : band a ch i = a[ch][i] := by unfold band; rw [ea, List.getD_eq_getElem _ _ hi]
      have e2 : band b ch i = b[ch][i] := by unfold band; rw [eb, List.getD_eq_getElem _ _ hi']
      rw [e1, e2] at d1
      simp only [rd_ok hi, rd_ok hi', Outcome.bind_ok, d1]
      rfl) hacc
  exact ⟨s, s1, hnext ch hch s (el ▸ s2)⟩

/-! ### the distance of a buffer to itself -/

theorem zero_eval {β : Type} [Add β] [Inhabited β] {z : β} (hz : z + z = z) {xs : List β} (o : SumOrder) (h : ∀ k ∈ o.terms, xs.getD k default = z) :
    o.eval xs = z := by
  induction o with
  | term k => exact h k (by simp [SumOrder.terms])
  | plus a b iha ihb =>
    show a.eval xs + b.eval xs = z
    rw [iha fun k hk => h k (List.mem_append_left _ hk), ihb fun k hk => h k (List.mem_append_right _ hk), hz]

theorem ov_zeros_add (hr : r.IEEE) : (Ov.of 0 + Ov.of 0 : Ov r.toFloat maxFloat) = Ov.of 0 := by
  show Ov.round r.toFloat maxFloat (0 + 0) = _
  unfold Ov.round
  rw [add_zero, nearest_zero hr.1]
  exact if_pos (by rw [abs_zero]; simp only [maxFloat]; norm_num)

theorem ov_zeros_mul (hr : r.IEEE) : (Ov.of 0 * Ov.of 0 : Ov r.toFloat maxFloat) = Ov.of 0 := by
  show Ov.round r.toFloat maxFloat (0 * 0) = _
  unfold Ov.round
  rw [mul_zero, nearest_zero hr.1]
  exact if_pos (by rw [abs_zero]; simp only [maxFloat]; norm_num)

/-- The norm is 0 if the square of every difference is. -/
theorem norm_zero (hr : r.IEEE) {m n : Mat F32} (h : n.rows = m.rows ∧ n.cols = m.cols)
    (hz : ∀ k < m.rows * m.cols, (floatOf r (n.data.getD k 0#32) + -floatOf r (m.data.getD k 0#32)) *
      (floatOf r (n.data.getD k 0#32) + -floatOf r (m.data.getD k 0#32)) = Ov.of 0) {o : SumOrder}
    (ho : 0 < m.rows * m.cols → o.Covers (m.rows * m.cols)) :
    ∃ d, floatSub r n m = .ok d ∧ floatNorm r o d = some 0 := by
  set N := m.rows * m.cols with hN
  have hlm : m.data.length = N := m.wf
  have hln : n.data.length = N := by rw [n.wf, h.1, h.2]
  refine ⟨_, if_pos h, ?_⟩
  unfold floatNorm
  rcases Nat.eq_zero_or_pos N with h0 | h0
  · rw [if_pos (by rw [List.isEmpty_iff, ← List.length_eq_zero_iff, List.length_zipWith, hlm, h0]; simp)]
  · rw [if_neg (by rw [List.isEmpty_iff, ← List.length_eq_zero_iff, List.length_zipWith, hlm, hln]; omega)]
    rw [zero_eval (z := (Ov.of 0 : Ov r.toFloat maxFloat)) (ov_zeros_add hr) o fun k hk => by
      have hk : k < N := List.mem_range.1 ((ho h0).subset hk)
      rw [← hz k hk, List.getD_eq_getElem _ _ (by simpa [hln, hlm] using hk), List.getElem_map, List.getElem_zipWith,
        List.getD_eq_getElem _ _ (by rw [hln]; exact hk), List.getD_eq_getElem _ _ (by rw [hlm]; exact hk)]]
    show some (r.toFloat (Real.sqrt 0)) = some 0
    rw [Real.sqrt_zero, nearest_zero hr.1]

/-- The distance is 0 if all these norms are. -/
theorem distance_zero (hr : r.IEEE) {sq : ℝ → ℝ} (hsq : sq 0 = 0) {order : ℕ → ℕ → SumOrder} {a b : Buffer F32} (h : SameSizes a.decs b.decs)
    (hs : a.params.steps = b.params.steps) (hc : CountableSamples a.params)
    (hstep : ∀ ch < a.decs.length, ∀ i < bands a.decs ch, ∃ d, floatSub r (band b.decs ch i) (band a.decs ch i) = .ok d ∧ floatNorm r (order ch i) d = some 0) :
    floatDistance r sq order a b = .ok (some 0) := by
  obtain ⟨c1, c2, c3, c4⟩ := hc
  have hpp : 0 < a.params.shape.prod := List.prod_pos c2
  have hne : a.params.signalNumber * a.params.shape.prod ≠ 0 := Nat.mul_ne_zero (by omega) (by omega)
  obtain ⟨s, s1, s2⟩ := distance_loops (r := r) (sq := sq) (order := order) h (Q := fun _ _ acc => acc = some 0) rfl (fun _ _ _ h => h)
    (fun ch hch i hi acc hacc => by
      obtain ⟨d, d1, d2⟩ := hstep ch hch i hi
      refine ⟨d, d1, ?_⟩
      rw [hacc, d2]
      show some (r.toDouble (0 + sq 0)) = _
      rw [hsq, add_zero, nearest_zero hr.2])
  unfold floatDistance
  rw [if_pos hs, s1, Outcome.bind_ok]
  simp only [Outcome.pure_eq]
  rw [signalSize_prod c2 c3, Nat.mod_eq_of_lt c4, if_neg hne, s2]
  show Outcome.ok (Ov.round r.toFloat maxFloat (r.toDouble (0 / _))) = _
  rw [zero_div, nearest_zero hr.2]
  unfold Ov.round
  rw [nearest_zero hr.1]
  exact congrArg Outcome.ok (if_pos (by rw [abs_zero]; simp only [maxFloat]; norm_num))

/-! ### the distance -/

/-- The number of values in a subband. -/
def bandCells (a : Decs F32) (ch i : ℕ) : ℕ := (band a ch i).rows * (band a ch i).cols

theorem distance_err (hr : r.IEEE) {sq : ℝ → ℝ} (hsq : ∀ t, |sq t - t ^ 2| ≤ 1 / 2 ^ 52 * t ^ 2) {order : ℕ → ℕ → SumOrder} {a b : Decs F32}
    (h : SameSizes a b) {B C : ℝ} {k : ℕ} (hB0 : 0 ≤ B)
    (hm : ∀ ch < a.length, ∀ l < bands a ch, ∀ i < (band a ch l).rows, ∀ j < (band a ch l).cols, finiteBits ((band a ch l).get i j) ∧
      finiteBits ((band b ch l).get i j) ∧ (((number ((band b ch l).get i j) : ℚ) : ℝ) - (number ((band a ch l).get i j) : ℚ)) ^ 2 ≤ B)
    (ho : ∀ ch < a.length, ∀ l < bands a ch, 0 < bandCells a ch l → (order ch l).Covers (bandCells a ch l) ∧ (order ch l).depth ≤ k)
    (hC : ∀ ch < a.length, ∀ l < bands a ch, (bandCells a ch l : ℝ) ≤ C)
    (hΩ : (1 + 1 / 2 ^ 24) ^ (k + 5) * (C * (B + 1 / 2 ^ 149)) ≤ maxFloat) :
    ∃ s : ℝ, ((List.range a.length).foldlM (fun acc ch => do
      let x ← rd a ch
      let y ← rd b ch
      (List.range x.length).foldlM (fun acc i => do
        let m ← rd x i
        let n ← rd y i
        let d ← floatSub r n m
        pure (addSquare r sq acc (floatNorm r (order ch i) d))) acc) (some 0)) = .ok (some s) ∧
      Err ((1 + 1 / 2 ^ 24) ^ (k + 9) * (1 + 1 / 2 ^ 52) ^ (1 + ∑ ch ∈ range a.length, bands a ch))
        (1 / 2 ^ 149 * ∑ ch ∈ range a.length, ∑ l ∈ range (bands a ch), ((bandCells a ch l : ℝ) + 1)) s
        (∑ ch ∈ range a.length, ∑ l ∈ range (bands a ch), sqDist (matNumbers (band a ch l)) (matNumbers (band b ch l))) := by
  have h1 : (1 : ℝ) ≤ 1 + 1 / 2 ^ 52 := by norm_num
  have hg : (1 : ℝ) ≤ (1 + 1 / 2 ^ 24) ^ (k + 9) := one_le_pow₀ (by norm_num)
  have hsqd : ∀ ch l, 0 ≤ sqDist (matNumbers (band a ch l)) (matNumbers (band b ch l)) := fun ch l =>
    sum_nonneg fun _ _ => sum_nonneg fun _ _ => sq_nonneg _
  obtain ⟨s, s1, s2⟩ := distance_loops (r := r) (sq := sq) (order := order) h
    (Q := fun c i acc => ∃ s : ℝ, acc = some s ∧ Err ((1 + 1 / 2 ^ 24) ^ (k + 9) * (1 + 1 / 2 ^ 52) ^ (1 + (∑ ch ∈ range c, bands a ch + i)))
        (1 / 2 ^ 149 * (∑ ch ∈ range c, ∑ l ∈ range (bands a ch), ((bandCells a ch l : ℝ) + 1) + ∑ l ∈ range i, ((bandCells a c l : ℝ) + 1))) s
        (∑ ch ∈ range c, ∑ l ∈ range (bands a ch), sqDist (matNumbers (band a ch l)) (matNumbers (band b ch l)) +
          ∑ l ∈ range i, sqDist (matNumbers (band a c l)) (matNumbers (band b c l))))
    ⟨0, rfl, by simp [Err]⟩
    (by
      rintro ch hch acc ⟨s, rfl, hs⟩
      refine ⟨s, rfl, ?_⟩
      rw [sum_range_succ, sum_range_succ, sum_range_succ, range_zero, sum_empty, sum_empty, add_zero, add_zero, add_zero]
      exact hs)
    (by
      rintro ch hch l hl acc ⟨s, rfl, hs⟩
      have hz := sameSizes_band h hch hl
      obtain ⟨d, t, d1, d2, d3⟩ := norm_err hr hsq hz (fun i hi j hj => (hm ch hch l hl i hi j hj).1)
        (fun i hi j hj => (hm ch hch l hl i (hz.1 ▸ hi) j (hz.2 ▸ hj)).2.1) (fun i hi j hj => (hm ch hch l hl i hi j hj).2.2) hB0 (o := order ch l)
        (fun h0 => (ho ch hch l hl h0).1) (k := k) (fun h0 => (ho ch hch l hl h0).2) (hC ch hch l hl) hΩ
      refine ⟨d, d1, _, by rw [d2]; rfl, ?_⟩
      have d4 := d3.mono (g' := (1 + 1 / 2 ^ 24) ^ (k + 9) * (1 + 1 / 2 ^ 52) ^ (1 + (∑ ch ∈ range ch, bands a ch + l)))
        (mul_le_mul_of_nonneg_left (le_self_pow₀ h1 (by omega)) (by positivity)) (by positivity) le_rfl (by positivity) (hsqd ch l)
      have e := (hs.add d4).toDouble hr (one_le_mul_of_one_le_of_one_le hg (one_le_pow₀ h1))
      rw [mul_assoc, ← pow_succ] at e
      rw [show 1 + (∑ ch ∈ range ch, bands a ch + (l + 1)) = 1 + (∑ ch ∈ range ch, bands a ch + l) + 1 by ring, sum_range_succ _ l, sum_range_succ _ l]
      rw [add_assoc (∑ ch ∈ range ch, ∑ l ∈ range (bands a ch), sqDist (matNumbers (band a ch l)) (matNumbers (band b ch l)))] at e
      have tiny : (1 : ℝ) / 2 ^ 1075 ≤ 1 / 2 ^ 149 := one_div_le_one_div_of_le (by positivity) (pow_le_pow_right₀ (by norm_num) (by norm_num))
      refine e.mono le_rfl (by positivity) ?_ (by positivity) (add_nonneg (sum_nonneg fun _ _ => sum_nonneg fun _ _ => hsqd _ _)
        (add_nonneg (sum_nonneg fun _ _ => hsqd _ _) (hsqd _ _)))
      refine (add_le_add le_rfl tiny).trans (le_of_eq ?_)
      show _ + 1 / 2 ^ 149 * (bandCells a ch l : ℝ) + _ = _
      generalize (1 : ℝ) / 2 ^ 149 = e
      ring)
  obtain ⟨s', rfl, e⟩ := s2
  refine ⟨s', s1, ?_⟩
  rw [range_zero, sum_empty, sum_empty, add_zero, add_zero, add_zero] at e
  exact e

theorem map_sum_range {β : Type} (l : List β) (x : β) {δ : Type} [AddCommMonoid δ] (f : β → δ) : (l.map f).sum = ∑ k ∈ range l.length, f (l.getD k x) := by
  have e : l.map f = (List.range l.length).map fun k => f (l.getD k x) := by
    refine List.ext_getElem (by simp) fun k h1 h2 => ?_
    have ha : k < l.length := by simpa using h1
    simp [List.getD, ha]
  rw [e]
  rfl

theorem bands_sum (a : Decs F32) : ∑ ch ∈ range a.length, bands a ch = bandCount a := (map_sum_range a [] List.length).symm

theorem cells_sum (a : Decs F32) :
    ∑ ch ∈ range a.length, ∑ l ∈ range (bands a ch), ((bandCells a ch l : ℝ) + 1) = (valueCount a : ℝ) + bandCount a := by
  have e : valueCount a = ∑ ch ∈ range a.length, ∑ l ∈ range (bands a ch), bandCells a ch l := by
    unfold valueCount
    rw [map_sum_range a []]
    exact sum_congr rfl fun ch _ => map_sum_range _ default _
  simp only [sum_add_distrib, sum_const, card_range, nsmul_eq_mul, mul_one]
  rw [e, ← bands_sum]
  push_cast
  rfl

theorem sqDistAll_sum {a b : Decs F32} (h : SameSizes a b) :
    sqDistAll (a.map fun c => c.map matNumbers) (b.map fun c => c.map matNumbers) =
      ∑ ch ∈ range a.length, ∑ l ∈ range (bands a ch), sqDist (matNumbers (band a ch l)) (matNumbers (band b ch l)) := by
  have h1 := List.forall₂_iff_get.1 h
  unfold sqDistAll
  rw [List.zipWith_map, zipWith_range _ a b [] [] h1.1]
  show ∑ ch ∈ range a.length, (_ : ℝ) = _
  refine sum_congr rfl fun ch hch => ?_
  have hch : ch < a.length := mem_range.1 hch
  have hb : ch < b.length := h1.1 ▸ hch
  have h2 := (List.forall₂_iff_get.1 (h1.2 ch hch hb)).1
  rw [List.zipWith_map, zipWith_range _ (a.getD ch []) (b.getD ch []) default default
    (by rw [List.getD_eq_getElem _ _ hch, List.getD_eq_getElem _ _ hb]; exact h2)]
  rfl

theorem cells_le {a : Decs F32} {ch l : ℕ} (hc : ch < a.length) (hl : l < bands a ch) : bandCells a ch l ≤ valueCount a := by
  have e : valueCount a = ∑ ch ∈ range a.length, ∑ l ∈ range (bands a ch), bandCells a ch l := by
    unfold valueCount
    rw [map_sum_range a []]
    exact sum_congr rfl fun ch _ => map_sum_range _ default _
  rw [e]
  exact (single_le_sum (f := fun l => bandCells a ch l) (fun _ _ => Nat.zero_le _) (mem_range.2 hl)).trans
    (single_le_sum (f := fun ch => ∑ l ∈ range (bands a ch), bandCells a ch l) (fun _ _ => Nat.zero_le _) (mem_range.2 hc))

theorem sameSizes_numbers {a b : Decs F32} (h : List.Forall₂ (List.Forall₂ SameSize) (a.map fun c => c.map matNumbers) (b.map fun c => c.map matNumbers)) :
    SameSizes a b := by
  rw [List.forall₂_map_left_iff, List.forall₂_map_right_iff] at h
  refine h.imp fun c d hcd => ?_
  rw [List.forall₂_map_left_iff, List.forall₂_map_right_iff] at hcd
  exact hcd.imp fun m n hmn => ⟨hmn.1.symm, hmn.2.symm⟩

theorem double_nat (hr : r.IEEE) {n : ℕ} (h : n < 2 ^ 53) : r.toDouble (n : ℝ) = n :=
  nearest_self hr.2 ⟨n, 0, by rw [abs_of_nonneg (by positivity)]; exact_mod_cast h, by norm_num, by simp⟩

/-- `Distance` with rounding. -/
theorem floatDistance_err (hr : r.IEEE) {sq : ℝ → ℝ} (hsq : ∀ t, |sq t - t ^ 2| ≤ 1 / 2 ^ 52 * t ^ 2) {order : ℕ → ℕ → SumOrder} {a b : Buffer F32}
    (h : SameSizes a.decs b.decs) (hs : a.params.steps = b.params.steps) (hc : CountableSamples a.params)
    (hn : a.params.signalNumber * a.params.shape.prod < 2 ^ 53) {B : ℝ} {k : ℕ} (hB0 : 0 ≤ B)
    (hm : ∀ ch < a.decs.length, ∀ l < bands a.decs ch, ∀ i < (band a.decs ch l).rows, ∀ j < (band a.decs ch l).cols, finiteBits ((band a.decs ch l).get i j) ∧
      finiteBits ((band b.decs ch l).get i j) ∧ (((number ((band b.decs ch l).get i j) : ℚ) : ℝ) - (number ((band a.decs ch l).get i j) : ℚ)) ^ 2 ≤ B)
    (ho : ∀ ch < a.decs.length, ∀ l < bands a.decs ch, 0 < bandCells a.decs ch l → (order ch l).Covers (bandCells a.decs ch l) ∧ (order ch l).depth ≤ k)
    (hΩ : (1 + 1 / 2 ^ 24) ^ (k + 10) * (1 + 1 / 2 ^ 52) ^ (bandCount a.decs + 2) *
      (((valueCount a.decs : ℝ) + bandCount a.decs + 1) * (B + 1 / 2 ^ 149)) ≤ maxFloat) :
    ∃ d : ℝ, floatDistance r sq order a b = .ok (some d) ∧
      Err ((1 + 1 / 2 ^ 24) ^ (k + 10) * (1 + 1 / 2 ^ 52) ^ (bandCount a.decs + 2))
        (1 / 2 ^ 149 * (((valueCount a.decs : ℝ) + bandCount a.decs) / (a.params.signalNumber * a.params.shape.prod : ℕ) + 1)) d
        (sqDistAll (numbers a).decs (numbers b).decs / (a.params.signalNumber * a.params.shape.prod : ℕ)) := by
  obtain ⟨c1, c2, c3, c4⟩ := hc
  have hpp : 0 < a.params.shape.prod := List.prod_pos c2
  have hpos : 0 < a.params.signalNumber * a.params.shape.prod := Nat.mul_pos c1 hpp
  set n := a.params.signalNumber * a.params.shape.prod with hnn
  set V := valueCount a.decs with hV
  set S := bandCount a.decs with hS
  have hnR : (1 : ℝ) ≤ (n : ℝ) := by exact_mod_cast hpos
  have g0 : (1 : ℝ) ≤ (1 + 1 / 2 ^ 24) ^ (k + 10) := one_le_pow₀ (by norm_num)
  have g1 : (1 : ℝ) ≤ (1 + 1 / 2 ^ 52) ^ (S + 2) := one_le_pow₀ (by norm_num)
  obtain ⟨s, s1, s2⟩ := distance_err hr hsq (order := order) h (C := (V : ℝ)) hB0 hm ho (fun ch hch l hl => by exact_mod_cast cells_le hch hl) (by
    refine le_trans ?_ hΩ
    refine mul_le_mul ?_ ?_ (by positivity) (by positivity)
    · exact (pow_le_pow_right₀ (by norm_num) (by omega)).trans (le_mul_of_one_le_right (by positivity) g1)
    · refine mul_le_mul_of_nonneg_right ?_ (by positivity)
      have : (0 : ℝ) ≤ S := by positivity
      linarith)
  rw [bands_sum, cells_sum, ← sqDistAll_sum h, ← hS, ← hV] at s2
  have X0 : 0 ≤ sqDistAll (numbers a).decs (numbers b).decs := by
    show 0 ≤ sqDistAll (a.decs.map fun c => c.map matNumbers) (b.decs.map fun c => c.map matNumbers)
    rw [sqDistAll_sum h]
    exact sum_nonneg fun _ _ => sum_nonneg fun _ _ => sum_nonneg fun _ _ => sum_nonneg fun _ _ => sq_nonneg _
  have XB : sqDistAll (numbers a).decs (numbers b).decs ≤ V * B := by
    show sqDistAll (a.decs.map fun c => c.map matNumbers) (b.decs.map fun c => c.map matNumbers) ≤ _
    rw [sqDistAll_sum h]
    have e : (V : ℝ) * B = ∑ ch ∈ range a.decs.length, ∑ l ∈ range (bands a.decs ch), (bandCells a.decs ch l : ℝ) * B := by
      simp only [← sum_mul]
      have := cells_sum a.decs
      simp only [sum_add_distrib, sum_const, card_range, nsmul_eq_mul, mul_one] at this
      have e2 := bands_sum a.decs
      have e3 : (∑ ch ∈ range a.decs.length, (bands a.decs ch : ℝ)) = S := by rw [hS, ← e2]; push_cast; rfl
      rw [e3] at this
      rw [add_right_cancel this]
    rw [e]
    refine sum_le_sum fun ch hch => sum_le_sum fun l hl => ?_
    have hch := mem_range.1 hch
    have hl := mem_range.1 hl
    unfold sqDist bandCells
    have : ∀ i ∈ range (band a.decs ch l).rows, ∑ j ∈ range (band a.decs ch l).cols, ((matNumbers (band a.decs ch l)).get i j - (matNumbers (band b.decs ch l)).get i j) ^ 2 ≤
        (band a.decs ch l).cols * B := fun i hi => by
      have := sum_le_card_nsmul (range (band a.decs ch l).cols) (fun j => ((matNumbers (band a.decs ch l)).get i j - (matNumbers (band b.decs ch l)).get i j) ^ 2) B
        (fun j hj => by
          have hi := mem_range.1 hi
          have hj := mem_range.1 hj
          have hz := sameSizes_band h hch hl
          unfold matNumbers
          rw [Mat.get_map _ _ hi hj, Mat.get_map _ _ (hz.1 ▸ hi) (hz.2 ▸ hj), ← neg_sub, neg_sq]
          exact (hm ch hch l hl i hi j hj).2.2)
      simpa using this
    have := sum_le_card_nsmul _ _ _ this
    rw [card_range, nsmul_eq_mul, ← mul_assoc] at this
    refine this.trans (le_of_eq ?_)
    push_cast
    rfl
  have k1 := ((s2.div (n := (n : ℝ)) (by linarith)).toDouble hr (one_le_mul_of_one_le_of_one_le (one_le_pow₀ (by norm_num)) (one_le_pow₀ (by norm_num)))).toFloat hr
    (one_le_mul_of_one_le_of_one_le (one_le_mul_of_one_le_of_one_le (one_le_pow₀ (by norm_num)) (one_le_pow₀ (by norm_num))) (by norm_num))
  have k2 : Err ((1 + 1 / 2 ^ 24) ^ (k + 10) * (1 + 1 / 2 ^ 52) ^ (S + 2)) (1 / 2 ^ 149 * (((V : ℝ) + S) / n + 1))
      (r.toFloat (r.toDouble (s / n))) (sqDistAll (numbers a).decs (numbers b).decs / n) := by
    refine k1.mono (le_of_eq ?_) (by positivity) ?_ (by positivity) (by positivity)
    · rw [show S + 2 = 1 + S + 1 by omega, show k + 10 = k + 9 + 1 by omega]
      generalize (1 : ℝ) + 1 / 2 ^ 24 = u
      generalize (1 : ℝ) + 1 / 2 ^ 52 = v
      ring
    · have tiny : (1 : ℝ) / 2 ^ 1075 ≤ 1 / 2 ^ 150 := one_div_le_one_div_of_le (by positivity) (pow_le_pow_right₀ (by norm_num) (by norm_num))
      have e2 : (1 : ℝ) / 2 ^ 150 + 1 / 2 ^ 150 = 1 / 2 ^ 149 := by norm_num
      rw [add_assoc, mul_add _ (((V : ℝ) + S) / n) 1, mul_one, mul_div_assoc]
      refine add_le_add le_rfl ?_
      rw [← e2]
      exact add_le_add tiny le_rfl
  refine ⟨r.toFloat (r.toDouble (s / n)), ?_, k2⟩
  unfold floatDistance
  rw [if_pos hs, s1, Outcome.bind_ok]
  simp only [Outcome.pure_eq]
  rw [signalSize_prod c2 c3, Nat.mod_eq_of_lt c4, if_neg (by omega)]
  show Outcome.ok (Ov.round r.toFloat maxFloat (r.toDouble (s / r.toDouble (n : ℝ)))) = _
  rw [double_nat hr hn]
  unfold Ov.round
  refine congrArg Outcome.ok (if_pos ?_)
  rw [abs_of_nonneg k2.1]
  refine k2.le.trans (le_trans (mul_le_mul_of_nonneg_left ?_ (by positivity)) hΩ)
  have d1 : sqDistAll (numbers a).decs (numbers b).decs / n ≤ V * B := (div_le_self X0 hnR).trans XB
  have d2 : ((V : ℝ) + S) / n ≤ V + S := div_le_self (by positivity) hnR
  have d3 : 1 / 2 ^ 149 * (((V : ℝ) + S) / n + 1) ≤ 1 / 2 ^ 149 * ((V : ℝ) + S + 1) := mul_le_mul_of_nonneg_left (by linarith) (by positivity)
  have d4 : 0 ≤ ((S : ℝ) + 1) * B := by positivity
  calc _ ≤ V * B + 1 / 2 ^ 149 * ((V : ℝ) + S + 1) := add_le_add d1 d3
    _ ≤ V * B + (S + 1) * B + 1 / 2 ^ 149 * ((V : ℝ) + S + 1) := by linarith
    _ = _ := by ring

/-! ### energies -/

/-- A sum in `double` in any order. -/
theorem double_sum_err (hr : r.IEEE) {xs : List (Dbl r.toDouble)} {X : ℕ → ℝ} {g A : ℝ} (hg : 1 ≤ g) (hA : 0 ≤ A) (hX : ∀ k, 0 ≤ X k) (o : SumOrder)
    (hxs : ∀ k ∈ o.terms, ∃ q : ℝ, xs.getD k default = (some q : Option ℝ) ∧ Err g A q (X k)) :
    ∃ s : ℝ, o.eval xs = (some s : Option ℝ) ∧
      Err (g * (1 + 1 / 2 ^ 52) ^ o.depth) (A * o.terms.length + 1 / 2 ^ 1075 * (o.terms.length - 1)) s (o.terms.map X).sum := by
  obtain ⟨e, he⟩ : ∃ e : ℝ, e = 1 / 2 ^ 1075 := ⟨_, rfl⟩
  have he0 : 0 ≤ e := by rw [he]; positivity
  rw [← he]
  induction o with
  | term k =>
    obtain ⟨q, h1, h2⟩ := hxs k (by simp [SumOrder.terms])
    refine ⟨q, h1, ?_⟩
    have e1 : (SumOrder.depth (.term k)) = 0 := rfl
    have e2 : SumOrder.terms (.term k) = [k] := rfl
    rw [e1, e2, pow_zero, mul_one]
    simpa using h2
  | plus a b iha ihb =>
    have e1 : (SumOrder.plus a b).depth = max a.depth b.depth + 1 := rfl
    have e2 : (SumOrder.plus a b).terms = a.terms ++ b.terms := rfl
    rw [e2] at hxs ⊢
    rw [e1]
    rw [List.map_append, List.sum_append]
    rw [List.length_append, Nat.cast_add]
    have na : 0 ≤ (a.terms.map X).sum := List.sum_nonneg (by simp only [List.mem_map]; rintro _ ⟨k, _, rfl⟩; exact hX k)
    have nb : 0 ≤ (b.terms.map X).sum := List.sum_nonneg (by simp only [List.mem_map]; rintro _ ⟨k, _, rfl⟩; exact hX k)
    have la1 : (1 : ℝ) ≤ a.terms.length := by exact_mod_cast le_trans (by omega) (depth_le a)
    have lb1 : (1 : ℝ) ≤ b.terms.length := by exact_mod_cast le_trans (by omega) (depth_le b)
    obtain ⟨s, s1, s3⟩ := iha (fun k hk => hxs k (List.mem_append_left _ hk))
    obtain ⟨t, t1, t3⟩ := ihb (fun k hk => hxs k (List.mem_append_right _ hk))
    have up : ∀ {d : ℕ}, d ≤ max a.depth b.depth → g * (1 + 1 / 2 ^ 52) ^ d ≤ g * (1 + 1 / 2 ^ 52) ^ max a.depth b.depth := fun hd =>
      mul_le_mul_of_nonneg_left (pow_le_pow_right₀ (by norm_num) hd) (by linarith)
    have pa : 0 ≤ e * ((a.terms.length : ℝ) - 1) := mul_nonneg he0 (by linarith)
    have pb : 0 ≤ e * ((b.terms.length : ℝ) - 1) := mul_nonneg he0 (by linarith)
    have s3 := s3.mono (up (le_max_left _ _)) (by positivity) le_rfl (by positivity) na
    have t3 := t3.mono (up (le_max_right _ _)) (by positivity) le_rfl (by positivity) nb
    have k := (s3.add t3).toDouble hr (one_le_mul_of_one_le_of_one_le hg (one_le_pow₀ (by norm_num)))
    rw [mul_assoc, ← pow_succ, ← he] at k
    refine ⟨r.toDouble (s + t), ?_, ?_⟩
    · show a.eval xs + b.eval xs = _
      rw [s1, t1]
      rfl
    · convert k using 1
      ring

theorem number_square_mem (x : F32) : ((number x : ℚ) : ℝ) * (number x : ℚ) ∈ FloatNumbers 53 (-1074) := by
  have key : ∀ n < 2 ^ 31, ∃ k e : ℤ, |k| < 2 ^ 24 ∧ -149 ≤ e ∧ ((magnitude n : ℚ) : ℝ) = k * (2 : ℝ) ^ e := by
    intro n hn
    unfold magnitude
    split_ifs with h
    · exact ⟨n, -149, by rw [abs_of_nonneg (by positivity)]; norm_cast; omega, le_rfl, by push_cast; ring⟩
    · have hq : n % 2 ^ 23 + 2 ^ 23 < 2 ^ 24 := by omega
      generalize n % 2 ^ 23 + 2 ^ 23 = q at hq ⊢
      refine ⟨q, ((n / 2 ^ 23 : ℕ) : ℤ) - 150, by rw [abs_of_nonneg (by positivity)]; norm_cast, by omega, ?_⟩
      generalize ((n / 2 ^ 23 : ℕ) : ℤ) - 150 = e
      push_cast
      ring
  obtain ⟨k, e, h1, h2, h3⟩ := key (x.toNat % 2 ^ 31) (Nat.mod_lt _ (by norm_num))
  refine ⟨k * k, e + e, ?_, by omega, ?_⟩
  · rw [abs_mul]
    have : |k| * |k| < 2 ^ 24 * 2 ^ 24 := mul_lt_mul'' h1 h1 (abs_nonneg _) (abs_nonneg _)
    refine this.trans (by norm_num)
  · unfold number
    rw [Rat.cast_mul, h3, zpow_add₀ (by norm_num)]
    generalize (2 : ℝ) ^ e = p
    split_ifs <;> push_cast <;> ring

theorem energy_kept (m : Mat F32) : ((m.data.filter fun x => number x != 0).map fun x => ((number x : ℚ) : ℝ) * (number x : ℚ)).sum = energy (matNumbers m) := by
  rw [← energy_entry]
  have e : (matNumbers m).data = m.data.map fun x => ((number x : ℚ) : ℝ) := rfl
  classical
  rw [e]
  induction m.data with
  | nil => rfl
  | cons x l ih =>
    by_cases h : number x = 0
    · simp [h] at ih ⊢
      exact ih
    · simp [h] at ih ⊢
      exact ih

/-- The energy of a subband with rounding. -/
theorem energy_err (hr : r.IEEE) {m : Mat F32} (hm : ∀ i < m.rows, ∀ j < m.cols, finiteBits (m.get i j)) {o : SumOrder} {k : ℕ}
    (ho : (m.data.filter fun x => number x != 0).length ≠ 0 → o.Covers (m.data.filter fun x => number x != 0).length ∧ o.depth ≤ k)
    (hsize : m.rows * m.cols < 2 ^ 64) (hΩ : (1 + 1 / 2 ^ 24) * (1 + 1 / 2 ^ 52) ^ k * (energy (matNumbers m) + 1 / 2 ^ 149) ≤ maxFloat) :
    ∃ e : ℝ, floatEnergy r o m = (some e : Option ℝ) ∧
      Err ((1 + 1 / 2 ^ 24) * (1 + 1 / 2 ^ 52) ^ k) (1 / 2 ^ 149) e (energy (matNumbers m)) := by
  set l := m.data.filter fun x => number x != 0 with hl
  have hfin : ∀ x ∈ l, finiteBits x := fun x hx => by
    have hx := (List.mem_filter.1 hx).1
    obtain ⟨q, hq, e⟩ := List.getElem_of_mem hx
    have hq' : q < m.rows * m.cols := m.wf ▸ hq
    have hc : 0 < m.cols := Nat.pos_of_ne_zero (by rintro h; rw [h] at hq'; omega)
    have := hm (q / m.cols) (Nat.div_lt_of_lt_mul (by rwa [Nat.mul_comm] at hq')) (q % m.cols) (Nat.mod_lt _ hc)
    rw [← data_entry, List.getD_eq_getElem _ _ hq, e] at this
    exact this
  have hlen : l.length < 2 ^ 64 := by
    refine lt_of_le_of_lt (List.length_filter_le _ _) ?_
    rw [m.wf]
    exact hsize
  have hE : 0 ≤ energy (matNumbers m) := sum_nonneg fun _ _ => sum_nonneg fun _ _ => mul_self_nonneg _
  have g1 : (1 : ℝ) ≤ (1 + 1 / 2 ^ 52) ^ k := one_le_pow₀ (by norm_num)
  have fin : ∀ s : ℝ, Err ((1 + 1 / 2 ^ 52) ^ k) (1 / 2 ^ 150) s (energy (matNumbers m)) →
      ∃ e : ℝ, Ov.round r.toFloat maxFloat s = (some e : Option ℝ) ∧
        Err ((1 + 1 / 2 ^ 24) * (1 + 1 / 2 ^ 52) ^ k) (1 / 2 ^ 149) e (energy (matNumbers m)) := by
    intro s hs
    have h1 := hs.toFloat hr g1
    rw [mul_comm ((1 + 1 / 2 ^ 52) ^ k), show (1 : ℝ) / 2 ^ 150 + 1 / 2 ^ 150 = 1 / 2 ^ 149 by norm_num] at h1
    refine ⟨r.toFloat s, ?_, h1⟩
    unfold Ov.round
    refine if_pos ?_
    rw [abs_of_nonneg h1.1]
    exact h1.le.trans hΩ
  suffices h : ∃ s : ℝ, (if l.isEmpty then some (0 : ℝ) else o.eval (β := Dbl r.toDouble) (l.map fun x => doubleOf x * doubleOf x) : Option ℝ) = some s ∧
      Err ((1 + 1 / 2 ^ 52) ^ k) (1 / 2 ^ 150) s (energy (matNumbers m)) by
    obtain ⟨s, h1, h2⟩ := h
    obtain ⟨e, e1, e2⟩ := fin s h2
    exact ⟨e, (congrArg (fun w : Option ℝ => Option.bind w fun s => Ov.round r.toFloat maxFloat s) h1).trans e1, e2⟩
  by_cases h0 : l.length = 0
  · have e0 : energy (matNumbers m) = 0 := by rw [← energy_kept, ← hl, List.length_eq_zero_iff.1 h0]; rfl
    refine ⟨0, if_pos (by rw [List.isEmpty_iff, ← List.length_eq_zero_iff, h0]), ?_⟩
    rw [e0]
    exact ⟨le_rfl, by rw [sub_zero, abs_zero, mul_zero, zero_add]; positivity⟩
  · obtain ⟨hp, hk⟩ := ho h0
    obtain ⟨s, s1, s2⟩ := double_sum_err hr (xs := l.map fun x => doubleOf x * doubleOf x)
      (X := fun k => ((number (l.getD k 0#32) : ℚ) : ℝ) * (number (l.getD k 0#32) : ℚ)) (g := 1) (A := 0) le_rfl le_rfl (fun _ => mul_self_nonneg _) o
      (fun q hq => by
        have hq : q < l.length := List.mem_range.1 (hp.subset hq)
        refine ⟨_, ?_, Err.self (mul_self_nonneg _)⟩
        rw [List.getD_eq_getElem _ _ (by simpa using hq), List.getElem_map, List.getD_eq_getElem _ _ hq]
        have e : (doubleOf l[q] : Dbl r.toDouble) = (some ((number l[q] : ℚ) : ℝ) : Option ℝ) := if_pos (hfin _ (List.getElem_mem hq))
        rw [e]
        show some (r.toDouble (((number l[q] : ℚ) : ℝ) * (number l[q] : ℚ))) = _
        rw [nearest_self hr.2 (number_square_mem _)])
    have e1 : (o.terms.map fun k => ((number (l.getD k 0#32) : ℚ) : ℝ) * (number (l.getD k 0#32) : ℚ)).sum = energy (matNumbers m) := by
      rw [← energy_kept, ← hl, (hp.map _).sum_eq, map_sum_range l 0#32]
      rfl
    have e2 : o.terms.length = l.length := by rw [hp.length_eq, List.length_range]
    rw [e1, e2, one_mul, zero_mul, zero_add] at s2
    refine ⟨s, (if_neg (by rw [List.isEmpty_iff, ← List.length_eq_zero_iff]; exact h0)).trans s1, s2.mono (pow_le_pow_right₀ (by norm_num) hk) (by positivity) ?_ (by positivity) hE⟩
    have a1 : ((l.length : ℝ) - 1) ≤ 2 ^ 64 := by
      have : (l.length : ℝ) ≤ 2 ^ 64 := by exact_mod_cast hlen.le
      linarith
    have a2 : (1 : ℝ) / 2 ^ 1075 ≤ 1 / 2 ^ 214 := one_div_le_one_div_of_le (by positivity) (pow_le_pow_right₀ (by norm_num) (by norm_num))
    have a0 : (1 : ℝ) ≤ l.length := by exact_mod_cast Nat.one_le_iff_ne_zero.2 h0
    refine (mul_le_mul a2 a1 (by linarith) (by positivity)).trans (le_of_eq ?_)
    norm_num

/-! ### symmetry -/

theorem ov_neg_square (x : Ov r.toFloat maxFloat) : -x * -x = x * x := by
  cases x with
  | none => rfl
  | some v =>
    show Ov.round r.toFloat maxFloat (-v * -v) = Ov.round r.toFloat maxFloat (v * v)
    rw [neg_mul_neg]

theorem ov_sub_swap (ho : ∀ x, r.toFloat (-x) = -r.toFloat x) (x y : Ov r.toFloat maxFloat) : x + -y = -(y + -x) := by
  cases x with
  | none => cases y <;> rfl
  | some v =>
    cases y with
    | none => rfl
    | some w =>
      show Ov.round r.toFloat maxFloat (v + -w) = -(Ov.round r.toFloat maxFloat (w + -v))
      rw [show v + -w = -(w + -v) by ring]
      have hp : ∀ {x : ℝ}, |r.toFloat x| ≤ maxFloat → Ov.round r.toFloat maxFloat x = (some (r.toFloat x) : Option ℝ) := fun h => if_pos h
      have hn : ∀ {x : ℝ}, ¬|r.toFloat x| ≤ maxFloat → Ov.round r.toFloat maxFloat x = (none : Option ℝ) := fun h => if_neg h
      by_cases h : |r.toFloat (w + -v)| ≤ maxFloat
      · rw [hp h, hp (by rw [ho, abs_neg]; exact h), ho]
        rfl
      · rw [hn h, hn (by rw [ho, abs_neg]; exact h)]
        rfl

theorem range_foldlM_congr {β : Type} {f g : β → ℕ → Outcome β} {n : ℕ} (h : ∀ k < n, ∀ acc, f acc k = g acc k) (b : β) :
    (List.range n).foldlM f b = (List.range n).foldlM g b := by
  induction n with
  | zero => rfl
  | succ n ih =>
    rw [List.range_succ, List.foldlM_append, List.foldlM_append, ih fun k hk => h k (by omega)]
    congr 1
    funext acc
    rw [List.foldlM_cons, List.foldlM_cons, h n (by omega)]
    rfl

theorem norm_symm (hodd : ∀ x, r.toFloat (-x) = -r.toFloat x) {m n : Mat F32} (h : n.rows = m.rows ∧ n.cols = m.cols) (o : SumOrder) :
    ∃ d e, floatSub r n m = .ok d ∧ floatSub r m n = .ok e ∧ floatNorm r o d = floatNorm r o e := by
  refine ⟨_, _, if_pos h, if_pos ⟨h.1.symm, h.2.symm⟩, ?_⟩
  set d := List.zipWith (fun y x => floatOf r y + -floatOf r x) n.data m.data with hd
  have e : List.zipWith (fun y x => floatOf r y + -floatOf r x) m.data n.data = d.map fun x => -x := by
    rw [hd, List.zipWith_comm, List.map_zipWith]
    congr 1
    funext x y
    exact ov_sub_swap hodd _ _
  rw [e]
  unfold floatNorm
  have e2 : ((d.map fun x => -x).map fun x => x * x) = d.map fun x => x * x := by
    rw [List.map_map]
    exact List.map_congr_left fun x _ => ov_neg_square x
  rw [e2, List.isEmpty_map]

theorem floatDistance_symm (hodd : ∀ x, r.toFloat (-x) = -r.toFloat x) {sq : ℝ → ℝ} {order : ℕ → ℕ → SumOrder} {a b : Buffer F32}
    (h : SameSizes a.decs b.decs) (hp : a.params.shape = b.params.shape) (hn : a.params.signalNumber = b.params.signalNumber) :
    floatDistance r sq order a b = floatDistance r sq order b a := by
  have h1 := List.forall₂_iff_get.1 h
  unfold floatDistance
  by_cases hs : a.params.steps = b.params.steps
  · rw [if_pos hs, if_pos hs.symm, hp, hn, show List.length b.decs = List.length a.decs from h1.1.symm]
    rw [range_foldlM_congr fun ch hch acc => ?_]
    have hb : ch < List.length b.decs := h1.1 ▸ hch
    have h2 := List.forall₂_iff_get.1 (h1.2 ch hch hb)
    rw [rd_ok hch, rd_ok hb]
    simp only [Outcome.bind_ok]
    have hl : b.decs[ch].length = a.decs[ch].length := h2.1.symm
    rw [hl]
    refine range_foldlM_congr (fun i hi acc => ?_) acc
    have hi' : i < b.decs[ch].length := hl ▸ hi
    rw [rd_ok hi, rd_ok hi']
    simp only [Outcome.bind_ok]
    obtain ⟨d, e, d1, d2, d3⟩ := norm_symm (r := r) hodd (h2.2 i hi hi') (order ch i)
    have d1 : floatSub r b.decs[ch][i] a.decs[ch][i] = .ok d := d1
    have d2 : floatSub r a.decs[ch][i] b.decs[ch][i] = .ok e := d2
    rw [d1, d2]
    simp only [Outcome.bind_ok, d3]
  · rw [if_neg hs, if_neg (Ne.symm hs)]

end WB
