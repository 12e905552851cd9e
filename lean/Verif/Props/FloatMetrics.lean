import Verif.Proof.FloatMetrics
import Verif.Props.Metrics
import Mathlib.Analysis.SpecialFunctions.Exp

/-!
C109: `Distance` and `EnergyDistribution` as computed in `float` and `double`, for every order of the sums.
-/

namespace WB.Props

open Finset Spec

theorem band_some {a : Decs F32} {ch l : ℕ} (hc : ch < a.length) (hl : l < bands a ch) : ∃ c, a[ch]? = some c ∧ c[l]? = some (band a ch l) := by
  have ea : a.getD ch [] = a[ch] := List.getD_eq_getElem _ _ hc
  refine ⟨a[ch], List.getElem?_eq_getElem hc, ?_⟩
  unfold bands at hl
  unfold band
  rw [ea] at hl ⊢
  rw [List.getD_eq_getElem _ _ hl]
  exact List.getElem?_eq_getElem hl

/-- C109. The distance of two buffers of equal form differs from the exact mean of squares by at most a share `roundGrowth k S - 1` of it (`k` additions one
after the other in a subband, `S` subbands) and a few units of the least number. -/
theorem C109_distance (r : Rounding) (hr : r.IEEE) (sq : ℝ → ℝ) (hsq : ∀ t, |sq t - t ^ 2| ≤ 1 / 2 ^ 52 * t ^ 2) (order : ℕ → ℕ → SumOrder) (a b : Buffer F32)
    (h : SameForm (numbers a) (numbers b)) (hs : a.params.steps = b.params.steps) (hc : CountableSamples a.params)
    (hn : a.params.signalNumber * a.params.shape.prod < 2 ^ 53) (M : ℝ) (ha : FiniteWithin M a) (hb : FiniteWithin M b) (k : ℕ) (ho : OrdersFor order k a.decs)
    (hΩ : roundGrowth k (bandCount a.decs) * (((valueCount a.decs : ℝ) + bandCount a.decs + 1) * ((2 * M) ^ 2 + 1 / 2 ^ 149)) ≤ maxFloat) :
    ∃ d D : ℝ, floatDistance r sq order a b = .ok (some d) ∧ distance (numbers a) (numbers b) = .ok (.val D) ∧ 0 ≤ d ∧
      |d - D| ≤ (roundGrowth k (bandCount a.decs) - 1) * D +
        roundGrowth k (bandCount a.decs) * (1 / 2 ^ 149 * (((valueCount a.decs : ℝ) + bandCount a.decs) / (a.params.signalNumber * a.params.shape.prod : ℕ) + 1)) := by
  have hS := sameSizes_numbers h.2.2
  obtain ⟨d, d1, d2⟩ := floatDistance_err hr hsq (order := order) hS hs hc hn (B := (2 * M) ^ 2) (k := k) (sq_nonneg _)
    (by
      intro ch hch l hl i hi j hj
      have hz := sameSizes_band hS hch hl
      have hchb : ch < List.length b.decs := (List.forall₂_iff_get.1 hS).1 ▸ hch
      have hlb : l < bands b.decs ch := by
        have h1 := List.forall₂_iff_get.1 hS
        have h2 := (List.forall₂_iff_get.1 (h1.2 ch hch hchb)).1
        unfold bands at hl ⊢
        rw [List.getD_eq_getElem _ _ hch] at hl
        rw [List.getD_eq_getElem _ _ hchb]
        exact lt_of_lt_of_eq hl h2
      obtain ⟨c, c1, c2⟩ := band_mem hch hl
      obtain ⟨c', c1', c2'⟩ := band_mem hchb hlb
      obtain ⟨p1, p2⟩ := ha c c1 _ c2 i hi j hj
      obtain ⟨q1, q2⟩ := hb c' c1' _ c2' i (by rw [hz.1]; exact hi) j (by rw [hz.2]; exact hj)
      refine ⟨p1, q1, sq_le_sq' ?_ ?_⟩ <;> have := abs_le.1 p2 <;> have := abs_le.1 q2 <;> linarith)
    (by
      intro ch hch l hl h0
      obtain ⟨c, c1, c2⟩ := band_some hch hl
      exact ho ch l c _ c1 c2 h0) hΩ
  refine ⟨d, _, d1, C37_distance_formula _ _ h hc hs, d2.1, ?_⟩
  have := d2.2
  rw [mul_comm (1 / 2 ^ 149 * _)] at this
  exact this

theorem growth_le {k s : ℕ} (hk : k ≤ 2 ^ 21) (hs : s ≤ 2 ^ 20) : roundGrowth k s ≤ 1 + ((k : ℝ) + 11) / 2 ^ 23 := by
  have h1 : ∀ (x : ℝ) (n : ℕ), 0 ≤ x → (1 + x) ^ n ≤ Real.exp (n * x) := fun x n hx => by
    rw [Real.exp_nat_mul]
    exact pow_le_pow_left₀ (by linarith) (by linarith [Real.add_one_le_exp x]) n
  have e : roundGrowth k s ≤ Real.exp (((k + 10 : ℕ) : ℝ) * (1 / 2 ^ 24) + ((s + 2 : ℕ) : ℝ) * (1 / 2 ^ 52)) := by
    rw [Real.exp_add]
    exact mul_le_mul (h1 _ _ (by positivity)) (h1 _ _ (by positivity)) (by positivity) (Real.exp_pos _).le
  refine e.trans ?_
  have hkR : (k : ℝ) ≤ 2097152 := by exact_mod_cast hk
  have hsR : (s : ℝ) ≤ 1048576 := by exact_mod_cast hs
  have hk0 : (0 : ℝ) ≤ k := by positivity
  have hs0 : (0 : ℝ) ≤ s := by positivity
  push_cast
  set x : ℝ := ((k : ℝ) + 10) * (1 / 2 ^ 24) + ((s : ℝ) + 2) * (1 / 2 ^ 52) with hx
  have hx0 : 0 ≤ x := by positivity
  have hx1 : x ≤ 1 / 4 := by
    rw [hx]
    norm_num
    linarith
  have h2 := Real.abs_exp_sub_one_sub_id_le (x := x) (by rw [abs_of_nonneg hx0]; linarith)
  have h3 : x ^ 2 ≤ 1 / 4 * x := by rw [sq]; exact mul_le_mul_of_nonneg_right hx1 hx0
  have h4 := (abs_le.1 h2).2
  have h5 : 5 / 4 * x ≤ ((k : ℝ) + 11) / 2 ^ 23 := by
    rw [hx]
    norm_num
    linarith
  linarith

/-- C109 in round figures: with values up to 2^40, fewer than 2^31 values and at most 2^20 subbands nothing overflows, and the relative error is at most
`(k + 11) / 2^23`. -/
theorem C109_distance_relative (r : Rounding) (hr : r.IEEE) (sq : ℝ → ℝ) (hsq : ∀ t, |sq t - t ^ 2| ≤ 1 / 2 ^ 52 * t ^ 2) (order : ℕ → ℕ → SumOrder) (a b : Buffer F32)
    (h : SameForm (numbers a) (numbers b)) (hs : a.params.steps = b.params.steps) (hc : CountableSamples a.params)
    (hn : a.params.signalNumber * a.params.shape.prod < 2 ^ 53) (ha : FiniteWithin (2 ^ 40) a) (hb : FiniteWithin (2 ^ 40) b) (k : ℕ)
    (ho : OrdersFor order k a.decs) (hk : k ≤ 2 ^ 21) (hS : bandCount a.decs ≤ 2 ^ 20) (hV : valueCount a.decs ≤ 2 ^ 31) :
    ∃ d D : ℝ, floatDistance r sq order a b = .ok (some d) ∧ distance (numbers a) (numbers b) = .ok (.val D) ∧ 0 ≤ d ∧
      |d - D| ≤ ((k : ℝ) + 11) / 2 ^ 23 * D +
        1 / 2 ^ 148 * (((valueCount a.decs : ℝ) + bandCount a.decs) / (a.params.signalNumber * a.params.shape.prod : ℕ) + 1) := by
  have hg := growth_le hk hS
  have hkR : (k : ℝ) ≤ 2097152 := by exact_mod_cast hk
  have hg2 : roundGrowth k (bandCount a.decs) ≤ 2 := by
    refine hg.trans ?_
    norm_num
    linarith
  obtain ⟨d, D, d1, d2, d3, d4⟩ := C109_distance r hr sq hsq order a b h hs hc hn (2 ^ 40) ha hb k ho (by
    have hSR : (bandCount a.decs : ℝ) ≤ 1048576 := by exact_mod_cast hS
    have hVR : (valueCount a.decs : ℝ) ≤ 2147483648 := by exact_mod_cast hV
    refine (mul_le_mul hg2 (mul_le_mul_of_nonneg_right (show _ ≤ (2 : ℝ) ^ 32 by norm_num; linarith) (by positivity)) (by positivity)
      (by norm_num)).trans ?_
    simp only [maxFloat]
    norm_num)
  refine ⟨d, D, d1, d2, d3, d4.trans (add_le_add (mul_le_mul_of_nonneg_right (by linarith) ?_) ?_)⟩
  · rw [C37_distance_formula _ _ h hc hs] at d2
    cases d2
    exact div_nonneg (sqDistAll_nonneg h.2.2) (by positivity)
  · set y : ℝ := ((valueCount a.decs : ℝ) + bandCount a.decs) / (a.params.signalNumber * a.params.shape.prod : ℕ) + 1
    have hy : 0 ≤ y := by positivity
    have := mul_le_mul_of_nonneg_right hg2 (show 0 ≤ 1 / 2 ^ 149 * y by positivity)
    refine this.trans (le_of_eq ?_)
    rw [← mul_assoc]
    norm_num

/-- C109. The computed distance of a buffer of finite values to itself is exactly 0. -/
theorem C109_distance_self (r : Rounding) (hr : r.IEEE) (sq : ℝ → ℝ) (hsq : sq 0 = 0) (order : ℕ → ℕ → SumOrder) (a : Buffer F32) (hc : CountableSamples a.params)
    (ha : AllFinite a) (k : ℕ) (ho : OrdersFor order k a.decs) : floatDistance r sq order a a = .ok (some 0) := by
  have hS : SameSizes a.decs a.decs := List.forall₂_same.2 fun c _ => List.forall₂_same.2 fun m _ => ⟨rfl, rfl⟩
  refine distance_zero hr hsq hS rfl hc fun ch hch l hl => norm_zero hr ⟨rfl, rfl⟩ (fun q hq => ?_) fun h0 => ?_
  · obtain ⟨c, c1, c2⟩ := band_mem hch hl
    have hcols : 0 < (band a.decs ch l).cols := Nat.pos_of_ne_zero (by rintro h; rw [h] at hq; omega)
    have hf : finiteBits ((band a.decs ch l).data.getD q 0#32) := by
      rw [data_entry]
      exact ha c c1 _ c2 _ (Nat.div_lt_of_lt_mul (by rwa [Nat.mul_comm] at hq)) _ (Nat.mod_lt _ hcols)
    have e : floatOf r ((band a.decs ch l).data.getD q 0#32) = Ov.of ((number ((band a.decs ch l).data.getD q 0#32) : ℚ) : ℝ) := if_pos hf
    rw [e]
    generalize ((number ((band a.decs ch l).data.getD q 0#32) : ℚ) : ℝ) = x
    have e2 : (Ov.of x + -Ov.of x : Ov r.toFloat maxFloat) = Ov.of 0 := by
      show Ov.round r.toFloat maxFloat (x + -x) = _
      unfold Ov.round
      rw [add_neg_cancel, nearest_zero hr.1]
      exact if_pos (by rw [abs_zero]; simp only [maxFloat]; norm_num)
    rw [e2]
    exact ov_zeros_mul hr
  · obtain ⟨c, c1, c2⟩ := band_some hch hl
    exact (ho ch l c _ c1 c2 h0).1

/-- C109. The computed distance does not depend on the order of the two buffers, whatever the values, if rounding treats both signs alike. -/
theorem C109_distance_symmetric (r : Rounding) (hodd : ∀ x, r.toFloat (-x) = -r.toFloat x) (sq : ℝ → ℝ) (order : ℕ → ℕ → SumOrder) (a b : Buffer F32)
    (h : SameForm (numbers a) (numbers b)) : floatDistance r sq order a b = floatDistance r sq order b a :=
  floatDistance_symm hodd (sameSizes_numbers h.2.2) h.1 h.2.1

theorem tiny_zero {p : ℕ} {emin : ℤ} {f : ℝ → ℝ} (hf : RoundsToNearest (FloatNumbers p emin) f) {x : ℝ} (hx : 2 * |x| < (2 : ℝ) ^ emin) : f x = 0 := by
  have h0 := (hf x).2 0 ⟨0, emin, by simp, le_rfl, by simp⟩
  rw [zero_sub, abs_neg] at h0
  obtain ⟨m, e, h1, h2, h3⟩ := (hf x).1
  have h4 : |f x| < (2 : ℝ) ^ emin := by
    have := abs_sub_abs_le_abs_sub (f x) x
    linarith
  rcases eq_or_ne m 0 with rfl | hm
  · rw [h3]; simp
  · exfalso
    have h5 : (1 : ℝ) ≤ |(m : ℝ)| := by
      rw [← Int.cast_abs]
      exact_mod_cast Int.one_le_abs hm
    have h6 : (2 : ℝ) ^ emin ≤ 2 ^ e := zpow_le_zpow_right₀ (by norm_num) h2
    have h7 : |f x| = |(m : ℝ)| * 2 ^ e := by rw [h3, abs_mul, abs_of_pos (show (0 : ℝ) < 2 ^ e by positivity)]
    have h8 : 1 * (2 : ℝ) ^ e ≤ |(m : ℝ)| * 2 ^ e := mul_le_mul_of_nonneg_right h5 (by positivity)
    linarith

/-- One sample, no decomposition. -/
def oneValue (x : F32) : Buffer F32 := ⟨⟨[1], 1, 0, 0⟩, [[Mat.ofFn 1 1 fun _ _ => x]]⟩

/-- C109. Unlike the exact distance (C37) the computed one can be 0 for different buffers: the square of a small difference is rounded to 0. -/
theorem C109_zero_for_different : ∃ a b : Buffer F32, SameForm (numbers a) (numbers b) ∧ a.params.steps = b.params.steps ∧ CountableSamples a.params ∧
    AllFinite a ∧ AllFinite b ∧ (∃ D > 0, distance (numbers a) (numbers b) = .ok (.val D)) ∧
    ∀ (r : Rounding), r.IEEE → ∀ (sq : ℝ → ℝ), sq 0 = 0 → ∀ (order : ℕ → ℕ → SumOrder) (k : ℕ), OrdersFor order k a.decs →
      floatDistance r sq order a b = .ok (some 0) := by
  have n1 : ((number 1#32 : ℚ) : ℝ) = (2 : ℝ) ^ (-149 : ℤ) := by
    have : number 1#32 = (2 : ℚ) ^ (-149 : ℤ) := by simp [number, magnitude]
    rw [this]
    push_cast
    rfl
  have n0 : ((number 0#32 : ℚ) : ℝ) = 0 := by simp [number, magnitude]
  have hform : SameForm (numbers (oneValue 0#32)) (numbers (oneValue 1#32)) := ⟨rfl, rfl, .cons (.cons ⟨rfl, rfl⟩ .nil) .nil⟩
  have hcount : CountableSamples (numbers (oneValue 0#32)).params := by simp [CountableSamples, numbers, oneValue]
  have hfin : ∀ x : F32, expBits x < 255 → AllFinite (oneValue x) := by
    intro x hx c hc m hm i hi j hj
    simp only [oneValue, List.mem_singleton] at hc
    subst hc
    rw [List.mem_singleton] at hm
    subst hm
    simp only [Mat.rows_ofFn, Mat.cols_ofFn] at hi hj
    rw [Mat.get_ofFn hi hj]
    exact hx
  refine ⟨oneValue 0#32, oneValue 1#32, hform, rfl, hcount, hfin _ (by decide), hfin _ (by decide), ?_, ?_⟩
  · refine ⟨_, ?_, C37_distance_formula _ _ hform hcount rfl⟩
    refine div_pos ?_ (by simp [numbers, oneValue])
    have : sqDistAll (numbers (oneValue 0#32)).decs (numbers (oneValue 1#32)).decs = ((2 : ℝ) ^ (-149 : ℤ)) ^ 2 := by
      have g : ∀ x : F32, (matNumbers (Mat.ofFn 1 1 fun _ _ => x)).get 0 0 = ((number x : ℚ) : ℝ) := fun _ => rfl
      have e : sqDistAll (numbers (oneValue 0#32)).decs (numbers (oneValue 1#32)).decs =
          (0 + (((matNumbers (Mat.ofFn 1 1 fun _ _ => (0#32 : F32))).get 0 0 - (matNumbers (Mat.ofFn 1 1 fun _ _ => (1#32 : F32))).get 0 0) ^ 2 + 0)) := by
        simp [sqDistAll, numbers, oneValue, sqDist, matNumbers]
      rw [e, g, g, n0, n1]
      ring
    rw [this]
    positivity
  · intro r hr sq hsq order k ho
    refine distance_zero hr hsq (sameSizes_numbers hform.2.2) rfl hcount fun ch hch l hl => ?_
    obtain ⟨c, c1, c2⟩ := band_some hch hl
    have hch' : ch = 0 := by simpa [oneValue] using hch
    subst hch'
    have hl' : l = 0 := by simpa [oneValue, bands] using hl
    subst hl'
    have e0 : band (oneValue 0#32).decs 0 0 = Mat.ofFn 1 1 fun _ _ => 0#32 := rfl
    have e1 : band (oneValue 1#32).decs 0 0 = Mat.ofFn 1 1 fun _ _ => 1#32 := rfl
    rw [e0] at c2 ⊢
    rw [e1]
    refine norm_zero (m := Mat.ofFn 1 1 fun _ _ => 0#32) (n := Mat.ofFn 1 1 fun _ _ => 1#32) hr ⟨rfl, rfl⟩ (fun q hq => ?_) fun h0 => (ho 0 0 c _ c1 c2 h0).1
    have hq : q = 0 := by simpa using hq
    subst hq
    show (floatOf r 1#32 + -floatOf r 0#32) * (floatOf r 1#32 + -floatOf r 0#32) = _
    have f1 : floatOf r 1#32 = Ov.of ((2 : ℝ) ^ (-149 : ℤ)) := by rw [← n1]; exact if_pos (by unfold finiteBits; decide)
    have f0 : floatOf r 0#32 = Ov.of 0 := by rw [← n0]; exact if_pos (by unfold finiteBits; decide)
    have e2 : floatOf r 1#32 + -floatOf r 0#32 = Ov.of ((2 : ℝ) ^ (-149 : ℤ)) := by
      rw [f1, f0]
      show Ov.round r.toFloat maxFloat ((2 : ℝ) ^ (-149 : ℤ) + -0) = _
      unfold Ov.round
      rw [neg_zero, add_zero, nearest_self hr.1 ⟨1, -149, by norm_num, le_rfl, by norm_num⟩]
      exact if_pos (by rw [abs_of_pos (by positivity)]; simp only [maxFloat]; norm_num)
    rw [e2]
    show Ov.round r.toFloat maxFloat ((2 : ℝ) ^ (-149 : ℤ) * (2 : ℝ) ^ (-149 : ℤ)) = _
    unfold Ov.round
    rw [tiny_zero hr.1 (by rw [abs_of_pos (by positivity)]; norm_num)]
    exact if_pos (by rw [abs_zero]; simp only [maxFloat]; norm_num)

/-- C109. Every entry of `EnergyDistribution` differs from the energy of its subband by at most a share `(1 + 2^-24) (1 + 2^-52)^k - 1` and about two
units of the least number; the squares themselves are exact. -/
theorem C109_energy (r : Rounding) (hr : r.IEEE) (order : ℕ → ℕ → SumOrder) (b : Buffer F32) (hb : b.isEmpty = false) (ha : AllFinite b) :
    (floatEnergies r order b).length = b.decs.length ∧
    ∀ (ch : ℕ) (c : List (Mat F32)), b.decs[ch]? = some c → ∃ es, (floatEnergies r order b)[ch]? = some es ∧ es.length = c.length ∧
      ∀ (l : ℕ) (m : Mat F32), c[l]? = some m → m.rows * m.cols < 2 ^ 64 → ∀ k : ℕ,
        (∀ n, n = (m.data.filter fun x => number x != 0).length → n ≠ 0 → (order ch l).Covers n ∧ (order ch l).depth ≤ k) →
        (1 + 1 / 2 ^ 24) * (1 + 1 / 2 ^ 52) ^ k * (energy (matNumbers m) + 1 / 2 ^ 149) ≤ maxFloat →
        ∃ e : ℝ, es[l]? = some (Ov.of e) ∧ 0 ≤ e ∧
          |e - energy (matNumbers m)| ≤ ((1 + 1 / 2 ^ 24) * (1 + 1 / 2 ^ 52) ^ k - 1) * energy (matNumbers m) +
            (1 + 1 / 2 ^ 24) * (1 + 1 / 2 ^ 52) ^ k * (1 / 2 ^ 149) := by
  unfold floatEnergies
  rw [if_neg (by simp [hb])]
  refine ⟨List.length_mapIdx, fun ch c hc => ?_⟩
  refine ⟨c.mapIdx fun i m => floatEnergy r (order ch i) m, by rw [List.getElem?_mapIdx, hc]; rfl, List.length_mapIdx, fun l m hm hsize k ho hΩ => ?_⟩
  have hcm := List.mem_of_getElem? hc
  have hmm := List.mem_of_getElem? hm
  obtain ⟨e, e1, e2⟩ := energy_err hr (fun i hi j hj => ha c hcm m hmm i hi j hj) (o := order ch l) (k := k) (fun h => ho _ rfl h) hsize hΩ
  refine ⟨e, ?_, e2.1, ?_⟩
  · rw [List.getElem?_mapIdx, hm]
    exact congrArg some e1
  · have := e2.2
    rw [mul_comm (1 / 2 ^ 149)] at this
    exact this

/-! ### cases that meet the hypotheses -/

/-- Adding up from the first to the last term. -/
def leftToRight : ℕ → SumOrder
  | 0 => .term 0
  | n + 1 => .plus (leftToRight n) (.term (n + 1))

theorem leftToRight_covers (n : ℕ) : (leftToRight n).Covers (n + 1) ∧ (leftToRight n).depth = n := by
  induction n with
  | zero => exact ⟨List.Perm.refl _, rfl⟩
  | succ n ih =>
    refine ⟨?_, ?_⟩
    · show (leftToRight n).terms ++ [n + 1] |>.Perm (List.range (n + 1 + 1))
      rw [List.range_succ]
      exact ih.1.append_right _
    · show max (leftToRight n).depth 0 + 1 = n + 1
      rw [ih.2, Nat.max_zero]

/-- There is an order for every number of terms. -/
theorem order_exists {n : ℕ} (hn : 0 < n) : ∃ o : SumOrder, o.Covers n ∧ o.depth + 1 = n :=
  ⟨leftToRight (n - 1), by have := (leftToRight_covers (n - 1)).1; rwa [Nat.sub_add_cancel hn] at this, by rw [(leftToRight_covers (n - 1)).2]; omega⟩

/-- A picture without decomposition. -/
def flat (m : Mat F32) : Buffer F32 := ⟨⟨[m.rows, m.cols], 1, 0, 0⟩, [[m]]⟩

/-- The values of a picture are finite and at most `M` in size. -/
def MatWithin (M : ℝ) (m : Mat F32) : Prop := ∀ i < m.rows, ∀ j < m.cols, finiteBits (m.get i j) ∧ |((number (m.get i j) : ℚ) : ℝ)| ≤ M

theorem flat_within {m : Mat F32} {M : ℝ} (hf : MatWithin M m) : FiniteWithin M (flat m) := by
  intro c hc q hq
  simp only [flat, List.mem_singleton] at hc
  subst hc
  rw [List.mem_singleton] at hq
  subst hq
  exact hf

theorem flat_orders {m : Mat F32} {o : SumOrder} {k : ℕ} (h1 : o.Covers (m.rows * m.cols)) (h2 : o.depth ≤ k) : OrdersFor (fun _ _ => o) k (flat m).decs := by
  intro ch l c q hc hq _
  have hc := List.mem_of_getElem? hc
  simp only [flat, List.mem_singleton] at hc
  subst hc
  have hq := List.mem_of_getElem? hq
  rw [List.mem_singleton] at hq
  subst hq
  exact ⟨h1, h2⟩

/-- Two pictures of 256 × 256 values between -1000 and 1000, added up in some order: the computed distance is correct to 0.8 percent. -/
example (r : Rounding) (hr : r.IEEE) (m n : Mat F32) (hm : m.rows = 256 ∧ m.cols = 256) (hn : n.rows = 256 ∧ n.cols = 256) (h1 : MatWithin 1000 m)
    (h2 : MatWithin 1000 n) : ∃ (o : SumOrder) (d D : ℝ), floatDistance r (fun t => t ^ 2) (fun _ _ => o) (flat m) (flat n) = .ok (some d) ∧
      distance (numbers (flat m)) (numbers (flat n)) = .ok (.val D) ∧ 0 ≤ d ∧ |d - D| ≤ 8 / 1000 * D + 1 / 2 ^ 146 := by
  obtain ⟨o, o1, o2⟩ := order_exists (n := m.rows * m.cols) (by rw [hm.1, hm.2]; norm_num)
  have hN : m.rows * m.cols = 65536 := by rw [hm.1, hm.2]
  have big : ∀ {q : Mat F32}, MatWithin 1000 q → MatWithin (2 ^ 40) q := fun h i hi j hj => ⟨(h i hi j hj).1, (h i hi j hj).2.trans (by norm_num)⟩
  have hform : SameForm (numbers (flat m)) (numbers (flat n)) :=
    ⟨by simp [numbers, flat, hm, hn], rfl, .cons (.cons ⟨hm.1.trans hn.1.symm, hm.2.trans hn.2.symm⟩ .nil) .nil⟩
  have hcount : CountableSamples (flat m).params := by simp [CountableSamples, flat, hm]
  have e1 : valueCount (flat m).decs = 65536 := by simp [valueCount, flat, hm]
  have e2 : bandCount (flat m).decs = 1 := by simp [bandCount, flat]
  have e3 : (flat m).params.signalNumber * (flat m).params.shape.prod = 65536 := by simp [flat, hm]
  obtain ⟨d, D, k1, k2, k3, k4⟩ := C109_distance_relative r hr (fun t => t ^ 2) (fun t => by rw [sub_self, abs_zero]; positivity) (fun _ _ => o) (flat m) (flat n)
    hform rfl hcount (by rw [e3]; norm_num) (flat_within (big h1)) (flat_within (big h2)) 65535 (flat_orders o1 (by omega)) (by norm_num)
    (by rw [e2]; norm_num) (by rw [e1]; norm_num)
  refine ⟨o, d, D, k1, k2, k3, k4.trans (add_le_add (mul_le_mul_of_nonneg_right (by norm_num) ?_) ?_)⟩
  · rw [C37_distance_formula _ _ hform hcount rfl] at k2
    cases k2
    exact div_nonneg (sqDistAll_nonneg hform.2.2) (by positivity)
  · rw [e1, e2, e3]
    norm_num

theorem pow_small (k : ℕ) (hk : k ≤ 65535) : (1 + 1 / 2 ^ 52 : ℝ) ^ k ≤ 1 + 1 / 2 ^ 35 := by
  have h1 : (1 + 1 / 2 ^ 52 : ℝ) ^ k ≤ Real.exp (k * (1 / 2 ^ 52)) := by
    rw [Real.exp_nat_mul]
    exact pow_le_pow_left₀ (by positivity) (by linarith [Real.add_one_le_exp (1 / 2 ^ 52 : ℝ)]) _
  refine h1.trans ?_
  have hkR : (k : ℝ) ≤ 65535 := by exact_mod_cast hk
  set x : ℝ := k * (1 / 2 ^ 52) with hx
  have x0 : 0 ≤ x := by positivity
  have x1 : x ≤ 65535 / 2 ^ 52 := by rw [hx]; norm_num; linarith
  have h2 := Real.abs_exp_sub_one_sub_id_le (x := x) (by rw [abs_of_nonneg x0]; exact x1.trans (by norm_num))
  have h3 := (abs_le.1 h2).2
  have h4 : x ^ 2 ≤ (65535 / 2 ^ 52) ^ 2 := pow_le_pow_left₀ x0 x1 2
  norm_num at h4 x1 ⊢
  linarith

/-- The energy of such a picture is correct to one part in eight million. -/
example (r : Rounding) (hr : r.IEEE) (m : Mat F32) (hm : m.rows = 256 ∧ m.cols = 256) (h1 : MatWithin 1000 m) :
    ∃ (o : SumOrder) (es : List (Ov r.toFloat maxFloat)) (e : ℝ), (floatEnergies r (fun _ _ => o) (flat m))[0]? = some es ∧ es[0]? = some (Ov.of e) ∧
      |e - energy (matNumbers m)| ≤ 1 / 8000000 * energy (matNumbers m) + 1 / 2 ^ 148 := by
  have hN : m.rows * m.cols = 65536 := by rw [hm.1, hm.2]
  obtain ⟨k, hk⟩ : ∃ k, k = 65535 := ⟨_, rfl⟩
  obtain ⟨o, ho⟩ : ∃ o : SumOrder, (m.data.filter fun x => number x != 0).length ≠ 0 → o.Covers (m.data.filter fun x => number x != 0).length ∧ o.depth ≤ k := by
    by_cases h : (m.data.filter fun x => number x != 0).length = 0
    · exact ⟨.term 0, fun h' => absurd h h'⟩
    · obtain ⟨o, o1, o2⟩ := order_exists (Nat.pos_of_ne_zero h)
      refine ⟨o, fun _ => ⟨o1, ?_⟩⟩
      have := List.length_filter_le (fun x => number x != 0) m.data
      rw [m.wf, hN] at this
      omega
  have e0 : 0 ≤ energy (matNumbers m) := sum_nonneg fun _ _ => sum_nonneg fun _ _ => mul_self_nonneg _
  have hE : energy (matNumbers m) ≤ 65536 * 1000000 := by
    have row : ∀ i ∈ range m.rows, ∑ j ∈ range m.cols, (matNumbers m).get i j * (matNumbers m).get i j ≤ 256 * 1000000 := fun i hi => by
      have := sum_le_card_nsmul (range m.cols) (fun j => (matNumbers m).get i j * (matNumbers m).get i j) 1000000 (fun j hj => by
        unfold matNumbers
        rw [Mat.get_map _ _ (mem_range.1 hi) (mem_range.1 hj), ← sq, ← sq_abs]
        exact (pow_le_pow_left₀ (abs_nonneg _) (h1 i (mem_range.1 hi) j (mem_range.1 hj)).2 2).trans (by norm_num))
      simpa [hm.2] using this
    have := sum_le_card_nsmul (range m.rows) _ _ row
    rw [card_range, nsmul_eq_mul, hm.1] at this
    refine le_trans (le_of_eq ?_) (this.trans (by norm_num))
    unfold energy
    rw [show (matNumbers m).rows = 256 from hm.1, show (matNumbers m).cols = m.cols from rfl]
  have hg := pow_small k (by omega)
  generalize hp : (1 + 1 / 2 ^ 52 : ℝ) ^ k = p at hg
  have p0 : 0 ≤ p := by rw [← hp]; positivity
  have hg2 : (1 + 1 / 2 ^ 24 : ℝ) * p ≤ 1 + 1 / 8000000 := (mul_le_mul_of_nonneg_left hg (by norm_num)).trans (by norm_num)
  obtain ⟨_, h⟩ := C109_energy r hr (fun _ _ => o) (flat m) (by simp [Buffer.isEmpty, flat, hN]) (fun c hc q hq i hi j hj => (flat_within h1 c hc q hq i hi j hj).1)
  obtain ⟨es, k1, _, k2⟩ := h 0 [m] rfl
  obtain ⟨e, j1, _, j2⟩ := k2 0 m rfl (by rw [hN]; norm_num) k (fun n hn hn0 => by
      subst hn
      exact ho hn0) (by
      rw [hp]
      refine (mul_le_mul hg2 (add_le_add hE le_rfl) (by positivity) (by norm_num)).trans ?_
      simp only [maxFloat]
      norm_num)
  rw [hp] at j2
  refine ⟨o, es, e, k1, j1, j2.trans (add_le_add (mul_le_mul_of_nonneg_right (by linarith) e0) ?_)⟩
  refine (mul_le_mul_of_nonneg_right hg2 (by positivity)).trans ?_
  norm_num

end WB.Props
