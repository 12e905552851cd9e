import Verif.Model.FloatBits
import Verif.Proof.Truncate
import Verif.Props.RoundingHalves

/-! Bit patterns as numbers with rounding. -/

namespace WB

open Finset Spec Props

/-! ### Every number of the format has a pattern -/

theorem magnitude_max {n : ℕ} (h : n / 2 ^ 23 < 255) : (magnitude n : ℝ) ≤ maxFloat := by
  have hn : n ≤ 255 * 2 ^ 23 - 1 := by omega
  have h1 : (magnitude n : ℝ) ≤ (magnitude (255 * 2 ^ 23 - 1) : ℚ) := by exact_mod_cast magnitude_mono hn
  refine h1.trans (le_of_eq ?_)
  have : magnitude (255 * 2 ^ 23 - 1) = (2 ^ 24 - 1) * 2 ^ 104 := by
    unfold magnitude
    rw [if_neg (by norm_num)]
    norm_num
  rw [this]
  unfold maxFloat
  push_cast
  norm_num

theorem number_le_max {x : F32} (h : finiteBits x) : |(number x : ℝ)| ≤ maxFloat := by
  have e : |(number x : ℝ)| = (magnitude (x.toNat % 2 ^ 31) : ℚ) := by rw [← abs_number]; push_cast; rfl
  rw [e]
  refine magnitude_max ?_
  have := x.isLt
  unfold finiteBits expBits at h
  omega

/-- A sign and 31 bits. -/
theorem number_mk {n : ℕ} (h : n / 2 ^ 23 < 255) (s : Bool) :
    ∃ x : F32, finiteBits x ∧ number x = (if s then -1 else 1) * magnitude n := by
  have hn : n < 255 * 2 ^ 23 := by omega
  cases s
  · refine ⟨BitVec.ofNat 32 n, ?_, ?_⟩
    · unfold finiteBits expBits
      rw [BitVec.toNat_ofNat]
      omega
    · unfold number
      rw [BitVec.toNat_ofNat, Nat.mod_eq_of_lt (show n < 2 ^ 32 by omega), if_pos (by omega), Nat.mod_eq_of_lt (by omega)]
      simp
  · refine ⟨BitVec.ofNat 32 (2 ^ 31 + n), ?_, ?_⟩
    · unfold finiteBits expBits
      rw [BitVec.toNat_ofNat]
      omega
    · unfold number
      rw [BitVec.toNat_ofNat, Nat.mod_eq_of_lt (show 2 ^ 31 + n < 2 ^ 32 by omega), if_neg (by omega),
        show (2 ^ 31 + n) % 2 ^ 31 = n by omega]
      simp

theorem magnitude_surj (k : ℕ) : ∀ (n : ℕ) (e : ℤ), e = (k : ℤ) - 149 → n < 2 ^ 24 → (n : ℝ) * 2 ^ e ≤ maxFloat →
    ∃ m : ℕ, m / 2 ^ 23 < 255 ∧ (magnitude m : ℝ) = (n : ℝ) * 2 ^ e := by
  induction k with
  | zero =>
    intro n e he hn _
    refine ⟨n, by omega, ?_⟩
    have he : e = -149 := by simpa using he
    subst he
    unfold magnitude
    by_cases h0 : n / 2 ^ 23 = 0
    · rw [if_pos h0]; push_cast; rfl
    · rw [if_neg h0, show n / 2 ^ 23 = 1 by omega, show n % 2 ^ 23 + 2 ^ 23 = n by omega]
      push_cast
      norm_num
  | succ k ih =>
    intro n e he hn hmax
    by_cases h : n < 2 ^ 23
    · have e2 : (n : ℝ) * 2 ^ e = ((2 * n : ℕ) : ℝ) * 2 ^ (e - 1) := by
        rw [zpow_sub_one₀ (by norm_num)]; push_cast; ring
      rw [e2] at hmax ⊢
      exact ih (2 * n) (e - 1) (by push_cast at he; omega) (by omega) hmax
    · have hk : k + 2 < 255 := by
        by_contra hc
        have he' : (105 : ℤ) ≤ e := by push_cast at he; omega
        have h1 : (2 : ℝ) ^ (105 : ℤ) ≤ 2 ^ e := zpow_le_zpow_right₀ (by norm_num) he'
        have h2 : (2 ^ 23 : ℝ) ≤ n := by exact_mod_cast (not_lt.1 h)
        have h3 : (2 ^ 23 : ℝ) * 2 ^ (105 : ℤ) ≤ n * 2 ^ e := mul_le_mul h2 h1 (by positivity) (by positivity)
        have h4 := h3.trans hmax
        unfold maxFloat at h4
        norm_num at h4
      refine ⟨(k + 2) * 2 ^ 23 + (n - 2 ^ 23), ?_, ?_⟩
      · omega
      · unfold magnitude
        have q1 : ((k + 2) * 2 ^ 23 + (n - 2 ^ 23)) / 2 ^ 23 = k + 2 := by omega
        have q2 : ((k + 2) * 2 ^ 23 + (n - 2 ^ 23)) % 2 ^ 23 + 2 ^ 23 = n := by omega
        rw [q1, q2, if_neg (by omega)]
        have : ((k + 2 : ℕ) : ℤ) - 150 = e := by push_cast at he ⊢; omega
        rw [this]
        push_cast
        rfl

/-- Every number of the format that is not too large has a bit pattern. -/
theorem number_surj {v : ℝ} (hv : v ∈ FloatNumbers 24 (-149)) (hm : |v| ≤ maxFloat) : ∃ x : F32, finiteBits x ∧ (number x : ℝ) = v := by
  obtain ⟨n, e, h1, h2, rfl⟩ := hv
  obtain ⟨k, hk⟩ := Int.eq_ofNat_of_zero_le (show 0 ≤ e + 149 by omega)
  have ha : |(n : ℝ) * 2 ^ e| = (n.natAbs : ℝ) * 2 ^ e := by
    rw [abs_mul, abs_of_pos (show (0 : ℝ) < 2 ^ e by positivity), Nat.cast_natAbs]; push_cast; rfl
  rw [ha] at hm
  obtain ⟨m, m1, m2⟩ := magnitude_surj k n.natAbs e (by omega) (by rw [Int.abs_eq_natAbs] at h1; exact_mod_cast h1) hm
  obtain ⟨x, x1, x2⟩ := number_mk m1 (decide (n < 0))
  refine ⟨x, x1, ?_⟩
  rw [x2]
  push_cast
  rw [m2]
  rcases lt_or_ge n 0 with h | h
  · rw [decide_eq_true h, if_pos rfl, Nat.cast_natAbs, abs_of_neg h]; push_cast; ring
  · rw [decide_eq_false (by omega), if_neg (by simp), Nat.cast_natAbs, abs_of_nonneg h]; ring

/-- Operations as IEEE 754 prescribes them exist for every rounding to nearest. -/
theorem floatOps_exist {r : Rounding} (hr : r.IEEE) : ∃ o : FloatOps, o.Correct r := by
  classical
  have enc : ∀ v : ℝ, ∃ x : F32, |r.toFloat v| ≤ maxFloat → finiteBits x ∧ (number x : ℝ) = r.toFloat v := by
    intro v
    by_cases h : |r.toFloat v| ≤ maxFloat
    · obtain ⟨x, hx⟩ := number_surj (hr.1 v).1 h
      exact ⟨x, fun _ => hx⟩
    · exact ⟨0, fun h' => absurd h' h⟩
  choose f hf using enc
  have neg : ∀ x : F32, ∃ y : F32, finiteBits x → finiteBits y ∧ number y = -number x := by
    intro x
    by_cases h : finiteBits x
    · have hx := x.isLt
      have hq : x.toNat % 2 ^ 31 / 2 ^ 23 < 255 := by unfold finiteBits expBits at h; omega
      obtain ⟨y, y1, y2⟩ := number_mk hq (decide (x.toNat / 2 ^ 31 = 0))
      refine ⟨y, fun _ => ⟨y1, ?_⟩⟩
      rw [y2]
      unfold number
      by_cases h0 : x.toNat / 2 ^ 31 = 0
      · rw [if_pos h0, decide_eq_true h0]; simp
      · rw [if_neg h0, decide_eq_false h0]; simp
    · exact ⟨0, fun h' => absurd h' h⟩
  choose g hg using neg
  refine ⟨⟨fun x y => f ((number x : ℝ) + number y), fun x y => f ((number x : ℝ) * number y), g, f,
    fun b s x => f ((number x : ℝ) / (if b then 2 else Real.sqrt 2) ^ s)⟩, ⟨fun x y _ _ h => hf _ h, fun x y _ _ h => hf _ h, hg, hf, ?_⟩⟩
  intro b s x hx
  have hge := gain_ge_one b s
  have h1 : |(number x : ℝ) / (if b = true then (2 : ℝ) else Real.sqrt 2) ^ s| ≤ maxFloat := by
    rw [abs_div, abs_of_pos (a := (if b = true then (2 : ℝ) else Real.sqrt 2) ^ s) (by linarith)]
    exact (div_le_self (abs_nonneg _) hge).trans (number_le_max hx)
  obtain ⟨h2, h3⟩ := hf _ (toFloat_le hr h1)
  refine ⟨h2, ?_⟩
  have := rounds_std (by norm_num) hr.1 ((number x : ℝ) / (if b = true then (2 : ℝ) else Real.sqrt 2) ^ s)
  have e1 : (2 : ℝ) ^ (-((24 : ℕ) : ℤ)) = 1 / 2 ^ 24 := by norm_num
  have e2 : (2 : ℝ) ^ ((-149 : ℤ) - 1) = 1 / 2 ^ 150 := by norm_num
  rw [e1, e2] at this
  show |(number (f _) : ℝ) - _| ≤ _
  rw [h3]
  exact this.trans (add_le_add (mul_le_mul_of_nonneg_right (by norm_num) (abs_nonneg _)) (by norm_num))

/-! ### Bit patterns as scalars -/

theorem std_float {r : Rounding} (hr : r.IEEE) (v : ℝ) : |r.toFloat v - v| ≤ 1 / 2 ^ 24 * |v| + 1 / 2 ^ 150 := by
  have := rounds_std (by norm_num) hr.1 v
  have e1 : (2 : ℝ) ^ (-((24 : ℕ) : ℤ)) = 1 / 2 ^ 24 := by norm_num
  have e2 : (2 : ℝ) ^ ((-149 : ℤ) - 1) = 1 / 2 ^ 150 := by norm_num
  rwa [e1, e2] at this

/-- Bit patterns with correct operations. -/
noncomputable def bitsStepwise {r : Rounding} (hr : r.IEEE) {o : FloatOps} (ho : o.Correct r) :
    Stepwise (Bits o) (1 / 2 ^ 24) (1 / 2 ^ 150) maxFloat where
  val := Bits.num
  fin := Bits.Finite
  zero := by
    constructor
    · show expBits 0#32 < 255
      decide
    · show ((number 0#32 : ℚ) : ℝ) = 0
      rw [show number 0#32 = 0 by norm_num [number, magnitude]]
      simp
  neg x hx := by
    obtain ⟨h1, h2⟩ := ho.neg x hx
    refine ⟨h1, ?_⟩
    show ((number (o.neg x) : ℚ) : ℝ) = -((number x : ℚ) : ℝ)
    rw [h2]; push_cast; rfl
  add x y hx hy h := by
    obtain ⟨h1, h2⟩ := ho.add x y hx hy (toFloat_le hr h)
    refine ⟨h1, ?_⟩
    show |((number (o.add x y) : ℚ) : ℝ) - _| ≤ _
    rw [h2]
    exact std_float hr _
  mul x y hx hy h := by
    obtain ⟨h1, h2⟩ := ho.mul x y hx hy (toFloat_le hr h)
    refine ⟨h1, ?_⟩
    show |((number (o.mul x y) : ℚ) : ℝ) - _| ≤ _
    rw [h2]
    exact std_float hr _

/-- Bit patterns with correct operations, as the transform needs them. -/
noncomputable def bitsScalars {r : Rounding} (hr : r.IEEE) {o : FloatOps} (ho : o.Correct r) :
    Scalars (Bits o) (1 / 2 ^ 24) (1 / 2 ^ 150) maxFloat :=
  (bitsStepwise hr ho).scalars (by norm_num) (by norm_num)

theorem ov_round_inv {rnd : ℝ → ℝ} {Ω x y : ℝ} (h : Ov.round rnd Ω x = Ov.of y) : |rnd x| ≤ Ω ∧ rnd x = y := by
  by_cases h1 : |rnd x| ≤ Ω
  · have e : Ov.round rnd Ω x = Ov.of (rnd x) := if_pos h1
    rw [e] at h
    exact ⟨h1, Option.some.inj h⟩
  · have e : Ov.round rnd Ω x = none := if_neg h1
    rw [e] at h
    cases h

/-- Both conversions of a coefficient stay in range. -/
theorem coeff_in_range {r : Rounding} (hr : r.IEEE) {c : ℝ} (hc : 1 / 2 ^ 20 ≤ |c|) (hc2 : |c| ≤ 2) :
    |r.toFloat (r.toDouble c)| ≤ maxFloat ∧
    |r.toFloat (r.toDouble (r.toDouble (Real.sqrt 2) * r.toFloat (r.toDouble c)))| ≤ maxFloat := by
  have h := ov_coeff hr hc hc2
  by_cases h1 : |r.toFloat (r.toDouble c)| ≤ maxFloat
  · refine ⟨h1, ?_⟩
    have e : Ov.round r.toFloat maxFloat (r.toDouble c) = Ov.of (r.toFloat (r.toDouble c)) := if_pos h1
    rw [e] at h
    exact (ov_round_inv h).1
  · have e : Ov.round r.toFloat maxFloat (r.toDouble c) = none := if_neg h1
    rw [e] at h
    cases h

theorem bitsKit_present {r : Rounding} {o : FloatOps} {p : Params} (h : p.wtype ≤ 10) : FilterPresent (bitsKit r o) p := by
  intro h0
  exact (List.length_map _).trans (length_dbCoeffs (by omega) h)

theorem bits_filter {r : Rounding} (hr : r.IEEE) {o : FloatOps} (ho : o.Correct r) {p : Params} (h : p.wtype ≤ 5) (j : ℕ) :
    Bits.Finite ((scalingFilter (bitsKit r o) p).getD j 0) ∧
    Bits.num ((scalingFilter (bitsKit r o) p).getD j 0) = ((scalingFilter (floatKit r) p).getD j 0).val := by
  have e0 : (scalingFilter (bitsKit r o) p) = (dbCoeffs p.wtype).map
      (fun q => (bitsKit r o).mulSqrt2 (o.store (r.toDouble ((q : ℚ) : ℝ)))) := List.map_map
  by_cases hj : j < (dbCoeffs p.wtype).length
  · have hmem : (dbCoeffs p.wtype)[j] ∈ dbCoeffs p.wtype := List.getElem_mem hj
    have hc := (coeff_table ⟨p.wtype, by omega⟩).1 _ hmem
    have hc' : (1 : ℝ) / 2 ^ 20 ≤ |(((dbCoeffs p.wtype)[j] : ℚ) : ℝ)| := by
      have := (Rat.cast_le (K := ℝ)).2 hc
      simpa using this
    have hs := (coeff_table ⟨p.wtype, by omega⟩).2
    have hle : |(dbCoeffs p.wtype)[j]| ≤ ((dbCoeffs p.wtype).map (fun c => |c|)).sum :=
      List.single_le_sum (by simp) _ (List.mem_map.2 ⟨_, hmem, rfl⟩)
    have hc2 : |(((dbCoeffs p.wtype)[j] : ℚ) : ℝ)| ≤ 2 := by
      have := (Rat.cast_le (K := ℝ)).2 ((hle.trans hs).trans (show (142 / 100 : ℚ) ≤ 2 by norm_num))
      simpa using this
    have e2 : ((scalingFilter (floatKit r) p).getD j 0).val =
        r.toFloat (r.toDouble (r.toDouble (Real.sqrt 2) * r.toFloat (r.toDouble (((dbCoeffs p.wtype)[j] : ℚ) : ℝ)))) := by
      simp only [scalingFilter, floatKit, List.getD, List.getElem?_map, List.getElem?_eq_getElem hj, Option.map_some, Option.getD_some]
      rfl
    obtain ⟨i1, i2⟩ := coeff_in_range hr hc' hc2
    obtain ⟨s1, s2⟩ := ho.store _ i1
    rw [← s2] at i2
    obtain ⟨t1, t2⟩ := ho.store _ i2
    have e1 : (scalingFilter (bitsKit r o) p).getD j 0 =
        o.store (r.toDouble (r.toDouble (Real.sqrt 2) * (number (o.store (r.toDouble (((dbCoeffs p.wtype)[j] : ℚ) : ℝ))) : ℝ))) := by
      rw [e0, List.getD, List.getElem?_map, List.getElem?_eq_getElem hj]
      rfl
    rw [e1, e2]
    refine ⟨t1, t2.trans ?_⟩
    rw [s2]
  · have e1 : (scalingFilter (bitsKit r o) p).getD j 0 = 0 := by
      rw [e0, List.getD, List.getElem?_map, List.getElem?_eq_none (by omega)]
      rfl
    have e2 : (scalingFilter (floatKit r) p).getD j 0 = 0 := by simp [scalingFilter, floatKit, List.getD, hj]
    rw [e1, e2]
    exact (bitsScalars hr ho).zero

theorem bits_apF {r : Rounding} (hr : r.IEEE) {o : FloatOps} (ho : o.Correct r) {p : Params} (h : p.wtype ≤ 5) (h0 : p.wtype ≠ 0) :
    ApF (bitsScalars hr ho) ((1 + 1 / 2 ^ 24) ^ 3 - 1) (scaling (bitsKit r o) p) (scaling codeKit p) := by
  have hkR := codeKit_present (p := p) (by omega)
  have hkF := bitsKit_present (r := r) (o := o) (p := p) (by omega)
  refine ⟨by rw [length_scaling hkF h0, length_scaling hkR h0], fun j => ?_⟩
  obtain ⟨e1, e2⟩ := bits_filter hr ho h j
  have k : |_ - (scaling codeKit p).getD j 0| ≤ _ * |(scaling codeKit p).getD j 0| := coeffs_code hr h j
  refine ⟨e1, le_rfl, ?_⟩
  have e3 : (bitsScalars hr ho).val ((scaling (bitsKit r o) p).getD j 0) = _ := e2
  rw [e3]
  generalize (scaling codeKit p).getD j 0 = c at k ⊢
  linarith

theorem bits_coef {r : Rounding} (hr : r.IEEE) {o : FloatOps} (ho : o.Correct r) {p : Params} (hv : ValidParams p) (hw : p.wtype ≤ 5)
    (h0 : p.steps ≠ 0) :
    Coef (bitsScalars hr ho) ((1 + 1 / 2 ^ 24) ^ 3 - 1) (201 / 100) p.wtype (scaling (bitsKit r o) p) (scaling codeKit p) := by
  have hkR := codeKit_present (p := p) (by omega)
  have ht := wavelet_of_steps hv (show 0 < p.steps by omega)
  exact ⟨by norm_num, by norm_num, by norm_num, by omega, bits_apF hr ho hw ht, length_scaling hkR ht, by
    rw [← length_scaling hkR ht, sum_getD_abs]
    exact sum_code hw⟩

theorem bits_gain {r : Rounding} (hr : r.IEEE) {o : FloatOps} (ho : o.Correct r) :
    GainOk (bitsScalars hr ho) (bitsKit r o) (1 / 2 ^ 22) (1 / 2 ^ 149) := fun b s x hx _ => ho.div b s x hx

end WB
