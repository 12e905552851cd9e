import Verif.Proof.SimpleCall
import Verif.Props.Callback
import Verif.Props.FloatDenoise

/-! C128: the simple denoiser with what `std::nth_element` requires, and NaN. -/

namespace WB.Props

open Spec

section
variable (r : Rounding) (hr : r.IEEE) (o : FloatOps) (ho : o.Correct r) (nth1 : List (F32 × ℕ) → ℕ → List (F32 × ℕ))
  (nth2 : List (F32 × ℕ × ℕ) → ℕ → List (F32 × ℕ × ℕ)) (hn : NthPromise o nth1 nth2) (level : F32) (hl : finiteBits level)
  (h0 : (0 : ℝ) ≤ number level) (h1 : (number level : ℝ) ≤ 1)

include hr ho hn hl h0 h1 in
/-- C128: a call of `SimpleDenoiseAlgorithm<float>(level)::Denoise` is defined exactly when there is no NaN among the samples or those that are not
NaN all have the same magnitude. Then it drops at most a share `level` of the samples (up to rounding), and none that is larger than one kept. -/
theorem C128_call :
    (∀ data : List F32, data.length < 2 ^ 32 → (Sortable data →
        ∃ out, simple1Checked o nth1 nth2 level data = .ok out ∧ CutOff o level (Mat.ofCol data) (Mat.ofCol out)) ∧
      (¬ Sortable data → simple1Checked o nth1 nth2 level data = .ub)) ∧
    ∀ data : Mat F32, data.rows * data.cols < 2 ^ 32 → (Sortable data.data →
        ∃ out, simple2Checked o nth1 nth2 level data = .ok out ∧ CutOff o level data out) ∧
      (¬ Sortable data.data → simple2Checked o nth1 nth2 level data = .ub) := by
  constructor
  · intro data hsz
    refine ⟨fun hs => ?_, fun hs => checked1_ub level hs⟩
    obtain ⟨out, cut, r1, r2, r3⟩ := checked1 hr ho hn hl h0 h1 hsz hs
    have e : (Mat.ofCol data).rows * (Mat.ofCol data).cols = data.length := by simp
    exact ⟨out, r1, cut, by rw [e]; exact r2, by rw [e]; exact r3⟩
  · intro data hsz
    refine ⟨fun hs => ?_, fun hs => checked2_ub level hs⟩
    obtain ⟨out, cut, r1, r2, r3⟩ := checked2 hr ho hn hl h0 h1 hsz hs
    exact ⟨out, r1, cut, r2, r3⟩

include hr ho hn hl h0 h1 in
/-- C128: `Decompose` with the simple denoiser, for any samples. It is defined exactly when each detail of the decomposition without denoising can be
sorted; then it succeeds, cuts off the details as `C128_call` says, and leaves the approximations alone. -/
theorem C128_decompose (b : Buffer F32) (hb : WellFormed b) (hw : b.params.wtype ≤ 10) (hch : 0 < b.params.signalNumber)
    (hN : (b.params.shape.map (paddedSide b.params)).prod < 2 ^ 32) (data : List (Mat F32)) (hd : IsSignal b.params data) :
    ∃ plain : Decs F32, Buffer.decompose (α := Bits o) (bitsKit r o) b data nullDenoiser = .ok plain true ∧ plain.length = data.length ∧
      ((∃ x ∈ detailCalls b.params plain, ¬ Sortable x.1.data) →
        Buffer.decomposeWith (α := Bits o) (bitsKit r o) b () data (simpleCallback o nth1 nth2 level) = .ub) ∧
      ((∀ x ∈ detailCalls b.params plain, Sortable x.1.data) → ∃ d : Decs F32, WellFormed (Buffer.mk b.params d) ∧
        Buffer.decomposeWith (α := Bits o) (bitsKit r o) b () data (simpleCallback o nth1 nth2 level) = .ok ((), d) true ∧
        ∀ ch < data.length, ∃ c n, d[ch]? = some c ∧ plain[ch]? = some n ∧
          (∀ t < b.params.steps * detailsPerStep b.params, CutOff o level (n.getD t default) (c.getD t default)) ∧
          c[b.params.steps * detailsPerStep b.params]? = n[b.params.steps * detailsPerStep b.params]?) := by
  have hf := bitsKit_present (r := r) (o := o) (p := b.params) hw
  obtain ⟨plain, d, c1, c2, c3, c4⟩ := C120_calls (α := Bits o) (bitsKit r o) b hb hf hch data hd (simpleCallback o nth1 nth2 level) ()
  have hpl : plain = data.map (chanP (α := Bits o) b.params (scaling (bitsKit r o) b.params) nullDenoiser) := by
    have := decompose_ok (α := Bits o) (den := nullDenoiser) hb hf hch hd (fun _ => nullDenoiser_sized)
    rw [c1] at this
    exact (Run.ok.inj this).1
  have hlen : plain.length = data.length := by rw [hpl]; exact List.length_map _
  have hcalls := simple_calls (α := Bits o) hb.1 (bitsKit r o) hd hN
  rw [← hpl] at hcalls
  refine ⟨plain, c1, hlen, ?_, ?_⟩
  · rintro ⟨x, hx, hs⟩
    have hu := converse_ub (α := Bits o) (answer (α := Bits o) b.params (simpleCallback o nth1 nth2 level)) (detailCalls (α := Bits o) b.params plain) (by
      intro x hx
      obtain ⟨g1, g2⟩ := answer_simple hr ho hn hl h0 h1 b.params (hcalls x hx).1 (hcalls x hx).2 x.2
      by_cases hs : Sortable x.1.data
      · obtain ⟨m', e, _⟩ := g1 hs
        exact Or.inl ⟨m', e⟩
      · exact Or.inr (g2 hs)) ⟨x, hx, (answer_simple hr ho hn hl h0 h1 b.params (hcalls x hx).1 (hcalls x hx).2 x.2).2 hs⟩
    obtain ⟨s', a, e, hq⟩ : ∃ s' a e, converse (answer (α := Bits o) b.params (simpleCallback o nth1 nth2 level)) ()
      (detailCalls (α := Bits o) b.params plain) = (s', a, e) := ⟨_, _, _, rfl⟩
    rw [hq] at hu c4
    have hu : e = .ub := hu
    subst hu
    exact c4
  · intro hs
    obtain ⟨out, e1, e2⟩ := converse_all (α := Bits o) (answer (α := Bits o) b.params (simpleCallback o nth1 nth2 level)) (CutOff o level)
      (detailCalls (α := Bits o) b.params plain) (fun x hx =>
        (answer_simple hr ho hn hl h0 h1 b.params (hcalls x hx).1 (hcalls x hx).2 x.2).1 (hs x hx))
    rw [e1] at c2 c4
    refine ⟨d, c3, c4, ?_⟩
    exact after_cut c2 e2 hlen

include hr ho hn hl h0 h1 in
/-- C128: for finite samples that are not so large that the transform overflows, `Decompose` with the simple denoiser is defined and succeeds. -/
theorem C128_finite (b : Buffer F32) (hb : WellFormed b) (hw : b.params.wtype ≤ 5) (hK : b.params.steps ≤ 2000) (hch : 0 < b.params.signalNumber)
    (hN : (b.params.shape.map (paddedSide b.params)).prod < 2 ^ 32) (data : List (Mat F32)) (hd : IsSignal b.params data) (M : ℝ) (hM0 : 0 ≤ M)
    (hM : ∀ x ∈ data, ∀ i < x.rows, ∀ j < x.cols, finiteBits (x.get i j) ∧ |((number (x.get i j) : ℚ) : ℝ)| ≤ M)
    (hΩ : Real.sqrt ((b.params.shape.map (paddedSide b.params)).prod : ℕ) * (3 * M + 1) ≤ maxFloat) :
    ∃ plain d : Decs F32, Buffer.decompose (α := Bits o) (bitsKit r o) b data nullDenoiser = .ok plain true ∧
      Buffer.decomposeWith (α := Bits o) (bitsKit r o) b () data (simpleCallback o nth1 nth2 level) = .ok ((), d) true ∧
      WellFormed (Buffer.mk b.params d) ∧ plain.length = data.length ∧
      ∀ ch < data.length, ∃ c n, d[ch]? = some c ∧ plain[ch]? = some n ∧
        (∀ t < b.params.steps * detailsPerStep b.params, CutOff o level (n.getD t default) (c.getD t default)) ∧
        c[b.params.steps * detailsPerStep b.params]? = n[b.params.steps * detailsPerStep b.params]? := by
  obtain ⟨plain, c1, c2, _, c4⟩ := C128_decompose r hr o ho nth1 nth2 hn level hl h0 h1 b hb (by omega) hch hN data hd
  have hpl : plain = data.map (chanP (α := Bits o) b.params (scaling (bitsKit r o) b.params) nullDenoiser) := by
    have := decompose_ok (α := Bits o) (den := nullDenoiser) hb (bitsKit_present (r := r) (o := o) (p := b.params) (by omega)) hch hd
      (fun _ => nullDenoiser_sized)
    rw [c1] at this
    exact (Run.ok.inj this).1
  have hv := hb.1
  rw [← padSize_eq hv] at hΩ
  obtain ⟨d, d1, d2, d3⟩ := c4 (by
    intro x hx
    obtain ⟨c, hc, hm⟩ := mem_calls hx
    rw [sortable_iff]
    left
    intro y hy
    obtain ⟨i, hi, j, hj, rfl⟩ := (mem_data_iff _ _).1 hy
    rw [hpl] at hc
    have hc : c ∈ List.map (chanP (α := Bits o) b.params (scaling (bitsKit r o) b.params) nullDenoiser) data := hc
    obtain ⟨m, hmd, e⟩ := List.mem_map.1 hc
    rcases hm with hm | hm
    · rw [← e] at hm
      exact not_nan ((bits_total hr ho hv hw hK (shaped_of (hd.2 m hmd)) hM0 (hM m hmd) hΩ).1 _ hm i hi j hj)
    · rw [hm] at hi
      exact absurd hi (Nat.not_lt_zero _))
  exact ⟨plain, d, c1, d2, d1, c2, d3⟩

end

private theorem pad_six {α : Type} [Inhabited α] (x0 x1 x2 x3 x4 x5 : α) :
    padOf ⟨[6], 1, 1, 1⟩ (Mat.ofCol [x0, x1, x2, x3, x4, x5]) = Mat.ofCol [x0, x1, x2, x3, x4, x5] := by
  have h : paddedShape ⟨[6], 1, 1, 1⟩ = [6] := by decide
  rw [Mat.eq_iff]
  unfold padOf
  rw [if_neg (by decide), h]
  refine ⟨rfl, rfl, ?_⟩
  simp [Mat.ofFn, Mat.ofCol, matRows, matCols, clampIdx, padOffset, Mat.get, List.range_succ]

private theorem chan_six {α : Type} [Zero α] [Add α] [Mul α] [Neg α] [Inhabited α] (s t x0 x1 x2 x3 x4 x5 : α) :
    (chanP ⟨[6], 1, 1, 1⟩ [s, t] nullDenoiser (Mat.ofCol [x0, x1, x2, x3, x4, x5])).getD 0 default =
      Mat.ofCol [0 + x0 * t + x1 * -s, 0 + x2 * t + x3 * -s, 0 + x4 * t + x5 * -s] := by
  have hq : qmf [s, t] = [t, -s] := by simp [qmf]
  unfold chanP
  rw [pad_six]
  simp only [List.range_one, List.flatMap_cons, List.flatMap_nil, List.append_nil]
  unfold detailStep
  rw [hq, if_pos (by decide)]
  have e1 : (Mat.ofCol [x0, x1, x2, x3, x4, x5]).col 0 = [x0, x1, x2, x3, x4, x5] := rfl
  have e2 : (Mat.ofCol [x0, x1, x2, x3, x4, x5]).rows / 2 = 3 := by simp
  simp only [sig, List.cons_append, List.getD_cons_zero, e1, e2]
  rfl

private theorem calls_six {α : Type} [Inhabited α] (c : Channel α) : (c.getD 0 default, 0) ∈ detailCalls ⟨[6], 1, 1, 1⟩ [c] := by
  simp [detailCalls, detailsPerStep]

/-- The two coefficients of Daubechies 1 in `float`. -/
private theorem haar_coeffs {r : Rounding} (hr : r.IEEE) {o : FloatOps} (ho : o.Correct r) : ∃ s t : F32,
    scaling (bitsKit r o) ⟨[6], 1, 1, 1⟩ = [s, t] ∧ finiteBits s ∧ finiteBits t ∧ (number t : ℝ) ≠ 0 := by
  have key : ∀ j < 2, Bits.Finite ((scaling (bitsKit r o) ⟨[6], 1, 1, 1⟩).getD j 0) ∧ Bits.num ((scaling (bitsKit r o) ⟨[6], 1, 1, 1⟩).getD j 0) ≠ 0 := by
    intro j hj
    obtain ⟨e1, e2⟩ := bits_filter hr ho (p := ⟨[6], 1, 1, 1⟩) (by norm_num) j
    refine ⟨e1, fun h => ?_⟩
    have k : |_ - (scaling codeKit ⟨[6], 1, 1, 1⟩).getD j 0| ≤ _ * |(scaling codeKit ⟨[6], 1, 1, 1⟩).getD j 0| :=
      coeffs_code hr (p := ⟨[6], 1, 1, 1⟩) (by norm_num) j
    rw [← e2] at k
    have h : Bits.num ((scalingFilter (bitsKit r o) ⟨[6], 1, 1, 1⟩).getD j 0) = 0 := h
    have c : (scaling codeKit ⟨[6], 1, 1, 1⟩).getD j 0 = Real.sqrt 2 * (1 / 2) := by
      rcases (by omega : j = 0 ∨ j = 1) with rfl | rfl <;> norm_num [scaling, codeKit, dbCoeffs]
    rw [h, c, zero_sub, abs_neg] at k
    have : 0 < |Real.sqrt 2 * (1 / 2)| := abs_pos.2 (by positivity)
    nlinarith
  refine ⟨_, _, rfl, (key 0 (by norm_num)).1, (key 1 (by norm_num)).1, (key 1 (by norm_num)).2⟩

/-- C128: with a NaN among the samples the call can be undefined, whatever the level: six samples, Daubechies 1, one step. Without a denoiser the same
call succeeds. -/
theorem C128_nan_counterexample (r : Rounding) (hr : r.IEEE) (o : FloatOps) (ho : o.Correct r) (hnan : NanSpreads o)
    (nth1 : List (F32 × ℕ) → ℕ → List (F32 × ℕ)) (nth2 : List (F32 × ℕ × ℕ) → ℕ → List (F32 × ℕ × ℕ)) (hn : NthPromise o nth1 nth2) (level : F32)
    (hl : finiteBits level) (h0 : (0 : ℝ) ≤ number level) (h1 : (number level : ℝ) ≤ 1) :
    let b : Buffer F32 := ⟨⟨[6], 1, 1, 1⟩, [[Mat.ofCol [], Mat.ofCol []]]⟩
    let data : List (Mat F32) := [Mat.ofCol [0x7FC00000#32, 0#32, 0#32, 0#32, 0x3F800000#32, 0#32]]
    WellFormed b ∧ IsSignal b.params data ∧
    (∃ plain, Buffer.decompose (α := Bits o) (bitsKit r o) b data nullDenoiser = .ok plain true) ∧
    Buffer.decomposeWith (α := Bits o) (bitsKit r o) b () data (simpleCallback o nth1 nth2 level) = .ub := by
  intro b data
  have hb : WellFormed b := ⟨⟨by simp [b], by simp [b], by simp [b]⟩, by simp [b], by simp [b, subbandCount, detailsPerStep]⟩
  have hd : IsSignal b.params data := ⟨by simp [b, data], by simp [b, data, HasShape]⟩
  obtain ⟨plain, c1, _, c3, _⟩ := C128_decompose r hr o ho nth1 nth2 hn level hl h0 h1 b hb (by simp [b]) (by simp [b]) (by
    simp [b, paddedSide]) data hd
  refine ⟨hb, hd, ⟨plain, c1⟩, c3 ?_⟩
  have hpl : plain = data.map (chanP (α := Bits o) b.params (scaling (bitsKit r o) b.params) nullDenoiser) := by
    have := decompose_ok (α := Bits o) (den := nullDenoiser) hb (bitsKit_present (r := r) (o := o) (p := b.params) (by simp [b])) (by simp [b]) hd
      (fun _ => nullDenoiser_sized)
    rw [c1] at this
    exact (Run.ok.inj this).1
  obtain ⟨s, t, hst, hs, ht, ht0⟩ := haar_coeffs hr ho
  have hst : scaling (bitsKit r o) b.params = [s, t] := hst
  rw [hst] at hpl
  have hdet := chan_six (α := Bits o) s t 0x7FC00000#32 0#32 0#32 0#32 0x3F800000#32 0#32
  have hmax : (2 : ℝ) ^ 127 ≤ maxFloat := by unfold maxFloat; norm_num
  have hmax0 : 0 ≤ maxFloat := le_trans (by norm_num) hmax
  have r0 : r.toFloat 0 = 0 := rounds_self hr.1 (by have := small_nat (n := 0) (by norm_num); simpa using this)
  have rn : ∀ x : F32, r.toFloat (number x : ℝ) = number x := fun x => rounds_self hr.1 (number_mem x)
  have n1 : number 0x3F800000#32 = 1 := by norm_num [number, magnitude]
  have f1 : finiteBits 0x3F800000#32 := by unfold finiteBits; decide
  have zmul : ∀ y : F32, finiteBits y → finiteBits (o.mul 0#32 y) ∧ (number (o.mul 0#32 y) : ℝ) = 0 := by
    intro y hy
    have e : r.toFloat ((number 0#32 : ℝ) * number y) = 0 := by rw [number_zero, Rat.cast_zero, zero_mul, r0]
    obtain ⟨g1, g2⟩ := ho.mul 0#32 y finite_zero hy (by rw [e, abs_zero]; exact hmax0)
    exact ⟨g1, g2.trans e⟩
  have addz : ∀ x y : F32, finiteBits x → finiteBits y → |(number x : ℝ)| ≤ maxFloat → (number y : ℝ) = 0 →
      finiteBits (o.add x y) ∧ (number (o.add x y) : ℝ) = number x := by
    intro x y hx hy hm h
    have e : r.toFloat ((number x : ℝ) + number y) = number x := by rw [h, add_zero, rn]
    obtain ⟨g1, g2⟩ := ho.add x y hx hy (by rw [e]; exact hm)
    exact ⟨g1, g2.trans e⟩
  have zadd : ∀ y : F32, finiteBits y → |(number y : ℝ)| ≤ maxFloat → finiteBits (o.add 0#32 y) ∧ (number (o.add 0#32 y) : ℝ) = number y := by
    intro y hy hm
    have e : r.toFloat ((number 0#32 : ℝ) + number y) = number y := by rw [number_zero, Rat.cast_zero, zero_add, rn]
    obtain ⟨g1, g2⟩ := ho.add 0#32 y finite_zero hy (by rw [e]; exact hm)
    exact ⟨g1, g2.trans e⟩
  have htm : |(number t : ℝ)| ≤ maxFloat := number_le_max ht
  have hns := (ho.neg s hs).1
  have et : r.toFloat ((number 0x3F800000#32 : ℝ) * number t) = number t := by rw [n1, Rat.cast_one, one_mul, rn]
  obtain ⟨m1, m2⟩ := ho.mul 0x3F800000#32 t f1 ht (by rw [et]; exact htm)
  rw [et] at m2
  obtain ⟨z1, z2⟩ := zmul _ hns
  obtain ⟨z3, z4⟩ := zmul t ht
  obtain ⟨a1, a2⟩ := zadd _ m1 (by rw [m2]; exact htm)
  obtain ⟨a3, a4⟩ := addz _ _ a1 z1 (by rw [a2, m2]; exact htm) z2
  obtain ⟨b1, b2⟩ := zadd _ z3 (by rw [z4, abs_zero]; exact hmax0)
  obtain ⟨b3, b4⟩ := addz _ _ b1 z1 (by rw [b2, z4, abs_zero]; exact hmax0) z2
  have nan : isNaN (o.add (o.add 0#32 (o.mul 0x7FC00000#32 t)) (o.mul 0#32 (o.neg s))) :=
    (isNaN_iff _).2 (hnan.addL _ _ (hnan.addR _ _ (hnan.mulL _ _ (by unfold NotANumber; decide))))
  have hmem : ((chanP (α := Bits o) ⟨[6], 1, 1, 1⟩ [s, t] nullDenoiser
      (Mat.ofCol [0x7FC00000#32, 0#32, 0#32, 0#32, 0x3F800000#32, 0#32])).getD 0 default, 0) ∈ detailCalls (α := Bits o) b.params plain := by
    rw [hpl]
    exact calls_six (α := Bits o) _
  refine ⟨_, hmem, ?_⟩
  simp only
  rw [hdet]
  show ¬ Sortable [o.add (o.add 0#32 (o.mul 0x7FC00000#32 t)) (o.mul 0#32 (o.neg s)),
    o.add (o.add 0#32 (o.mul 0#32 t)) (o.mul 0#32 (o.neg s)), o.add (o.add 0#32 (o.mul 0x3F800000#32 t)) (o.mul 0#32 (o.neg s))]
  rw [sortable_iff]
  rintro (h | h)
  · exact h _ (by simp) nan
  · have := h _ (List.mem_cons_of_mem _ List.mem_cons_self) _ (List.mem_cons_of_mem _ (List.mem_cons_of_mem _ List.mem_cons_self)) (not_nan b3)
      (not_nan a3)
    have e1 : number (o.add (o.add 0#32 (o.mul 0#32 t)) (o.mul 0#32 (o.neg s))) = 0 := by
      have := b4.trans (b2.trans z4)
      exact_mod_cast this
    have e2 : number (o.add (o.add 0#32 (o.mul 0x3F800000#32 t)) (o.mul 0#32 (o.neg s))) = number t := by
      have := a4.trans (a2.trans m2)
      exact_mod_cast this
    rw [e1, e2, abs_zero] at this
    have := abs_eq_zero.1 this.symm
    rw [this] at ht0
    exact ht0 (by simp)

/-- C128: the promise of `std::nth_element` can be met, and so can the spreading of NaN together with correct arithmetic. -/
example : ∃ (r : Rounding) (o : FloatOps), r.IEEE ∧ o.Correct r ∧ NanSpreads o ∧ NthPromise o sortFloats sortFloats := by
  classical
  obtain ⟨r, hr, _⟩ := ties_exist
  obtain ⟨o, ho⟩ := floatOps_exist hr
  let nan : F32 := 0x7FC00000#32
  have hn : NotANumber nan := by unfold NotANumber; decide
  let o' : FloatOps := { o with
    add := fun x y => if NotANumber x ∨ NotANumber y then nan else o.add x y
    mul := fun x y => if NotANumber x ∨ NotANumber y then nan else o.mul x y }
  have eadd : ∀ x y, finiteBits x → finiteBits y → o'.add x y = o.add x y := fun x y hx hy =>
    if_neg (fun h => h.elim (fun g => not_nan hx ((isNaN_iff _).2 g)) (fun g => not_nan hy ((isNaN_iff _).2 g)))
  have emul : ∀ x y, finiteBits x → finiteBits y → o'.mul x y = o.mul x y := fun x y hx hy =>
    if_neg (fun h => h.elim (fun g => not_nan hx ((isNaN_iff _).2 g)) (fun g => not_nan hy ((isNaN_iff _).2 g)))
  refine ⟨r, o', hr, ⟨?_, ?_, ho.neg, ho.store, ho.div⟩, ⟨?_, ?_, ?_, ?_⟩, fun v n _ _ => sortFloats_contract v n, fun v n _ _ => sortFloats_contract v n⟩
  · intro x y hx hy h
    rw [eadd x y hx hy]
    exact ho.add x y hx hy h
  · intro x y hx hy h
    rw [emul x y hx hy]
    exact ho.mul x y hx hy h
  · intro x y h
    show NotANumber (if NotANumber x ∨ NotANumber y then nan else o.add x y)
    rw [if_pos (Or.inl h)]
    exact hn
  · intro x y h
    show NotANumber (if NotANumber x ∨ NotANumber y then nan else o.add x y)
    rw [if_pos (Or.inr h)]
    exact hn
  · intro x y h
    show NotANumber (if NotANumber x ∨ NotANumber y then nan else o.mul x y)
    rw [if_pos (Or.inl h)]
    exact hn
  · intro x y h
    show NotANumber (if NotANumber x ∨ NotANumber y then nan else o.mul x y)
    rw [if_pos (Or.inr h)]
    exact hn

/-- C128: a 1024 × 1024 picture of floats between -1 and 1, five steps of the fifth wavelet, compression level 1/2. -/
example (r : Rounding) (hr : r.IEEE) (o : FloatOps) (ho : o.Correct r) (f : ℕ → ℕ → F32) (hf : ∀ i j, finiteBits (f i j))
    (h1 : ∀ i j, |((number (f i j) : ℚ) : ℝ)| ≤ 1) :
    ∃ d, Buffer.decomposeWith (α := Bits o) (bitsKit r o) ⟨⟨[1024, 1024], 1, 5, 5⟩, [List.replicate 16 Mat.empty]⟩ () [Mat.ofFn 1024 1024 f]
      (simpleCallback o sortFloats sortFloats 0x3F000000#32) = .ok ((), d) true := by
  have n1 : number 0x3F000000#32 = 1 / 2 := by norm_num [number, magnitude]
  have hNe : ([1024, 1024].map (paddedSide ⟨[1024, 1024], 1, 5, 5⟩)).prod = 1024 * 1024 := by decide
  obtain ⟨_, d, _, h, _⟩ := C128_finite r hr o ho sortFloats sortFloats ⟨fun v n _ _ => sortFloats_contract v n, fun v n _ _ => sortFloats_contract v n⟩
    0x3F000000#32 (by unfold finiteBits; decide) (by rw [n1]; norm_num) (by rw [n1]; norm_num)
    ⟨⟨[1024, 1024], 1, 5, 5⟩, [List.replicate 16 Mat.empty]⟩ ⟨⟨by simp, by simp, by simp⟩, by simp, by simp [subbandCount, detailsPerStep]⟩ (by simp)
    (by simp) (by simp) (by rw [hNe]; norm_num) [Mat.ofFn 1024 1024 f] ⟨by simp, by simp [HasShape]⟩ 1 (by norm_num) (by
      intro x hx i hi j hj
      rw [List.mem_singleton] at hx
      subst hx
      simp only [Mat.rows_ofFn, Mat.cols_ofFn] at hi hj
      rw [Mat.get_ofFn hi hj]
      exact ⟨hf i j, h1 i j⟩) (by
      rw [hNe, Nat.cast_mul, Real.sqrt_mul_self (by norm_num)]
      simp only [maxFloat]
      norm_num)
  exact ⟨d, h⟩

/-- C128: samples with a NaN that can be sorted, and samples that cannot. -/
example : Sortable [0x7FC00000#32, 0x3F800000#32, 0xBF800000#32] ∧ ¬ Sortable [0x7FC00000#32, 0x3F800000#32, 0x40000000#32] := by
  have n1 : number 0x3F800000#32 = 1 := by norm_num [number, magnitude]
  have n2 : number 0xBF800000#32 = -1 := by norm_num [number, magnitude]
  have n3 : number 0x40000000#32 = 2 := by norm_num [number, magnitude]
  have hn : NotANumber 0x7FC00000#32 := by unfold NotANumber; decide
  have h1 : ¬ NotANumber 0x3F800000#32 := by unfold NotANumber; decide
  have h3 : ¬ NotANumber 0x40000000#32 := by unfold NotANumber; decide
  constructor
  · right
    intro x hx y hy g1 g2
    simp only [List.mem_cons, List.not_mem_nil, or_false] at hx hy
    rcases hx with rfl | rfl | rfl
    · exact absurd hn g1
    all_goals
      rcases hy with rfl | rfl | rfl
      · exact absurd hn g2
      all_goals simp [n1, n2]
  · rintro (h | h)
    · exact h _ (by simp) hn
    · have := h 0x3F800000#32 (by simp) 0x40000000#32 (by simp) h1 h3
      rw [n1, n3] at this
      norm_num at this

end WB.Props
