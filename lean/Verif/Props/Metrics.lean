import Verif.Proof.Metrics
import Verif.Proof.Range
import Verif.Props.Linear
import Verif.Props.Error

/-!
C37 distance, C38 energy distribution, C39 value ranges.
-/

namespace WB.Props

open Finset Spec

/-- C37: `Distance` of two buffers of equal form is the mean over all samples of the squared differences of the subbands. -/
theorem C37_distance_formula (a b : Buffer ℝ) (h : SameForm a b) (hc : CountableSamples a.params)
    (hs : a.params.steps = b.params.steps) :
    distance a b = .ok (.val (sqDistAll a.decs b.decs / (a.params.signalNumber * a.params.shape.prod : ℕ))) :=
  distance_ok h hs hc

/-- C37: it is not negative, symmetric and zero only for identical subbands; NaN is the result exactly when the step
counts differ. -/
theorem C37_distance (a b : Buffer ℝ) (h : SameForm a b) (hc : CountableSamples a.params) :
    (a.params.steps ≠ b.params.steps ↔ distance a b = .ok .nan) ∧
    (a.params.steps = b.params.steps → ∃ x : ℝ, distance a b = .ok (.val x) ∧ distance b a = .ok (.val x) ∧ 0 ≤ x ∧
      (x = 0 ↔ a.decs = b.decs)) := by
  have hpos : 0 < ((a.params.signalNumber * a.params.shape.prod : ℕ) : ℝ) := by
    exact_mod_cast Nat.mul_pos hc.1 (List.prod_pos hc.2.1)
  constructor
  · constructor
    · intro hs; unfold distance; rw [if_neg hs]
    · intro hn hs
      rw [distance_ok h hs hc] at hn
      cases hn
  · intro hs
    have hcb : CountableSamples b.params := by unfold CountableSamples; rw [← h.1, ← h.2.1]; exact hc
    refine ⟨_, distance_ok h hs hc, ?_, div_nonneg (sqDistAll_nonneg h.2.2) hpos.le, ?_⟩
    · rw [distance_ok (sameForm_symm h) hs.symm hcb, sqDistAll_symm h.2.2, ← h.1, ← h.2.1]
    · rw [div_eq_zero_iff, or_iff_left hpos.ne', sqDistAll_eq_zero h.2.2]

/-- C37: the distance of a buffer to itself is zero. -/
theorem C37_distance_self (a : Buffer ℝ) (hc : CountableSamples a.params) : distance a a = .ok (.val 0) := by
  obtain ⟨x, h1, -, -, h2⟩ := (C37_distance a a (sameForm_refl a) hc).2 rfl
  rw [h1, h2.2 rfl]

/-- C37: the root of the distance obeys the triangle inequality, so the distance itself obeys
`d(a, c) ≤ 2 d(a, b) + 2 d(b, c)`. -/
theorem C37_triangle (a b c : Buffer ℝ) (h : SameForm a b) (h' : SameForm b c) (hc : CountableSamples a.params)
    (hs : a.params.steps = b.params.steps) (hs' : b.params.steps = c.params.steps) :
    ∃ x y z : ℝ, distance a b = .ok (.val x) ∧ distance b c = .ok (.val y) ∧ distance a c = .ok (.val z) ∧
      Real.sqrt z ≤ Real.sqrt x + Real.sqrt y ∧ z ≤ 2 * x + 2 * y := by
  have hcb : CountableSamples b.params := by unfold CountableSamples; rw [← h.1, ← h.2.1]; exact hc
  have hx := sqDistAll_nonneg h.2.2
  have hy := sqDistAll_nonneg h'.2.2
  have hz := sqDistAll_nonneg (sameForm_trans h h').2.2
  have hpos : (0 : ℝ) ≤ ((a.params.signalNumber * a.params.shape.prod : ℕ) : ℝ) := Nat.cast_nonneg _
  have ht := sqDistAll_triangle h.2.2 h'.2.2
  have hr : Real.sqrt (sqDistAll a.decs c.decs / (a.params.signalNumber * a.params.shape.prod : ℕ)) ≤
      Real.sqrt (sqDistAll a.decs b.decs / (a.params.signalNumber * a.params.shape.prod : ℕ)) +
      Real.sqrt (sqDistAll b.decs c.decs / (a.params.signalNumber * a.params.shape.prod : ℕ)) := by
    rw [Real.sqrt_div hx, Real.sqrt_div hy, Real.sqrt_div hz, ← add_div]
    exact div_le_div_of_nonneg_right ht (Real.sqrt_nonneg _)
  have e : distance b c = .ok (.val (sqDistAll b.decs c.decs / (a.params.signalNumber * a.params.shape.prod : ℕ))) := by
    rw [distance_ok h' hs' hcb, ← h.1, ← h.2.1]
  refine ⟨_, _, _, distance_ok h hs hc, e, distance_ok (sameForm_trans h h') (hs.trans hs') hc, hr, ?_⟩
  have n1 := Real.sqrt_nonneg (sqDistAll a.decs c.decs / (a.params.signalNumber * a.params.shape.prod : ℕ))
  have s1 := Real.mul_self_sqrt (div_nonneg hx hpos)
  have s2 := Real.mul_self_sqrt (div_nonneg hy hpos)
  have s3 := Real.mul_self_sqrt (div_nonneg hz hpos)
  nlinarith [mul_self_le_mul_self n1 hr, sq_nonneg (Real.sqrt (sqDistAll a.decs b.decs / (a.params.signalNumber * a.params.shape.prod : ℕ)) -
    Real.sqrt (sqDistAll b.decs c.decs / (a.params.signalNumber * a.params.shape.prod : ℕ)))]

/-- C38: `EnergyDistribution` of a non-empty buffer has one entry per channel and subband, the sum of the squares of that
subband; it is not negative, and zero exactly for a subband of zeros. An empty buffer gives the empty list. -/
theorem C38_energy_distribution (b : Buffer ℝ) :
    (b.isEmpty = true → energyDistribution b = []) ∧
    (b.isEmpty = false → (energyDistribution b).length = b.decs.length ∧
      ∀ (ch : ℕ) (c : List (Mat ℝ)), b.decs[ch]? = some c → ∃ es, (energyDistribution b)[ch]? = some es ∧ es.length = c.length ∧
        ∀ (i : ℕ) (m : Mat ℝ), c[i]? = some m → ∃ e, es[i]? = some e ∧ e = energy m ∧ 0 ≤ e ∧ (e = 0 ↔ AllZero m)) := by
  constructor
  · intro h; unfold energyDistribution; rw [if_pos h]
  · intro h
    have e : energyDistribution b = b.decs.map (fun c => c.map energy) := by
      unfold energyDistribution
      rw [if_neg (by simp [h])]
      simp only [energy_entry]
    rw [e]
    refine ⟨by simp, ?_⟩
    intro ch c hc
    refine ⟨c.map energy, by simp [hc], by simp, ?_⟩
    intro i m hm
    exact ⟨energy m, by simp [hm], rfl, energy_nonneg m, energy_eq_zero m⟩

/-- C38: without denoising and with orthonormal filters the entries of each channel add up to the energy of the padded
channel. -/
theorem C38_sum_is_signal_energy (k : Kit ℝ) (b : Buffer ℝ) (hb : WellFormed b) (hk : FilterPresent k b.params)
    (ho : b.params.wtype ≠ 0 → EvenShiftOrthonormal (scalingFilter k b.params))
    (hch : 0 < b.params.signalNumber) (data : List (Mat ℝ)) (hd : IsSignal b.params data) :
    ∃ d, b.decompose k data nullDenoiser = .ok d true ∧ ((Buffer.mk b.params d).isEmpty = false →
      ∀ (i : ℕ) (m padded : Mat ℝ), data[i]? = some m →
        addPadding m (b.params.shape.map (paddedSide b.params)) = .ok padded →
        ∃ es, (energyDistribution ⟨b.params, d⟩)[i]? = some es ∧ es.sum = energy padded) := by
  obtain ⟨d, h1, h2, h3⟩ := C10_energy_preserved k b hb hk ho hch data hd
  refine ⟨d, h1, fun hne i m padded hm hp => ?_⟩
  obtain ⟨c, hc, hs⟩ := h3 i m padded hm hp
  have e : energyDistribution ⟨b.params, d⟩ = d.map (fun c => c.map energy) := by
    unfold energyDistribution
    rw [if_neg (by simp [hne])]
    simp only [energy_entry]
  exact ⟨c.map energy, by rw [e]; simp [hc], hs⟩

/-! ### value ranges -/

theorem fl_qmf_code (p : Params) (k : ℕ) :
    fl (qmf (scaling codeKit p)) k = Real.sqrt 2 * (((qmf (dbCoeffs p.wtype)).getD k 0 : ℚ) : ℝ) := by
  unfold fl scaling codeKit qmf
  simp only [List.getD, List.getElem?_mapIdx, List.length_map, ← List.map_reverse, List.getElem?_map, Option.map_map]
  cases (dbCoeffs p.wtype).reverse[k]? with
  | none => simp
  | some x =>
    simp only [Option.map_some, Option.getD_some, Function.comp]
    by_cases hc : ((if (dbCoeffs p.wtype).length % 2 = 0 then 1 else 2) ≤ k ∧
        (k - if (dbCoeffs p.wtype).length % 2 = 0 then 1 else 2) % 2 = 0)
    · rw [if_pos hc, if_pos hc]; push_cast; ring
    · rw [if_neg hc, if_neg hc]

/-- Positive part of a table. -/
def posQ (l : List ℚ) : ℚ := (l.map (fun q => max q 0)).sum
/-- Negative part of a table. -/
def negQ (l : List ℚ) : ℚ := (l.map (fun q => max (-q) 0)).sum

theorem sum_getD (l : List ℚ) (f : ℚ → ℚ) (L : ℕ) (hl : l.length = L) :
    ∑ j ∈ range L, ((f (l.getD j 0) : ℚ) : ℝ) = (((l.map f).sum : ℚ) : ℝ) := by
  subst hl
  induction l with
  | nil => simp
  | cons a l ih => rw [List.length_cons, sum_range_succ']; simp at ih ⊢; rw [ih, add_comm]

theorem posTaps_code (f : List ℝ) (l : List ℚ) (L : ℕ) (hl : l.length = L)
    (hf : ∀ k, fl f k = Real.sqrt 2 * ((l.getD k 0 : ℚ) : ℝ)) :
    posTaps f L = Real.sqrt 2 * ((posQ l : ℚ) : ℝ) ∧ negTaps f L = Real.sqrt 2 * ((negQ l : ℚ) : ℝ) := by
  have h2 := Real.sqrt_nonneg 2
  constructor
  · unfold posTaps posQ
    rw [← sum_getD l _ L hl, mul_sum]
    refine sum_congr rfl (fun j _ => ?_)
    rw [hf]
    push_cast
    rw [mul_max_of_nonneg _ _ h2, mul_zero]
  · unfold negTaps negQ
    rw [← sum_getD l _ L hl, mul_sum]
    refine sum_congr rfl (fun j _ => ?_)
    rw [hf]
    push_cast
    rw [mul_max_of_nonneg _ _ h2, mul_zero, mul_neg]

theorem length_qmf' (l : List ℚ) : (qmf l).length = l.length := by unfold qmf; simp

theorem taps_code (p : Params) (h1 : 1 ≤ p.wtype) (h2 : p.wtype ≤ 10) (hi : Bool) :
    pW (scaling codeKit p) p.wtype hi = Real.sqrt 2 * ((posQ (if hi then qmf (dbCoeffs p.wtype) else dbCoeffs p.wtype) : ℚ) : ℝ) ∧
    nW (scaling codeKit p) p.wtype hi = Real.sqrt 2 * ((negQ (if hi then qmf (dbCoeffs p.wtype) else dbCoeffs p.wtype) : ℚ) : ℝ) := by
  have hl := length_dbCoeffs h1 h2
  cases hi
  · simpa [pW, nW] using posTaps_code _ _ _ hl (fl_code p)
  · simpa [pW, nW] using posTaps_code _ (qmf (dbCoeffs p.wtype)) (2 * p.wtype) (by rw [length_qmf', hl]) (fl_qmf_code p)

theorem haar_taps : posQ (dbCoeffs 1) = 1 ∧ negQ (dbCoeffs 1) = 0 ∧ posQ (qmf (dbCoeffs 1)) = 1 / 2 ∧ negQ (qmf (dbCoeffs 1)) = 1 / 2 := by
  decide +kernel

theorem table_taps : ∀ t : Fin 5, 0 < t.val → posQ (dbCoeffs t.val) + negQ (dbCoeffs t.val) ≤ 14 / 10 ∧
    posQ (qmf (dbCoeffs t.val)) ≤ 7 / 10 ∧ negQ (qmf (dbCoeffs t.val)) ≤ 7 / 10 ∧ 0 ≤ posQ (dbCoeffs t.val) ∧
    0 ≤ negQ (dbCoeffs t.val) ∧ 0 ≤ posQ (qmf (dbCoeffs t.val)) ∧ 0 ≤ negQ (qmf (dbCoeffs t.val)) := by
  decide +kernel

/-- Reading the range of every subband of a decomposed channel. -/
theorem range_of {b : Buffer ℝ} {d : Decs ℝ} {c : Channel ℝ} (hc : d[0]? = some c) (hl : c.length = subbandCount b.params) (i : ℕ) :
    getValueRange ⟨b.params, d⟩ i = .ok (if i = b.params.steps * detailsPerStep b.params then
      (if b.params.steps = 0 then (0, none) else (0, some (2 ^ b.params.steps)))
      else (-2 ^ (i / detailsPerStep b.params), some (2 ^ (i / detailsPerStep b.params)))) := by
  have hrd : rd d 0 = .ok c := by simp [rd, hc]
  unfold getValueRange
  simp only [hrd, Outcome.bind_ok, hl, subbandsPerWT_eq]
  unfold subbandCount
  by_cases h : i = b.params.steps * detailsPerStep b.params
  · simp only [h, decide_true, if_true]
    split_ifs with h0
    · rfl
    · obtain ⟨s, hs⟩ := Nat.exists_eq_succ_of_ne_zero h0
      rw [hs]; simp [pow_succ, mul_comm]
  · simp [h]

/-- All samples of all channels lie in `[0, M]`. -/
def SamplesIn (M : ℝ) (data : List (Mat ℝ)) : Prop := ∀ m ∈ data, Between 0 M m

/-- Bounds on the channels give the bounds on all subbands. -/
theorem ranges_of {b : Buffer ℝ} (hb : WellFormed b) (ht : b.params.wtype ≤ 10) (hch : 0 < b.params.signalNumber)
    {data : List (Mat ℝ)} (hd : IsSignal b.params data) {M A : ℝ}
    (h : ∀ m ∈ data, Between A (2 ^ b.params.steps * M) ((chanP b.params (scaling codeKit b.params) nullDenoiser m).getD
        (b.params.steps * subbandsPerWT b.params) default) ∧
      ∀ s < b.params.steps, ∀ q < subbandsPerWT b.params, Between (-(2 ^ s * M)) (2 ^ s * M)
        ((chanP b.params (scaling codeKit b.params) nullDenoiser m).getD (s * subbandsPerWT b.params + q) default)) :
    ∃ d, b.decompose codeKit data nullDenoiser = .ok d true ∧ ∀ i < subbandCount b.params,
      ∃ lo hi, getValueRange ⟨b.params, d⟩ i = .ok (lo, hi) ∧ (i + 1 = subbandCount b.params → lo = 0 ∧ ∀ H, hi = some H → H = 2 ^ b.params.steps) ∧
        (i + 1 < subbandCount b.params → hi = some (-lo)) ∧
        ∀ c ∈ d, ∀ m, c[i]? = some m → ∀ r < m.rows, ∀ j < m.cols,
          (i + 1 = subbandCount b.params → A ≤ m.get r j) ∧ (i + 1 < subbandCount b.params → M * lo ≤ m.get r j) ∧
          ∀ H, hi = some H → m.get r j ≤ M * H := by
  have hv := hb.1
  have hk : FilterPresent codeKit b.params := codeKit_present ht
  have hpos : 0 < detailsPerStep b.params := by unfold detailsPerStep; split_ifs <;> omega
  refine ⟨_, decompose_ok hb hk hch hd (fun _ => nullDenoiser_sized), ?_⟩
  obtain ⟨m0, data', rfl⟩ : ∃ m0 data', data = m0 :: data' := by
    cases data with
    | nil => have := hd.1; simp at this; omega
    | cons a l => exact ⟨a, l, rfl⟩
  intro i hi
  have hlen : (chanP b.params (scaling codeKit b.params) nullDenoiser m0).length = subbandCount b.params := by
    rw [(chanP_sized (k := codeKit) hv nullDenoiser_sized (shaped_of (hd.2 m0 (by simp)))).1]
    unfold decompositionSize subbandCount; rw [subbandsPerWT_eq]
  have hr := range_of (b := b) (d := (m0 :: data').map (chanP b.params (scaling codeKit b.params) nullDenoiser))
    (by simp) hlen i
  have hi' : i < decompositionSize b.params := by unfold subbandCount at hi; unfold decompositionSize; rw [subbandsPerWT_eq]; omega
  rcases sub_cases b.params hi' with rfl | ⟨s, hs, q, hq, rfl⟩
  · rw [subbandsPerWT_eq] at hr ⊢
    rw [if_pos rfl] at hr
    refine ⟨0, if b.params.steps = 0 then none else some (2 ^ b.params.steps), by rw [hr]; split_ifs <;> rfl,
      fun _ => ⟨rfl, fun H hH => by split_ifs at hH; injection hH with hH; exact hH.symm⟩,
      fun hlt => by unfold subbandCount at hlt; omega, ?_⟩
    intro c hc m hm r hr' j hj
    rw [List.mem_map] at hc
    obtain ⟨x, hx, rfl⟩ := hc
    have hb1 := (h x hx).1
    rw [subbandsPerWT_eq, List.getD, hm, Option.getD_some] at hb1
    refine ⟨fun _ => (hb1 r hr' j hj).1, fun hlt => ?_, fun H hH => ?_⟩
    · unfold subbandCount at hlt; omega
    · split_ifs at hH
      injection hH with hH
      rw [← hH, mul_comm]; exact (hb1 r hr' j hj).2
  · rw [subbandsPerWT_eq] at hr hq ⊢
    have hlt : s * detailsPerStep b.params + q < b.params.steps * detailsPerStep b.params := by
      have := Nat.mul_le_mul_right (detailsPerStep b.params) (Nat.succ_le_of_lt hs)
      rw [Nat.succ_mul] at this; omega
    have hdiv : (s * detailsPerStep b.params + q) / detailsPerStep b.params = s := by
      rw [Nat.add_comm, Nat.add_mul_div_right _ _ hpos, Nat.div_eq_of_lt hq, Nat.zero_add]
    rw [if_neg (by omega), hdiv] at hr
    refine ⟨-2 ^ s, some (2 ^ s), hr, fun he => by unfold subbandCount at he; omega, fun _ => by rw [neg_neg], ?_⟩
    intro c hc m hm r hr' j hj
    rw [List.mem_map] at hc
    obtain ⟨x, hx, rfl⟩ := hc
    have hb1 := (h x hx).2 s hs q (by rw [subbandsPerWT_eq]; exact hq)
    rw [subbandsPerWT_eq, List.getD, hm, Option.getD_some] at hb1
    refine ⟨fun he => by unfold subbandCount at he; omega, fun _ => ?_, fun H hH => ?_⟩
    · have := (hb1 r hr' j hj).1; linarith
    · injection hH with hH
      rw [← hH, mul_comm]; exact (hb1 r hr' j hj).2

/-- C39 for the Haar wavelet and for no wavelet: every value of subband `i` lies between `M lo` and `M hi` where
`(lo, hi)` is what `GetValueRange(i)` reports (`hi = none` is infinity). Missing from the full property: wavelets of order
2 to 5, for which it is false (`C39_false_above_haar`). -/
theorem C39_value_ranges_partial (b : Buffer ℝ) (hb : WellFormed b) (ht : b.params.wtype ≤ 1) (hch : 0 < b.params.signalNumber)
    (data : List (Mat ℝ)) (hd : IsSignal b.params data) (M : ℝ) (hM : 0 ≤ M) (h : SamplesIn M data) :
    ∃ d, b.decompose codeKit data nullDenoiser = .ok d true ∧ ∀ i < subbandCount b.params,
      ∃ lo hi, getValueRange ⟨b.params, d⟩ i = .ok (lo, hi) ∧ ∀ c ∈ d, ∀ m, c[i]? = some m →
        ∀ r < m.rows, ∀ j < m.cols, M * lo ≤ m.get r j ∧ ∀ H, hi = some H → m.get r j ≤ M * H := by
  have hv := hb.1
  have hk : FilterPresent codeKit b.params := codeKit_present (by omega)
  obtain ⟨d, h1, h2⟩ := ranges_of hb (by omega) hch hd (M := M) (A := 0) (fun m hm => by
    have hsh := shaped_of (hd.2 m hm)
    refine chan_bounds (k := codeKit) hv hsh (Q := fun s x => Between 0 (2 ^ s * M) x)
      (D := fun s x => Between (-(2 ^ s * M)) (2 ^ s * M) x) (by simpa using between_pad hv hsh (h m hm)) ?_
    intro s hs x hx hq
    have htt := wavelet_of_steps hv hs
    have ht1 : b.params.wtype = 1 := by omega
    have hsb := step_bounds (k := codeKit) hv hk hs hx (l := 0) (u := 2 ^ s * M) (by simpa using hq)
    have tf := taps_code b.params (by omega) (by omega) false
    have tt := taps_code b.params (by omega) (by omega) true
    obtain ⟨g1, g2, g3, g4⟩ := haar_taps
    simp only [ht1, if_true, Bool.false_eq_true, if_false, g1, g2, g3, g4] at tf tt
    have h2 : Real.sqrt 2 * Real.sqrt 2 = 2 := Real.mul_self_sqrt (by norm_num)
    have h0 := Real.sqrt_nonneg 2
    have hlt : Real.sqrt 2 ≤ 2 := by nlinarith
    have hu : 0 ≤ 2 ^ s * M := by positivity
    have hu2 : (2 : ℝ) ^ (s + 1) * M = 2 * (2 ^ s * M) := by rw [pow_succ]; ring
    rw [hu2]
    generalize 2 ^ s * M = u at hsb hu
    set f := scaling codeKit b.params with hf
    have e : ∀ r c l v, stepUp b.params f r c l v =
        pW f 1 r * ((if b.params.dimension = 1 then 1 else pW f 1 c) * v + (if b.params.dimension = 1 then 0 else nW f 1 c) * l) +
        nW f 1 r * ((if b.params.dimension = 1 then 1 else pW f 1 c) * l + (if b.params.dimension = 1 then 0 else nW f 1 c) * v) := by
      intro r c l v
      unfold stepUp pC nC
      rw [ht1]
    rcases dim_cases hv with hd1 | hd1
    · constructor
      · refine between_mono hsb.1 ?_ ?_
        · rw [e, if_pos hd1, if_pos hd1, tf.1, tf.2]; push_cast; nlinarith
        · rw [e, if_pos hd1, if_pos hd1, tf.1, tf.2]; push_cast; nlinarith
      · intro q hq'
        refine between_mono (hsb.2 q hq') ?_ ?_
        · rw [e, if_pos hd1, if_pos hd1]; simp only [rOff, if_pos hd1, tt.1, tt.2]; push_cast; nlinarith
        · rw [e, if_pos hd1, if_pos hd1]; simp only [rOff, if_pos hd1, tt.1, tt.2]; push_cast; nlinarith
    · have hd1' : ¬ b.params.dimension = 1 := by omega
      constructor
      · refine between_mono hsb.1 ?_ ?_
        · rw [e, if_neg hd1', if_neg hd1', tf.1, tf.2]; push_cast; nlinarith
        · rw [e, if_neg hd1', if_neg hd1', tf.1, tf.2]; push_cast; nlinarith
      · intro q hq'
        have hq3 : q = 0 ∨ q = 1 ∨ q = 2 := by unfold subbandsPerWT at hq'; simp [hd1] at hq'; omega
        have hx := hsb.2 q hq'
        simp only [rOff, cOff, if_neg hd1'] at hx
        rcases hq3 with rfl | rfl | rfl <;> refine between_mono hx ?_ ?_ <;>
          simp only [e, if_neg hd1', Nat.reduceBEq, Bool.or_true, Bool.or_false, tt.1, tt.2, tf.1, tf.2,
            BEq.rfl] <;> push_cast <;> nlinarith)
  refine ⟨d, h1, fun i hi => ?_⟩
  obtain ⟨lo, hi', r1, r2, r4, r3⟩ := h2 i hi
  refine ⟨lo, hi', r1, fun c hc m hm r hr j hj => ?_⟩
  obtain ⟨a1, a2, a3⟩ := r3 c hc m hm r hr j hj
  refine ⟨?_, a3⟩
  by_cases hl : i + 1 = subbandCount b.params
  · rw [(r2 hl).1, mul_zero]; exact a1 hl
  · exact a2 (by omega)

/-- C39 for one-dimensional signals and the orders up to 4: all details lie in the reported range, and the approximation
does not exceed the upper end and not the negative of the upper end. Missing: the lower end 0 of the approximation, which
is false above order 1 (`C39_false_above_haar`), images, and order 5. -/
theorem C39_one_dimensional_partial (b : Buffer ℝ) (hb : WellFormed b) (ht : b.params.wtype ≤ 4) (hdim : b.params.shape.length = 1)
    (hch : 0 < b.params.signalNumber)
    (data : List (Mat ℝ)) (hd : IsSignal b.params data) (M : ℝ) (hM : 0 ≤ M) (h : SamplesIn M data) :
    ∃ d, b.decompose codeKit data nullDenoiser = .ok d true ∧ ∀ i < subbandCount b.params,
      ∃ lo hi, getValueRange ⟨b.params, d⟩ i = .ok (lo, hi) ∧ ∀ c ∈ d, ∀ m, c[i]? = some m →
        ∀ r < m.rows, ∀ j < m.cols, (i + 1 < subbandCount b.params → M * lo ≤ m.get r j) ∧
          ∀ H, hi = some H → -(M * H) ≤ m.get r j ∧ m.get r j ≤ M * H := by
  have hv := hb.1
  have hk : FilterPresent codeKit b.params := codeKit_present (by omega)
  obtain ⟨d, h1, h2⟩ := ranges_of hb (by omega) hch hd (M := M) (A := -(2 ^ b.params.steps * M)) (fun m hm => by
    have hsh := shaped_of (hd.2 m hm)
    obtain ⟨hQ, hD⟩ := chan_bounds (k := codeKit) hv hsh
      (Q := fun s x => ∃ l u, 0 ≤ l ∧ 0 ≤ u ∧ l + u ≤ 2 ^ s * M ∧ Between (-l) u x)
      (D := fun s x => Between (-(2 ^ s * M)) (2 ^ s * M) x)
      ⟨0, M, le_rfl, hM, by simp, by simpa using between_pad hv hsh (h m hm)⟩ (by
        rintro s hs x hx ⟨l, u, hl, hu, hlu, hq⟩
        have htt := wavelet_of_steps hv hs
        have hsb := step_bounds (k := codeKit) hv hk hs hx hq
        have tf := taps_code b.params (by omega) (by omega) false
        have tt := taps_code b.params (by omega) (by omega) true
        obtain ⟨g1, g2, g3, g4, g5, g6, g7⟩ := table_taps ⟨b.params.wtype, by omega⟩ (by simp; omega)
        simp only [if_true, Bool.false_eq_true, if_false] at tf tt
        simp only at g1 g2 g3 g4 g5 g6 g7
        have hs2 : Real.sqrt 2 ≤ 1.4143 := by rw [Real.sqrt_le_left (by norm_num)]; norm_num
        have hs0 := Real.sqrt_nonneg 2
        generalize posQ (dbCoeffs b.params.wtype) = P at tf g1 g4
        generalize negQ (dbCoeffs b.params.wtype) = N at tf g1 g5
        generalize posQ (qmf (dbCoeffs b.params.wtype)) = P' at tt g2 g6
        generalize negQ (qmf (dbCoeffs b.params.wtype)) = N' at tt g3 g7
        have r1 : (P : ℝ) + N ≤ 14 / 10 := by have := (Rat.cast_le (K := ℝ)).2 g1; push_cast at this; exact this
        have r2 : (P' : ℝ) ≤ 7 / 10 := by have := (Rat.cast_le (K := ℝ)).2 g2; push_cast at this; exact this
        have r3 : (N' : ℝ) ≤ 7 / 10 := by have := (Rat.cast_le (K := ℝ)).2 g3; push_cast at this; exact this
        have r4 : (0 : ℝ) ≤ P := by exact_mod_cast g4
        have r5 : (0 : ℝ) ≤ N := by exact_mod_cast g5
        have r6 : (0 : ℝ) ≤ P' := by exact_mod_cast g6
        have r7 : (0 : ℝ) ≤ N' := by exact_mod_cast g7
        have e : ∀ r c l v, stepUp b.params (scaling codeKit b.params) r c l v =
            pW (scaling codeKit b.params) b.params.wtype r * v + nW (scaling codeKit b.params) b.params.wtype r * l := by
          intro r c l v
          have hdd : b.params.dimension = 1 := hdim
          unfold stepUp pC nC
          rw [if_pos hdd, if_pos hdd]; ring
        have hu2 : (2 : ℝ) ^ (s + 1) * M = 2 * (2 ^ s * M) := by rw [pow_succ]; ring
        have k1 : Real.sqrt 2 * P + Real.sqrt 2 * N ≤ 2 := by nlinarith
        have k2 : Real.sqrt 2 * P' ≤ 1 := by nlinarith
        have k3 : Real.sqrt 2 * N' ≤ 1 := by nlinarith
        have k4 : 0 ≤ Real.sqrt 2 * P := mul_nonneg hs0 r4
        have k5 : 0 ≤ Real.sqrt 2 * N := mul_nonneg hs0 r5
        constructor
        · refine ⟨_, _, ?_, ?_, ?_, hsb.1⟩
          · rw [e, tf.1, tf.2]; exact add_nonneg (mul_nonneg k4 hl) (mul_nonneg k5 hu)
          · rw [e, tf.1, tf.2]; exact add_nonneg (mul_nonneg k4 hu) (mul_nonneg k5 hl)
          · rw [e, e, tf.1, tf.2, hu2]
            have : (Real.sqrt 2 * P + Real.sqrt 2 * N) * (l + u) ≤ 2 * (l + u) :=
              mul_le_mul_of_nonneg_right k1 (add_nonneg hl hu)
            nlinarith
        · intro q hq'
          have hr : rOff b.params q = true := by simp [rOff, show b.params.dimension = 1 from hdim]
          have := hsb.2 q hq'
          rw [hr] at this
          have m1 := mul_le_mul_of_nonneg_right k2 hu
          have m2 := mul_le_mul_of_nonneg_right k2 hl
          have m3 := mul_le_mul_of_nonneg_right k3 hu
          have m4 := mul_le_mul_of_nonneg_right k3 hl
          refine between_mono this ?_ ?_
          · rw [e, tt.1, tt.2]; linarith
          · rw [e, tt.1, tt.2]; linarith)
    obtain ⟨l, u, hl, hu, hlu, hq⟩ := hQ
    exact ⟨between_mono hq (by linarith) (by linarith), hD⟩)
  refine ⟨d, h1, fun i hi => ?_⟩
  obtain ⟨lo, hi', r1, r2, r4, r3⟩ := h2 i hi
  refine ⟨lo, hi', r1, fun c hc m hm r hr j hj => ?_⟩
  obtain ⟨a1, a2, a3⟩ := r3 c hc m hm r hr j hj
  refine ⟨a2, fun H hH => ⟨?_, a3 H hH⟩⟩
  by_cases hl : i + 1 = subbandCount b.params
  · rw [(r2 hl).2 H hH, mul_comm]; exact a1 hl
  · have e := r4 (by omega)
    rw [hH] at e
    injection e with e
    have := a2 (by omega)
    rw [e]; linarith

/-- C39 is false for every order above 1: there is a signal with samples in `[0, 1]` whose approximation has a value
below the reported lower end 0. -/
theorem C39_false_above_haar (t : ℕ) (h2 : 2 ≤ t) (h5 : t ≤ 5) :
    ∃ (b : Buffer ℝ) (data : List (Mat ℝ)) (d : Decs ℝ) (c : List (Mat ℝ)) (m : Mat ℝ) (H : Option ℝ), b.params.wtype = t ∧ WellFormed b ∧
      0 < b.params.signalNumber ∧ IsSignal b.params data ∧ SamplesIn 1 data ∧ b.decompose codeKit data nullDenoiser = .ok d true ∧
      getValueRange ⟨b.params, d⟩ 1 = .ok (0, H) ∧ c ∈ d ∧ c[1]? = some m ∧ m.rows = 2 * t ∧ m.cols = 1 ∧ m.get 0 0 < 0 := by
  set p : Params := ⟨[4 * t], 1, 1, t⟩ with hp
  obtain ⟨κ, hκ, hneg⟩ : ∃ κ < 2 * t, (dbCoeffs t).getD κ 0 < 0 := by
    have : t = 2 ∨ t = 3 ∨ t = 4 ∨ t = 5 := by omega
    rcases this with rfl | rfl | rfl | rfl
    · exact ⟨3, by omega, by decide +kernel⟩
    · exact ⟨3, by omega, by decide +kernel⟩
    · exact ⟨3, by omega, by decide +kernel⟩
    · exact ⟨4, by omega, by decide +kernel⟩
  have hv : ValidParams p := by
    refine ⟨Or.inl rfl, ?_, ?_⟩
    · simp [hp]; omega
    · simp [hp]; omega
  have hb : WellFormed (Buffer.mk p [[Mat.empty, Mat.empty]] : Buffer ℝ) := by
    refine ⟨hv, rfl, ?_⟩
    simp [hp, subbandCount, detailsPerStep]
  set x : Mat ℝ := Mat.ofFn (4 * t) 1 (fun i _ => if i = κ then 1 else 0) with hx
  have hsig : IsSignal p [x] := ⟨rfl, by intro m hm; simp at hm; subst hm; exact ⟨rfl, rfl⟩⟩
  have hk : FilterPresent codeKit p := codeKit_present (by simp [hp]; omega)
  have hsh : Shaped p x := shaped_of (hsig.2 x (by simp))
  have hpad : padOf p x = x := by
    have h1 := addPadding_ok hv hsh
    have hps : paddedShape p = [4 * t] := by
      rw [← paddedShape_spec hv]
      simp [hp, paddedSide]
      omega
    rw [hps] at h1
    have h2 : addPadding x [4 * t] = .ok x := extend_self _ _ _ rfl rfl
    rw [h2] at h1
    injection h1 with h1
    exact h1.symm
  have hL := length_scaling hk (show p.wtype ≠ 0 by simp [hp]; omega)
  refine ⟨⟨p, [[Mat.empty, Mat.empty]]⟩, [x], _, chanP p (scaling codeKit p) nullDenoiser x,
    approxStep p (scaling codeKit p) x, some 2, rfl, hb, by simp [hp], hsig, ?_,
    decompose_ok hb hk (by simp [hp]) hsig (fun _ => nullDenoiser_sized), ?_, by simp, ?_, ?_, ?_, ?_⟩
  · intro m hm i hi j hj
    simp at hm; subst hm
    rw [hx, Mat.get_ofFn (show i < 4 * t from hi) (show j < 1 from hj)]
    split_ifs <;> norm_num
  · have := range_of (b := ⟨p, [[Mat.empty, Mat.empty]]⟩) (d := [chanP p (scaling codeKit p) nullDenoiser x])
      (c := chanP p (scaling codeKit p) nullDenoiser x) rfl
      (by rw [(chanP_sized (k := codeKit) hv nullDenoiser_sized hsh).1]; rfl) 1
    simpa [hp, detailsPerStep] using this
  · have := chanP_last p (scaling codeKit p) nullDenoiser x
    have hl : (chanP p (scaling codeKit p) nullDenoiser x).length = 2 :=
      (chanP_sized (k := codeKit) hv nullDenoiser_sized hsh).1
    have h1 := this default
    rw [hpad] at h1
    rw [List.getElem?_eq_getElem (by omega)]
    congr 1
  · simp [approxStep, hp, Params.dimension, hx]; omega
  · simp [approxStep, hp, Params.dimension]
  · have hd1 : p.dimension = 1 := rfl
    have hr : x.rows = 2 * (2 * t) := by rw [hx]; simp; omega
    have e : (approxStep p (scaling codeKit p) x).get 0 0 = anaP (x.col 0) (scaling codeKit p) 0 := by
      unfold approxStep
      rw [if_pos hd1]
      have : 0 < x.rows / 2 := by omega
      simp [Mat.get, Mat.ofCol, List.getD, this]
    rw [e, ana_col hL hr (by omega)]
    have e2 : ∀ a ∈ range (2 * (2 * t)), kern (2 * (2 * t)) (fl (scaling codeKit p)) (2 * p.wtype) 0 a * x.get a 0 =
        if a = κ then fl (scaling codeKit p) κ else 0 := by
      intro a ha
      rw [mem_range] at ha
      rw [hx, Mat.get_ofFn (by omega) (by omega)]
      split_ifs with hak
      · subst hak
        rw [mul_one]
        unfold kern
        rw [sum_eq_single a]
        · rw [if_pos]; rw [Nat.mul_zero, Nat.zero_add, Nat.mod_eq_of_lt (by omega)]
        · intro j hj hja
          rw [mem_range] at hj
          have : p.wtype = t := rfl
          rw [if_neg]; rw [Nat.mul_zero, Nat.zero_add, Nat.mod_eq_of_lt (by omega)]; exact hja
        · intro hn; exact absurd (mem_range.2 hκ) hn
      · rw [mul_zero]
    rw [sum_congr rfl e2, sum_ite_eq', if_pos (mem_range.2 (by omega)), fl_code]
    have : (((dbCoeffs p.wtype).getD κ 0 : ℚ) : ℝ) < 0 := by exact_mod_cast hneg
    exact mul_neg_of_pos_of_neg (Real.sqrt_pos.2 (by norm_num)) this

/-! ### examples -/

/-- Two decomposed buffers of one form that differ in one coefficient. -/
noncomputable def exA : Buffer ℝ := ⟨⟨[2], 1, 1, 1⟩, [[Mat.ofCol [1], Mat.ofCol [2]]]⟩
/-- The other one. -/
noncomputable def exB : Buffer ℝ := ⟨⟨[2], 1, 1, 1⟩, [[Mat.ofCol [4], Mat.ofCol [2]]]⟩

theorem ex_form : SameForm exA exB ∧ CountableSamples exA.params :=
  ⟨⟨rfl, rfl, .cons (.cons ⟨rfl, rfl⟩ (.cons ⟨rfl, rfl⟩ .nil)) .nil⟩, by decide, by decide, by decide, by decide⟩

example : distance exA exB = .ok (.val (9 / 2)) := by
  rw [C37_distance_formula exA exB ex_form.1 ex_form.2 rfl]
  norm_num [exA, exB, sqDistAll, sqDist, Mat.ofCol, Mat.get]

example : exA.isEmpty = false ∧ energyDistribution exA = [[1, 4]] := by
  have h : exA.isEmpty = false := by simp [exA, Buffer.isEmpty, Mat.ofCol]
  refine ⟨h, ?_⟩
  unfold energyDistribution
  rw [if_neg (by simp [h])]
  norm_num [exA, Mat.ofCol]

example : WellFormed exA ∧ IsSignal exA.params [Mat.ofCol [0, (3 : ℝ)]] ∧ SamplesIn 3 [Mat.ofCol [0, (3 : ℝ)]] := by
  refine ⟨⟨⟨Or.inl rfl, by simp [exA], by simp [exA]⟩, rfl, by simp [exA, subbandCount, detailsPerStep]⟩, ⟨rfl, by simp [HasShape, exA]⟩, ?_⟩
  intro m hm i hi j hj
  simp only [List.mem_singleton] at hm
  subst hm
  have hi' : i = 0 ∨ i = 1 := by simp at hi; omega
  have hj' : j = 0 := by simp at hj; omega
  subst hj'
  rcases hi' with rfl | rfl <;> norm_num [Mat.get, Mat.ofCol]

end WB.Props
