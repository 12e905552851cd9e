import Verif.Proof.Noise
import Verif.Props.Denoise
import Verif.Proof.Means

/-!
C141: noise in the samples and noise in the coefficients.
-/

set_option linter.unusedSectionVars false

namespace WB.Props

open Spec Finset MeasureTheory

/-- Integrals of products of weighted sums of values. -/
theorem integral_sums {Ω ι : Type} [MeasurableSpace Ω] {μ : Measure Ω} (S T : Finset ι) (f g : ι → ℝ) (X Y : ι → Ω → ℝ)
    (hi : ∀ a ∈ S, ∀ b ∈ T, Integrable (fun ω => X a ω * Y b ω) μ) :
    Integrable (fun ω => (∑ a ∈ S, f a * X a ω) * ∑ b ∈ T, g b * Y b ω) μ ∧
      ∫ ω, (∑ a ∈ S, f a * X a ω) * (∑ b ∈ T, g b * Y b ω) ∂μ = ∑ a ∈ S, ∑ b ∈ T, f a * g b * ∫ ω, X a ω * Y b ω ∂μ := by
  have e : (fun ω => (∑ a ∈ S, f a * X a ω) * ∑ b ∈ T, g b * Y b ω) = fun ω => ∑ a ∈ S, ∑ b ∈ T, f a * g b * (X a ω * Y b ω) := by
    funext ω
    rw [sum_mul_sum]
    exact sum_congr rfl fun a _ => sum_congr rfl fun b _ => by ring
  have h1 : ∀ a ∈ S, ∀ b ∈ T, Integrable (fun ω => f a * g b * (X a ω * Y b ω)) μ := fun a ha b hb => (hi a ha b hb).const_mul _
  have h2 : ∀ a ∈ S, Integrable (fun ω => ∑ b ∈ T, f a * g b * (X a ω * Y b ω)) μ := fun a ha => integrable_finsetSum _ (h1 a ha)
  rw [e]
  refine ⟨integrable_finsetSum _ h2, ?_⟩
  rw [integral_finsetSum _ h2]
  refine sum_congr rfl fun a ha => ?_
  rw [integral_finsetSum _ (h1 a ha)]
  exact sum_congr rfl fun b _ => integral_const_mul _ _

/-- C141. If no padding is needed and the filter is orthonormal, the coefficients of white noise (all subbands of all channels) are white noise of
the same variance. -/
theorem C141_white_noise {Ω : Type} [MeasurableSpace Ω] [Nonempty Ω] (μ : Measure Ω) (v : ℝ) (k : Kit ℝ) (b : Buffer ℝ) (hb : WellFormed b)
    (hk : FilterPresent k b.params) (ho : b.params.wtype ≠ 0 → EvenShiftOrthonormal (scalingFilter k b.params)) (hch : 0 < b.params.signalNumber)
    (hdvd : ∀ n ∈ b.params.shape, 2 ^ b.params.steps ∣ n) (x : Ω → List (Mat ℝ)) (hd : ∀ ω, IsSignal b.params (x ω)) (hw : White μ v x) :
    ∃ d : Ω → List (List (Mat ℝ)), (∀ ω, b.decompose k (x ω) nullDenoiser = .ok (d ω) true) ∧ White μ v fun ω => (d ω).flatten := by
  have hv := hb.1
  have hok : OrthoKit k b.params := fun ht => ortho_of hk (ho ht) ht
  set p := b.params with hp
  set h := scaling k p with hh
  refine ⟨fun ω => (x ω).map (chanP p h nullDenoiser), fun ω => decompose_ok hb hk hch (hd ω) (fun _ => nullDenoiser_sized), ?_⟩
  set N := decompositionSize p with hN
  have Npos : 0 < N := by rw [hN]; unfold decompositionSize; omega
  -- where a coefficient is
  have place : ∀ t i j, (∀ ω, Inside ((x ω).map (chanP p h nullDenoiser)).flatten t i j) →
      t / N < p.signalNumber ∧ ∀ ω, ∃ m, (x ω)[t / N]? = some m ∧ Shaped p m ∧
        i < ((chanP p h nullDenoiser m).getD (t % N) default).rows ∧ j < ((chanP p h nullDenoiser m).getD (t % N) default).cols ∧
        valueAt ((x ω).map (chanP p h nullDenoiser)).flatten t i j = ((chanP p h nullDenoiser m).getD (t % N) default).get i j := by
    intro t i j hin
    have one : ∀ ω, t / N < p.signalNumber ∧ ∃ m, (x ω)[t / N]? = some m ∧ Shaped p m ∧
        i < ((chanP p h nullDenoiser m).getD (t % N) default).rows ∧ j < ((chanP p h nullDenoiser m).getD (t % N) default).cols ∧
        valueAt ((x ω).map (chanP p h nullDenoiser)).flatten t i j = ((chanP p h nullDenoiser m).getD (t % N) default).get i j := by
      intro ω
      obtain ⟨m', e1, e2, e3⟩ := hin ω
      have ef : ((x ω).map (chanP p h nullDenoiser)).flatten = (x ω).flatMap (chanP p h nullDenoiser) := (List.flatMap_def ..).symm
      have et : t = t / N * N + t % N := by rw [Nat.mul_comm]; exact (Nat.div_add_mod t N).symm
      have hq : t % N < N := Nat.mod_lt _ Npos
      have g := getElem?_flatMap_const (x ω) (chanP p h nullDenoiser) N (fun m _ => chanP_length p h nullDenoiser m) (t / N) (t % N) hq
      rw [← et] at g
      rw [ef, g] at e1
      obtain ⟨m, q1, q2⟩ := Option.bind_eq_some_iff.1 e1
      have hlt : t / N < (x ω).length := (List.getElem?_eq_some_iff.1 q1).1
      have eg : (chanP p h nullDenoiser m).getD (t % N) default = m' := by rw [List.getD, q2]; rfl
      refine ⟨by rw [← (hd ω).1]; exact hlt, m, q1, shaped_of ((hd ω).2 m (List.mem_of_getElem? q1)), by rw [eg]; exact e2, by rw [eg]; exact e3, ?_⟩
      unfold valueAt
      rw [ef, List.getD, g, q1, eg]
      simp [q2]
    exact ⟨(one (Classical.arbitrary Ω)).1, fun ω => (one ω).2⟩
  -- a coefficient as a weighted sum of samples
  have expand : ∀ t i j, (∀ ω, Inside ((x ω).map (chanP p h nullDenoiser)).flatten t i j) → ∀ ω,
      valueAt ((x ω).map (chanP p h nullDenoiser)).flatten t i j =
        ∑ q ∈ range (matRows p.shape) ×ˢ range (matCols p.shape), (atom k p (t % N) i j).get q.1 q.2 * valueAt (x ω) (t / N) q.1 q.2 := by
    intro t i j hin ω
    obtain ⟨_, hp2⟩ := place t i j hin
    obtain ⟨m, q1, q2, q3, q4, q5⟩ := hp2 ω
    rw [q5, atom_coeff hv hk hok hdvd q2 (Nat.mod_lt _ Npos) q3 q4, sum_product]
    refine sum_congr rfl fun a _ => sum_congr rfl fun c _ => ?_
    unfold valueAt
    rw [List.getD, q1, Option.getD_some]
  have sample : ∀ n, n < p.signalNumber → ∀ q ∈ range (matRows p.shape) ×ˢ range (matCols p.shape), ∀ ω, Inside (x ω) n q.1 q.2 := by
    intro n hn q hq ω
    rw [mem_product, mem_range, mem_range] at hq
    have hlt : n < (x ω).length := by rw [(hd ω).1]; exact hn
    have s := shaped_of ((hd ω).2 _ (List.getElem_mem hlt))
    exact ⟨_, List.getElem?_eq_getElem hlt, by rw [s.1]; exact hq.1, by rw [s.2]; exact hq.2⟩
  intro t i j t' i' j' hin hin'
  have hn := (place t i j hin).1
  have hn' := (place t' i' j' hin').1
  simp only [expand t i j hin, expand t' i' j' hin']
  obtain ⟨r1, r2⟩ := integral_sums (μ := μ) (range (matRows p.shape) ×ˢ range (matCols p.shape)) (range (matRows p.shape) ×ˢ range (matCols p.shape))
    (fun q => (atom k p (t % N) i j).get q.1 q.2) (fun q => (atom k p (t' % N) i' j').get q.1 q.2)
    (fun q ω => valueAt (x ω) (t / N) q.1 q.2) (fun q ω => valueAt (x ω) (t' / N) q.1 q.2)
    (fun a ha c hc => (hw _ _ _ _ _ _ (sample _ hn a ha) (sample _ hn' c hc)).1)
  refine ⟨r1, ?_⟩
  rw [r2]
  by_cases hnn : t / N = t' / N
  · have inner : ∀ a ∈ range (matRows p.shape) ×ˢ range (matCols p.shape),
        ∑ c ∈ range (matRows p.shape) ×ˢ range (matCols p.shape), (atom k p (t % N) i j).get a.1 a.2 * (atom k p (t' % N) i' j').get c.1 c.2 *
          ∫ ω, valueAt (x ω) (t / N) a.1 a.2 * valueAt (x ω) (t' / N) c.1 c.2 ∂μ =
        (atom k p (t % N) i j).get a.1 a.2 * (atom k p (t' % N) i' j').get a.1 a.2 * v := by
      intro a ha
      rw [sum_eq_single a]
      · rw [(hw _ _ _ _ _ _ (sample _ hn a ha) (sample _ hn' a ha)).2, if_pos ⟨hnn, rfl, rfl⟩]
      · intro c hc hne
        rw [(hw _ _ _ _ _ _ (sample _ hn a ha) (sample _ hn' c hc)).2, if_neg, mul_zero]
        rintro ⟨_, g1, g2⟩
        exact hne (Prod.ext g1.symm g2.symm)
      · intro hna; exact absurd ha hna
    rw [sum_congr rfl inner, ← sum_mul, sum_product]
    have ht : t % N < decompositionSize p := Nat.mod_lt _ Npos
    obtain ⟨m, _, q2, q3, q4, _⟩ := (place t i j hin).2 (Classical.arbitrary Ω)
    have same := sized_same (chanP_sized (k := k) hv nullDenoiser_sized q2) (unitChan_sized (k := k) hv (t' % N) i' j') ht
    rw [atom_gram hv hk hok hdvd ht (by rw [← same.1]; exact q3) (by rw [← same.2]; exact q4)]
    have iff : (t % N = t' % N ∧ i = i' ∧ j = j') ↔ (t = t' ∧ i = i' ∧ j = j') := by
      constructor
      · rintro ⟨g, r⟩
        refine ⟨?_, r⟩
        rw [← Nat.div_add_mod t N, ← Nat.div_add_mod t' N, hnn, g]
      · rintro ⟨rfl, r⟩; exact ⟨rfl, r⟩
    by_cases hc : t = t' ∧ i = i' ∧ j = j'
    · rw [if_pos hc, if_pos (iff.2 hc), one_mul]
    · rw [if_neg hc, if_neg (fun g => hc (iff.1 g)), zero_mul]
  · rw [if_neg (by rintro ⟨rfl, _⟩; exact hnn rfl)]
    refine sum_eq_zero fun a ha => sum_eq_zero fun c hc => ?_
    rw [(hw _ _ _ _ _ _ (sample _ hn a ha) (sample _ hn' c hc)).2, if_neg (by rintro ⟨g, _⟩; exact hnn g), mul_zero]

theorem flatten_at {β : Type} {l : List (List β)} {N : ℕ} (hl : ∀ c ∈ l, c.length = N) (n r : ℕ) (hr : r < N) :
    l.flatten[n * N + r]? = l[n]?.bind (·[r]?) := by
  have h := getElem?_flatMap_const l id N hl n r hr
  rw [List.flatMap_id] at h
  exact h

theorem white_energy {Ω : Type} [MeasurableSpace Ω] [Nonempty Ω] (μ : Measure Ω) (v : ℝ) (l : Ω → List (Mat ℝ)) (hw : White μ v l) (t r c : ℕ)
    (hs : ∀ ω, ∃ m, (l ω)[t]? = some m ∧ m.rows = r ∧ m.cols = c) :
    ∫ ω, energy ((l ω).getD t default) ∂μ = r * c * v := by
  have e : (fun ω => energy ((l ω).getD t default)) = fun ω => ∑ i ∈ range r, ∑ j ∈ range c, valueAt (l ω) t i j * valueAt (l ω) t i j := by
    funext ω
    obtain ⟨m, h1, h2, h3⟩ := hs ω
    unfold energy valueAt
    rw [List.getD, h1, Option.getD_some, h2, h3]
  have inside : ∀ i ∈ range r, ∀ j ∈ range c, ∀ ω, Inside (l ω) t i j := by
    intro i hi j hj ω
    obtain ⟨m, h1, h2, h3⟩ := hs ω
    exact ⟨m, h1, by rw [h2]; exact mem_range.1 hi, by rw [h3]; exact mem_range.1 hj⟩
  rw [e, integral_finsetSum _ (fun i hi => integrable_finsetSum _ fun j hj => (hw _ _ _ _ _ _ (inside i hi j hj) (inside i hi j hj)).1)]
  have : ∀ i ∈ range r, ∫ ω, ∑ j ∈ range c, valueAt (l ω) t i j * valueAt (l ω) t i j ∂μ = c * v := by
    intro i hi
    rw [integral_finsetSum _ (fun j hj => (hw _ _ _ _ _ _ (inside i hi j hj) (inside i hi j hj)).1)]
    have : ∀ j ∈ range c, ∫ ω, valueAt (l ω) t i j * valueAt (l ω) t i j ∂μ = v := by
      intro j hj
      rw [(hw _ _ _ _ _ _ (inside i hi j hj) (inside i hi j hj)).2, if_pos (by simp)]
    rw [sum_congr rfl this, sum_const, card_range, nsmul_eq_mul]
  rw [sum_congr rfl this, sum_const, card_range, nsmul_eq_mul]
  ring

/-- Hence the mean energy of every subband is its size times the variance. -/
theorem C141_subband_energy {Ω : Type} [MeasurableSpace Ω] [Nonempty Ω] (μ : Measure Ω) (v : ℝ) (k : Kit ℝ) (b : Buffer ℝ) (hb : WellFormed b)
    (hk : FilterPresent k b.params) (ho : b.params.wtype ≠ 0 → EvenShiftOrthonormal (scalingFilter k b.params)) (hch : 0 < b.params.signalNumber)
    (hdvd : ∀ n ∈ b.params.shape, 2 ^ b.params.steps ∣ n) (x : Ω → List (Mat ℝ)) (hd : ∀ ω, IsSignal b.params (x ω)) (hw : White μ v x) :
    ∃ d : Ω → List (List (Mat ℝ)), (∀ ω, b.decompose k (x ω) nullDenoiser = .ok (d ω) true) ∧
      ∀ t r c : ℕ, (∀ ω, ∃ m, (d ω).flatten[t]? = some m ∧ m.rows = r ∧ m.cols = c) → ∫ ω, energy ((d ω).flatten.getD t default) ∂μ = r * c * v := by
  obtain ⟨d, h1, h2⟩ := C141_white_noise μ v k b hb hk ho hch hdvd x hd hw
  exact ⟨d, h1, fun t r c h => white_energy μ v _ h2 t r c h⟩

/-- What thresholds let through of noise: a coefficient of step `s` survives the threshold denoiser with at most the measure (probability)
`v / (a s + c)²`. -/
theorem C141_threshold_passes {Ω : Type} [MeasurableSpace Ω] [Nonempty Ω] (μ : Measure Ω) (v : ℝ) (k : Kit ℝ) (b : Buffer ℝ) (hb : WellFormed b)
    (hk : FilterPresent k b.params) (ho : b.params.wtype ≠ 0 → EvenShiftOrthonormal (scalingFilter k b.params)) (hch : 0 < b.params.signalNumber)
    (hdvd : ∀ n ∈ b.params.shape, 2 ^ b.params.steps ∣ n) (x : Ω → List (Mat ℝ)) (hd : ∀ ω, IsSignal b.params (x ω)) (hw : White μ v x) (a c : ℝ) :
    ∃ d : Ω → List (List (Mat ℝ)), (∀ ω, b.decompose k (x ω) (thresholdDenoiser (fun y => |y|) a c) = .ok (d ω) true) ∧
      ∀ n < b.params.signalNumber, ∀ s < b.params.steps, 0 < a * s + c → ∀ q < detailsPerStep b.params, ∀ i j : ℕ,
        (∀ ω, Inside ((d ω).getD n []) (s * detailsPerStep b.params + q) i j) →
        μ.real {ω | valueAt ((d ω).getD n []) (s * detailsPerStep b.params + q) i j ≠ 0} ≤ v / (a * s + c) ^ 2 := by
  obtain ⟨d0, hd0, white⟩ := C141_white_noise μ v k b hb hk ho hch hdvd x hd hw
  choose d d' e1 e2 e3 e4 e5 using fun ω => C18_threshold_after_decompose k b hb hk hch (x ω) (hd ω) (fun y => |y|) a c
  obtain rfl : d' = d0 := by
    funext ω
    have := e2 ω
    rw [hd0 ω] at this
    injection this with this
    exact this.symm
  refine ⟨d, e1, ?_⟩
  intro n hn s hs hT q hq i j hin
  set K := detailsPerStep b.params with hK
  set N := subbandCount b.params with hN
  have hr : s * K + q < N := by
    have := Nat.mul_le_mul_right K (Nat.succ_le_of_lt hs)
    rw [Nat.succ_mul] at this
    have e : N = b.params.steps * K + 1 := rfl
    omega
  have key : ∀ ω, Inside (d' ω).flatten (n * N + (s * K + q)) i j ∧
      (valueAt ((d ω).getD n []) (s * K + q) i j ≠ 0 → a * s + c < |valueAt (d' ω).flatten (n * N + (s * K + q)) i j|) := by
    intro ω
    have l1 : n < (d ω).length := by rw [e3 ω, (hd ω).1]; exact hn
    have l2 : n < (d' ω).length := by rw [e4 ω, (hd ω).1]; exact hn
    obtain ⟨g1, g2, _, g4⟩ := e5 ω n _ _ (List.getElem?_eq_getElem l1) (List.getElem?_eq_getElem l2)
    have len : ∀ z ∈ d' ω, z.length = N := by
      intro z hz
      obtain ⟨r, hr', rfl⟩ := List.getElem_of_mem hz
      have hr2 : r < (d ω).length := by rw [e3 ω]; rw [e4 ω] at hr'; exact hr'
      exact (e5 ω r _ _ (List.getElem?_eq_getElem hr2) (List.getElem?_eq_getElem hr')).2.1
    have dn : (d ω).getD n [] = (d ω)[n] := by rw [List.getD, List.getElem?_eq_getElem l1, Option.getD_some]
    obtain ⟨m, m1, m2, m3⟩ := hin ω
    rw [dn] at m1
    have m0lt : s * K + q < ((d' ω)[n]).length := by rw [g2]; exact hr
    obtain ⟨f1, f2, f3⟩ := g4 s hs q hq m _ m1 (List.getElem?_eq_getElem m0lt)
    have at0 : (d' ω).flatten[n * N + (s * K + q)]? = some ((d' ω)[n])[s * K + q] := by
      rw [flatten_at len n _ hr, List.getElem?_eq_getElem l2, Option.bind_some, List.getElem?_eq_getElem m0lt]
    refine ⟨⟨_, at0, by rw [← f1]; exact m2, by rw [← f2]; exact m3⟩, ?_⟩
    intro hne
    unfold valueAt at hne ⊢
    rw [dn, List.getD, m1, Option.getD_some] at hne
    rw [List.getD, at0, Option.getD_some]
    by_contra hle
    exact hne ((f3 i (by rw [← f1]; exact m2) j (by rw [← f2]; exact m3)).2 hle)
  obtain ⟨int, val⟩ := white (n * N + (s * K + q)) i j (n * N + (s * K + q)) i j (fun ω => (key ω).1) (fun ω => (key ω).1)
  rw [if_pos (by simp)] at val
  have T2 : 0 < (a * s + c) ^ 2 := by positivity
  have markov := mul_meas_ge_le_integral_of_nonneg (μ := μ) (Filter.Eventually.of_forall fun ω => mul_self_nonneg _) int ((a * s + c) ^ 2)
  rw [val] at markov
  rw [le_div_iff₀ T2, mul_comm]
  refine le_trans ?_ markov
  refine mul_le_mul_of_nonneg_left ?_ T2.le
  refine measureReal_mono ?_ ?_
  · intro ω hω
    have := (key ω).2 hω
    simp only [Set.mem_ofPred_eq]
    rw [← sq, ← sq_abs (valueAt _ _ _ _)]
    exact pow_le_pow_left₀ hT.le this.le 2
  · exact (int.measure_ge_lt_top T2).ne

/-! ### With padding, and a concrete case -/

/-- One impulse at a random place among `n + 1`, every place being taken once. -/
noncomputable def impulse (n : ℕ) (ω : Fin (n + 1)) : List (Mat ℝ) := [Mat.ofFn (n + 1) 1 fun i _ => if i = ω then 1 else 0]

theorem impulse_white (n : ℕ) : White Measure.count 1 (impulse n) := by
  intro t i j t' i' j' h h'
  refine ⟨Integrable.of_finite, ?_⟩
  rw [integral_count]
  have pos : ∀ {t i j : ℕ}, (∀ ω, Inside (impulse n ω) t i j) → t = 0 ∧ i < n + 1 ∧ j = 0 := by
    intro t i j h
    obtain ⟨m, h1, h2, h3⟩ := h 0
    rcases t with _ | t
    · obtain rfl : Mat.ofFn (n + 1) 1 (fun i _ => if i = ((0 : Fin (n + 1)) : ℕ) then (1 : ℝ) else 0) = m := by simpa [impulse] using h1
      simp only [Mat.rows_ofFn, Mat.cols_ofFn] at h2 h3
      exact ⟨rfl, h2, by omega⟩
    · simp [impulse] at h1
  obtain ⟨rfl, hi, rfl⟩ := pos h
  obtain ⟨rfl, hi', rfl⟩ := pos h'
  have val : ∀ {i : ℕ} (hi : i < n + 1) (ω : Fin (n + 1)), valueAt (impulse n ω) 0 i 0 = if ω = ⟨i, hi⟩ then 1 else 0 := by
    intro i hi ω
    unfold valueAt impulse
    rw [List.getD_cons_zero, Mat.get_ofFn hi (by omega)]
    congr 1
    rw [Fin.ext_iff]
    exact propext eq_comm
  simp only [val hi, val hi', true_and, and_true]
  by_cases e : i = i'
  · subst e
    simp
  · rw [if_neg e]
    refine sum_eq_zero fun ω _ => ?_
    split_ifs with h1 h2
    · subst h1
      exact absurd (by simpa using h2) e
    · simp
    · simp
    · simp

theorem impulse_signal (n c s t : ℕ) (hc : c = 1) (ω : Fin (n + 1)) : IsSignal ⟨[n + 1], c, s, t⟩ (impulse n ω) := by
  subst hc
  refine ⟨rfl, ?_⟩
  intro m hm
  obtain rfl : m = Mat.ofFn (n + 1) 1 fun i _ => if i = (ω : ℕ) then (1 : ℝ) else 0 := by simpa [impulse] using hm
  exact ⟨rfl, rfl⟩

/-- With padding C141 is false: three samples, one step of the Haar wavelet of the code. The last sample is doubled, so the last detail is always
zero. -/
theorem C141_padding_counterexample : let b : Buffer ℝ := ⟨⟨[3], 1, 1, 1⟩, [[Mat.empty, Mat.empty]]⟩
    WellFormed b ∧ FilterPresent codeKit b.params ∧ EvenShiftOrthonormal (scalingFilter codeKit b.params) ∧ (∀ ω, IsSignal b.params (impulse 2 ω)) ∧
    White Measure.count 1 (impulse 2) ∧
    ∃ d : Fin 3 → List (List (Mat ℝ)), (∀ ω, b.decompose codeKit (impulse 2 ω) nullDenoiser = .ok (d ω) true) ∧
      ¬ White Measure.count 1 fun ω => (d ω).flatten := by
  intro b
  have hv : ValidParams b.params := ⟨by simp [b], by simp [b], by simp [b]⟩
  have hb : WellFormed b := ⟨hv, by simp [b], by simp [b, subbandCount, detailsPerStep]⟩
  have hk : FilterPresent codeKit b.params := codeKit_present (by simp [b])
  have hd : ∀ ω, IsSignal b.params (impulse 2 ω) := fun ω => impulse_signal 2 1 1 1 rfl ω
  refine ⟨hb, hk, haar_ortho _ rfl, hd, impulse_white 2, _,
    fun ω => decompose_ok hb hk (by simp [b]) (hd ω) (fun _ => nullDenoiser_sized), ?_⟩
  intro hw
  have dim : b.params.dimension = 1 := rfl
  have hsc : scaling codeKit b.params = [Real.sqrt 2 / 2, Real.sqrt 2 / 2] := haar_scaling rfl
  have form : ∀ ω : Fin 3, ∃ (u : ℝ) (l : Mat ℝ), ((impulse 2 ω).map (chanP b.params (scaling codeKit b.params) nullDenoiser)).flatten = [Mat.ofCol [u, 0], l] := by
    intro ω
    obtain ⟨x0, x1, x2, hx⟩ : ∃ x0 x1 x2 : ℝ, impulse 2 ω = [Mat.ofCol [x0, x1, x2]] := by
      refine ⟨if 0 = (ω : ℕ) then 1 else 0, if 1 = (ω : ℕ) then 1 else 0, if 2 = (ω : ℕ) then 1 else 0, ?_⟩
      unfold impulse
      rfl
    have e1 : matRows (paddedShape b.params) = 4 := by decide +kernel
    have e2 : matCols (paddedShape b.params) = 1 := by decide +kernel
    have hpad : padOf b.params (Mat.ofCol [x0, x1, x2]) = Mat.ofCol [x0, x1, x2, x2] := by
      unfold padOf
      rw [if_neg (by simp [b]), e1, e2, Mat.eq_iff]
      refine ⟨rfl, rfl, ?_⟩
      simp [Mat.ofFn, Mat.get, Mat.ofCol, clampIdx, padOffset, List.range, List.range.loop]
    refine ⟨x0 * (Real.sqrt 2 / 2) + -(x1 * (Real.sqrt 2 / 2)), approxStep b.params (scaling codeKit b.params) (Mat.ofCol [x0, x1, x2, x2]), ?_⟩
    rw [hx]
    simp only [List.map_cons, List.map_nil, List.flatten_cons, List.flatten_nil, List.append_nil]
    unfold chanP
    rw [hpad]
    have st : b.params.steps = 1 := rfl
    have r1 : List.range 1 = [0] := rfl
    rw [st, r1]
    simp only [List.flatMap_cons, List.flatMap_nil, List.append_nil, sig]
    unfold detailStep
    rw [if_pos dim, Mat.col_ofCol, hsc]
    simp [anaP, qmf, nullDenoiser, List.range, List.range.loop]
  have := (hw 0 1 0 0 1 0 (fun ω => ?_) (fun ω => ?_)).2
  · rw [integral_count, if_pos (by simp)] at this
    rw [sum_eq_zero] at this
    · exact zero_ne_one this
    · intro ω _
      obtain ⟨u, l, e⟩ := form ω
      unfold valueAt
      beta_reduce
      rw [e]
      simp [Mat.get, Mat.ofCol]
  all_goals
    obtain ⟨u, l, e⟩ := form ω
    beta_reduce
    rw [e]
    exact ⟨_, rfl, by simp, by simp⟩

/-- The hypotheses of C141 for signals of four samples and two steps of the Haar wavelet of the code. -/
example : let b : Buffer ℝ := ⟨⟨[4], 1, 2, 1⟩, [[Mat.empty, Mat.empty, Mat.empty]]⟩
    WellFormed b ∧ FilterPresent codeKit b.params ∧ EvenShiftOrthonormal (scalingFilter codeKit b.params) ∧
      (∀ n ∈ b.params.shape, 2 ^ b.params.steps ∣ n) ∧ (∀ ω, IsSignal b.params (impulse 3 ω)) ∧ White Measure.count 1 (impulse 3) := by
  intro b
  exact ⟨⟨⟨by simp [b], by simp [b], by simp [b]⟩, by simp [b], by simp [b, subbandCount, detailsPerStep]⟩, codeKit_present (by simp [b]),
    haar_ortho _ rfl, by simp [b], fun ω => impulse_signal 3 1 2 1 rfl ω, impulse_white 3⟩

end WB.Props
