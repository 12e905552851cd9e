import Verif.Props.Linear
import Verif.Proof.Structure
import Verif.Spec.Structure

/-!
C95: circular shifts. C96: images that are products of two signals. C97: transposed images. C98: which samples a coefficient depends on.
The scalars form any commutative ring and the filter is arbitrary.
-/

set_option linter.unusedSectionVars false

namespace WB.Props

open Finset Spec

section Ring
variable {R : Type} [CommRing R] [Inhabited R]

theorem chan_detail {k : Kit R} {p : Params} (hv : ValidParams p) (hf : FilterLen k p) {x : Mat R} (hx : Shaped p x) {s q : ℕ}
    (hs : s < p.steps) (hq : q < detailsPerStep p) :
    (chanP p (scaling k p) nullDenoiser x)[s * detailsPerStep p + q]? =
      some (stepSub p (scaling k p) (rOff p q) (cOff p q) (sig p (scaling k p) (padOf p x) s)) := by
  have hlt : s * detailsPerStep p + q < (chanP p (scaling k p) nullDenoiser x).length := by
    rw [chanP_length]
    have h1 : (s + 1) * detailsPerStep p ≤ p.steps * detailsPerStep p := Nat.mul_le_mul_right _ hs
    have e : decompositionSize p = p.steps * detailsPerStep p + 1 := by
      unfold decompositionSize; rw [subbandsPerWT_eq, Nat.mul_comm]
    rw [Nat.succ_mul] at h1
    omega
  have h := chanP_detail p (scaling k p) nullDenoiser x hs (j := q) (by rw [subbandsPerWT_eq]; exact hq) default
  rw [subbandsPerWT_eq, List.getD, List.getElem?_eq_getElem hlt, Option.getD_some,
    detail_sub hv hf hs (fits_sig hv (fits_padOf hv hx) (by omega)) (by rw [subbandsPerWT_eq]; exact hq)] at h
  rw [List.getElem?_eq_getElem hlt, h]

theorem chan_last {k : Kit R} {p : Params} {x : Mat R} :
    (chanP p (scaling k p) nullDenoiser x)[p.steps * detailsPerStep p]? = some (sig p (scaling k p) (padOf p x) p.steps) := by
  have hlt : p.steps * detailsPerStep p < (chanP p (scaling k p) nullDenoiser x).length := by
    rw [chanP_length]
    unfold decompositionSize; rw [subbandsPerWT_eq, Nat.mul_comm]; omega
  have h := chanP_last p (scaling k p) nullDenoiser x default
  rw [subbandsPerWT_eq, List.getD, List.getElem?_eq_getElem hlt, Option.getD_some] at h
  rw [List.getElem?_eq_getElem hlt, h]

theorem sig_sub {k : Kit R} {p : Params} (hv : ValidParams p) (hf : FilterLen k p) {m : Mat R} (hm : Fits p 0 m) {s : ℕ}
    (hs : s < p.steps) : sig p (scaling k p) m (s + 1) = stepSub p (scaling k p) false false (sig p (scaling k p) m s) :=
  approx_sub hv hf hs (fits_sig hv hm (by omega))

theorem padOf_self {p : Params} (hv : ValidParams p) {m : Mat R} (hm : Shaped p m)
    (hdvd : ∀ n ∈ p.shape, 2 ^ p.steps ∣ n) : padOf p m = m := by
  have h := addPadding_ok hv hm
  have e : paddedShape p = p.shape := by
    rw [← paddedShape_spec hv]
    conv_rhs => rw [← List.map_id p.shape]
    apply List.map_congr_left
    intro n hn
    unfold paddedSide
    split_ifs
    · rfl
    · obtain ⟨c, rfl⟩ := hdvd n hn
      have h2 : 0 < 2 ^ p.steps := by positivity
      have : (2 ^ p.steps * c + 2 ^ p.steps - 1) / 2 ^ p.steps = c := by
        rw [Nat.add_sub_assoc h2, Nat.mul_add_div h2, Nat.div_eq_of_lt (by omega)]; rfl
      rw [this, Nat.mul_comm]; rfl
  rw [e] at h
  unfold addPadding at h
  rw [extend_self _ _ _ hm.1 hm.2] at h
  injection h with h
  exact h.symm

/-- Size of a matrix in the middle of a decomposition. -/
def Halves (p : Params) (m : Mat R) : Prop :=
  (0 < m.rows / 2 ∧ m.rows = 2 * (m.rows / 2)) ∧
  if p.dimension = 1 then m.cols = 1 else 0 < m.cols / 2 ∧ m.cols = 2 * (m.cols / 2)

theorem halves_of_fits {p : Params} (hv : ValidParams p) {s : ℕ} (hs : s < p.steps) {m : Mat R} (hm : Fits p s m) : Halves p m := by
  have ht := wavelet_of_steps hv hs
  rcases fits_halves hv ht hs hm with ⟨hd, n2, h1, h2, h3, h4⟩ | ⟨hd, sh, sw, h1, h2, h3, h4, h5, h6, _⟩
  · exact ⟨by omega, by rw [if_pos hd]; exact h2⟩
  · exact ⟨by omega, by rw [if_neg (by omega)]; omega⟩

/-! ### shifts -/

theorem roll_index {n i u a : ℕ} (h : n = 2 * (n / 2)) : ((2 * i + u) % n + 2 * a) % n = (2 * ((i + a) % (n / 2)) + u) % n := by
  rw [Nat.mod_add_mod, ← Nat.mul_mod_mul_left, ← h, Nat.mod_add_mod]
  congr 1; ring

theorem stepSub_roll {p : Params} {h : List R} {m : Mat R} (he : Halves p m) (rb cb : Bool) (a c : ℕ) :
    stepSub p h rb cb (roll (2 * a) (2 * c) m) = roll a c (stepSub p h rb cb m) := by
  obtain ⟨⟨r0, r1⟩, hc⟩ := he
  refine Mat.ext' rfl rfl ?_
  intro i hi j hj
  unfold roll stepSub at *
  simp only [Mat.rows_ofFn, Mat.cols_ofFn] at hi hj ⊢
  rw [Mat.get_ofFn hi hj, Mat.get_ofFn hi hj]
  have hC : 0 < (if p.dimension = 1 then 1 else m.cols / 2) := by omega
  rw [Mat.get_ofFn (Nat.mod_lt _ r0) (Nat.mod_lt _ hC)]
  refine sum_congr rfl fun u _ => ?_
  congr 1
  refine sum_congr rfl fun v _ => ?_
  congr 1
  have mc : 0 < m.cols := by by_cases hd : p.dimension = 1 <;> simp only [hd, if_true, if_false] at hc <;> omega
  rw [Mat.get_ofFn (Nat.mod_lt _ (by omega)) (Nat.mod_lt _ mc), roll_index r1]
  congr 1
  by_cases hd : p.dimension = 1
  · simp only [hd, if_true] at hc
    rw [hc]; omega
  · simp only [hd, if_false] at hc ⊢
    exact roll_index hc.2

theorem roll_shaped {p : Params} {m : Mat R} {a c : ℕ} (h : Shaped p m) : Shaped p (roll a c m) := h

theorem sig_roll {k : Kit R} {p : Params} (hv : ValidParams p) (hf : FilterLen k p) {m : Mat R} (hm : Fits p 0 m) (a c : ℕ) {s : ℕ}
    (hs : s ≤ p.steps) :
    sig p (scaling k p) (roll (2 ^ p.steps * a) (2 ^ p.steps * c) m) s =
      roll (2 ^ (p.steps - s) * a) (2 ^ (p.steps - s) * c) (sig p (scaling k p) m s) := by
  induction s with
  | zero => rfl
  | succ s ih =>
    have hm' : Fits p 0 (roll (2 ^ p.steps * a) (2 ^ p.steps * c) m) := hm
    rw [sig_sub hv hf hm' (by omega), ih (by omega), sig_sub hv hf hm (by omega)]
    have e : ∀ z, 2 ^ (p.steps - s) * z = 2 * (2 ^ (p.steps - (s + 1)) * z) := by
      intro z
      rw [show p.steps - s = (p.steps - (s + 1)) + 1 by omega, pow_succ]; ring
    rw [e, e, stepSub_roll (halves_of_fits hv (by omega) (fits_sig hv hm (by omega)))]

/-- C95. If the sides are multiples of `2^steps`, shifting a signal circularly by `2^steps · a` rows and `2^steps · c` columns shifts
every subband circularly, the details of step `s` by `2^(steps - 1 - s)` times `a` and `c` and the approximation by `a` and `c`, and
changes nothing else. (In one dimension there is one column, and shifting columns does nothing.) -/
theorem C95_circular_shift (k : Kit R) (b : Buffer R) (hb : WellFormed b) (hk : FilterPresent k b.params)
    (hch : 0 < b.params.signalNumber) (data : List (Mat R)) (hd : IsSignal b.params data)
    (hdvd : ∀ n ∈ b.params.shape, 2 ^ b.params.steps ∣ n) (a c : ℕ) :
    ∃ d d', b.decompose k data nullDenoiser = .ok d true ∧
      b.decompose k (data.map (roll (2 ^ b.params.steps * a) (2 ^ b.params.steps * c))) nullDenoiser = .ok d' true ∧
      d.length = data.length ∧ d'.length = data.length ∧
      ∀ (n : ℕ) (x y : List (Mat R)), d[n]? = some x → d'[n]? = some y →
        (∀ s < b.params.steps, ∀ q < detailsPerStep b.params, ∃ m, x[s * detailsPerStep b.params + q]? = some m ∧
          y[s * detailsPerStep b.params + q]? =
            some (roll (2 ^ (b.params.steps - 1 - s) * a) (2 ^ (b.params.steps - 1 - s) * c) m)) ∧
        ∃ m, x[b.params.steps * detailsPerStep b.params]? = some m ∧
          y[b.params.steps * detailsPerStep b.params]? = some (roll a c m) := by
  have hv := hb.1
  set p := b.params with hp
  have hd' : IsSignal p (data.map (roll (2 ^ p.steps * a) (2 ^ p.steps * c))) := by
    refine ⟨by rw [List.length_map]; exact hd.1, ?_⟩
    intro m hm
    obtain ⟨m0, h0, rfl⟩ := List.mem_map.1 hm
    exact of_shaped hv (roll_shaped (shaped_of (hd.2 m0 h0)))
  refine ⟨_, _, decompose_ok hb hk hch hd (fun _ => nullDenoiser_sized), decompose_ok hb hk hch hd' (fun _ => nullDenoiser_sized),
    by simp, by simp, ?_⟩
  intro n x y hx hy
  simp only [List.getElem?_map, Option.map_eq_some_iff] at hx hy
  obtain ⟨m, hm, rfl⟩ := hx
  obtain ⟨m', ⟨m2, hm2, rfl⟩, rfl⟩ := hy
  obtain rfl : m = m2 := by rw [hm] at hm2; exact Option.some.inj hm2
  have hsm : Shaped p m := shaped_of (hd.2 m (List.mem_of_getElem? hm))
  have hsm' : Shaped p (roll (2 ^ p.steps * a) (2 ^ p.steps * c) m) := roll_shaped hsm
  have hf0 : Fits p 0 m := by have := fits_padOf hv hsm; rwa [padOf_self hv hsm hdvd] at this
  rw [← hp]
  refine ⟨fun s hs q hq => ⟨_, chan_detail hv hk hsm hs hq, ?_⟩, _, chan_last, ?_⟩
  · rw [chan_detail hv hk hsm' hs hq, padOf_self hv hsm hdvd, padOf_self hv hsm' hdvd, sig_roll hv hk hf0 a c (by omega)]
    have e : ∀ z, 2 ^ (p.steps - s) * z = 2 * (2 ^ (p.steps - 1 - s) * z) := by
      intro z
      rw [show p.steps - s = (p.steps - 1 - s) + 1 by omega, pow_succ]; ring
    rw [e, e, stepSub_roll (halves_of_fits hv hs (fits_sig hv hf0 (by omega)))]
  · rw [chan_last, padOf_self hv hsm hdvd, padOf_self hv hsm' hdvd, sig_roll hv hk hf0 a c le_rfl]
    simp

/-! ### transposed images -/

/-- The same parameters for images with width and height exchanged. -/
def flipped (p : Params) (w h : ℕ) : Params := { p with shape := [h, w] }

theorem stepSub_transposed {p : Params} {w h : ℕ} (hp : p.shape = [w, h]) {f : List R} {m : Mat R} (he : Halves p m) (rb cb : Bool) :
    stepSub (flipped p w h) f cb rb (transposed m) = transposed (stepSub p f rb cb m) := by
  have hd : ¬ p.dimension = 1 := by simp [Params.dimension, hp]
  have hd' : ¬ (flipped p w h).dimension = 1 := by simp [Params.dimension, flipped]
  obtain ⟨⟨r0, r1⟩, hc⟩ := he
  rw [if_neg hd] at hc
  refine Mat.ext' ?_ ?_ ?_
  · simp [stepSub, transposed, hd]
  · simp [stepSub, transposed, hd']
  intro i hi j hj
  unfold transposed stepSub tapsC tapC at *
  simp only [Mat.rows_ofFn, Mat.cols_ofFn, if_neg hd, if_neg hd'] at hi hj ⊢
  rw [Mat.get_ofFn hi hj, Mat.get_ofFn (by simpa [hd] using hi) (by simpa [hd] using hj), Mat.get_ofFn hj (by simpa [hd] using hi)]
  have e : (flipped p w h).wtype = p.wtype := rfl
  simp_rw [e, mul_sum]
  rw [sum_comm]
  refine sum_congr rfl fun u _ => sum_congr rfl fun v _ => ?_
  rw [Mat.get_ofFn (Nat.mod_lt _ (by omega)) (Nat.mod_lt _ (by omega))]
  ring

theorem sig_transposed {k : Kit R} {p : Params} {w h : ℕ} (hp : p.shape = [w, h]) (hv : ValidParams p)
    (hv' : ValidParams (flipped p w h)) (hf : FilterLen k p) {m : Mat R} (hm : Fits p 0 m) (hm' : Fits (flipped p w h) 0 (transposed m))
    {s : ℕ} (hs : s ≤ p.steps) :
    sig (flipped p w h) (scaling k p) (transposed m) s = transposed (sig p (scaling k p) m s) := by
  induction s with
  | zero => rfl
  | succ s ih =>
    have e : sig (flipped p w h) (scaling k p) (transposed m) (s + 1) =
        stepSub (flipped p w h) (scaling k p) false false (sig (flipped p w h) (scaling k p) (transposed m) s) :=
      sig_sub (k := k) hv' hf hm' (show s < p.steps by omega)
    rw [e, ih (by omega), sig_sub hv hf hm (by omega), stepSub_transposed hp (halves_of_fits hv (by omega) (fits_sig hv hm (by omega)))]

theorem padOf_transposed {p : Params} {w h : ℕ} (hp : p.shape = [w, h]) (hv : ValidParams p) {m : Mat R} (hm : Shaped p m) :
    padOf (flipped p w h) (transposed m) = transposed (padOf p m) := by
  unfold padOf
  by_cases ht : p.wtype = 0
  · rw [if_pos ht, if_pos (show (flipped p w h).wtype = 0 from ht)]
  · rw [if_neg ht, if_neg (show ¬ (flipped p w h).wtype = 0 from ht)]
    have e1 : matRows (paddedShape (flipped p w h)) = matCols (paddedShape p) := by
      rw [paddedShape_of_wavelet ht, paddedShape_of_wavelet (p := flipped p w h) ht, hp]; rfl
    have e2 : matCols (paddedShape (flipped p w h)) = matRows (paddedShape p) := by
      rw [paddedShape_of_wavelet ht, paddedShape_of_wavelet (p := flipped p w h) ht, hp]; rfl
    obtain ⟨h1, h2, h3, h4⟩ := padded_ge hv ht
    obtain ⟨hr, hc⟩ := hm
    refine Mat.ext' ?_ ?_ ?_
    · simp [transposed, e1]
    · simp [transposed, e2]
    intro i hi j hj
    simp only [Mat.rows_ofFn, Mat.cols_ofFn, e1, e2] at hi hj
    rw [Mat.get_ofFn (by rw [e1]; exact hi) (by rw [e2]; exact hj)]
    unfold transposed
    simp only [Mat.rows_ofFn, Mat.cols_ofFn]
    rw [Mat.get_ofFn hi hj, Mat.get_ofFn hj hi, Mat.get_ofFn]
    · rw [e1, e2]
    · unfold clampIdx; omega
    · unfold clampIdx; omega

/-- C97. Decomposing the transposed image gives the transposed subbands, where the two mixed details of every step have changed
places. Padding is included. -/
theorem C97_transposed_image (k : Kit R) (b b' : Buffer R) (w h : ℕ) (hs : b.params.shape = [w, h])
    (hp' : b'.params = { b.params with shape := [h, w] }) (hb : WellFormed b) (hb' : WellFormed b') (hk : FilterPresent k b.params)
    (hch : 0 < b.params.signalNumber) (data : List (Mat R)) (hd : IsSignal b.params data) :
    ∃ d d', b.decompose k data nullDenoiser = .ok d true ∧
      b'.decompose k (data.map transposed) nullDenoiser = .ok d' true ∧
      d.length = data.length ∧ d'.length = data.length ∧
      ∀ (n : ℕ) (x y : List (Mat R)), d[n]? = some x → d'[n]? = some y →
        (∀ s < b.params.steps, ∃ lh hl hh, x[s * 3]? = some lh ∧ x[s * 3 + 1]? = some hl ∧ x[s * 3 + 2]? = some hh ∧
          y[s * 3]? = some (transposed hl) ∧ y[s * 3 + 1]? = some (transposed lh) ∧ y[s * 3 + 2]? = some (transposed hh)) ∧
        ∃ m, x[b.params.steps * 3]? = some m ∧ y[b.params.steps * 3]? = some (transposed m) := by
  have hv := hb.1
  have hv' := hb'.1
  have hp' : b'.params = flipped b.params w h := hp'
  rw [hp'] at hv'
  have hsh : ∀ m ∈ data, Shaped (flipped b.params w h) (transposed m) := by
    intro m hm
    have := shaped_of (hd.2 m hm)
    unfold Shaped at this ⊢
    rw [hs] at this
    exact ⟨this.2, this.1⟩
  have hd' : IsSignal b'.params (data.map transposed) := by
    rw [hp']
    refine ⟨by rw [List.length_map]; exact hd.1, ?_⟩
    intro m hm
    obtain ⟨m0, h0, rfl⟩ := List.mem_map.1 hm
    exact of_shaped hv' (hsh m0 h0)
  have hdec := decompose_ok (k := k) hb' (by rw [hp']; exact hk) (by rw [hp']; exact hch) hd' (fun _ => nullDenoiser_sized)
  refine ⟨_, _, decompose_ok hb hk hch hd (fun _ => nullDenoiser_sized), hdec, by simp, by simp, ?_⟩
  intro n x y hx hy
  simp only [List.getElem?_map, Option.map_eq_some_iff] at hx hy
  obtain ⟨m, hm, rfl⟩ := hx
  obtain ⟨m', ⟨m2, hm2, rfl⟩, rfl⟩ := hy
  obtain rfl : m = m2 := by rw [hm] at hm2; exact Option.some.inj hm2
  have hmem := List.mem_of_getElem? hm
  have hsm : Shaped b.params m := shaped_of (hd.2 m hmem)
  have hsm' := hsh m hmem
  have hf0 := fits_padOf hv hsm
  have hf0' := fits_padOf hv' hsm'
  rw [padOf_transposed hs hv hsm] at hf0'
  have hd1 : ¬ b.params.dimension = 1 := by simp [Params.dimension, hs]
  have hd1' : ¬ (flipped b.params w h).dimension = 1 := by simp [Params.dimension, flipped]
  have h3 : detailsPerStep b.params = 3 := by simp [detailsPerStep, hs]
  have h3' : detailsPerStep (flipped b.params w h) = 3 := by simp [detailsPerStep, flipped]
  rw [hp']
  have det : ∀ s < b.params.steps, ∀ q < 3, (chanP b.params (scaling k b.params) nullDenoiser m)[s * 3 + q]? =
      some (stepSub b.params (scaling k b.params) (rOff b.params q) (cOff b.params q) (sig b.params (scaling k b.params) (padOf b.params m) s)) := by
    intro s hs q hq
    have := chan_detail hv hk hsm hs (q := q) (by omega)
    rwa [h3] at this
  have det' : ∀ s < b.params.steps, ∀ q < 3,
      (chanP (flipped b.params w h) (scaling k (flipped b.params w h)) nullDenoiser (transposed m))[s * 3 + q]? =
        some (transposed (stepSub b.params (scaling k b.params) (cOff b.params q) (rOff b.params q)
          (sig b.params (scaling k b.params) (padOf b.params m) s))) := by
    intro s hss q hq
    have := chan_detail (k := k) hv' hk hsm' hss (q := q) (by rw [h3']; exact hq)
    rw [h3'] at this
    refine this.trans ?_
    have e1 : rOff (flipped b.params w h) q = rOff b.params q := by unfold rOff; rw [if_neg hd1, if_neg hd1']
    have e2 : cOff (flipped b.params w h) q = cOff b.params q := by unfold cOff; rw [if_neg hd1, if_neg hd1']
    have := padOf_transposed hs hv hsm
    have g := sig_transposed (k := k) hs hv hv' hk hf0 hf0' (s := s) (by omega)
    rw [← stepSub_transposed hs (halves_of_fits hv hss (fits_sig hv hf0 (by omega))), ← g, ← this, ← e1, ← e2]
    rfl
  refine ⟨fun s hss => ⟨_, _, _, det s hss 0 (by omega), det s hss 1 (by omega), det s hss 2 (by omega), ?_, ?_, ?_⟩,
    sig b.params (scaling k b.params) (padOf b.params m) b.params.steps, ?_, ?_⟩
  · refine (det' s hss 0 (by omega)).trans ?_
    simp [rOff, cOff, hd1]
  · refine (det' s hss 1 (by omega)).trans ?_
    simp [rOff, cOff, hd1]
  · refine (det' s hss 2 (by omega)).trans ?_
    simp [rOff, cOff, hd1]
  · have := chan_last (k := k) (p := b.params) (x := m)
    rwa [h3] at this
  · have := chan_last (k := k) (p := flipped b.params w h) (x := transposed m)
    rw [h3'] at this
    refine this.trans ?_
    rw [padOf_transposed hs hv hsm]
    exact congrArg some (sig_transposed (k := k) hs hv hv' hk hf0 hf0' le_rfl)

/-! ### products of two signals -/

/-- Parameters for one line of an image. -/
def lineOf (p : Params) (n : ℕ) : Params := { p with shape := [n] }

theorem stepSub_outer {p : Params} {w h : ℕ} (hp : p.shape = [w, h]) {f : List R} {u v : Mat R} (hu : 0 < u.rows)
    (hu1 : u.cols = 1) (hv : 0 < v.rows) (hv1 : v.cols = 1) (rb cb : Bool) :
    stepSub p f rb cb (outer u v) = outer (stepSub (lineOf p h) f rb false u) (stepSub (lineOf p w) f cb false v) := by
  have hd : ¬ p.dimension = 1 := by simp [Params.dimension, hp]
  have hd1 : ∀ n, (lineOf p n).dimension = 1 := fun n => rfl
  refine Mat.ext' ?_ ?_ ?_
  · simp [stepSub, outer]
  · simp [stepSub, outer, hd]
  intro i hi j hj
  unfold outer stepSub tapsC tapC at *
  simp only [Mat.rows_ofFn, Mat.cols_ofFn, if_neg hd, if_pos (hd1 _)] at hi hj ⊢
  rw [Mat.get_ofFn hi (by simpa [hd] using hj), Mat.get_ofFn hi hj, Mat.get_ofFn hi (by omega), Mat.get_ofFn hj (by omega)]
  simp only [sum_range_one, one_mul, hu1, hv1, Nat.mod_one, lineOf]
  rw [sum_mul_sum]
  refine sum_congr rfl fun a _ => ?_
  rw [mul_sum]
  refine sum_congr rfl fun b _ => ?_
  rw [Mat.get_ofFn (Nat.mod_lt _ hu) (Nat.mod_lt _ hv)]
  ring

theorem fits_line {p : Params} (hv : ValidParams p) (hd : p.dimension = 1) {s : ℕ} (hs : s < p.steps) {m : Mat R} (hm : Fits p s m) :
    0 < m.rows ∧ m.cols = 1 := by
  obtain ⟨⟨h1, h2⟩, h3⟩ := halves_of_fits hv hs hm
  rw [if_pos hd] at h3
  exact ⟨by omega, h3⟩

theorem sig_outer {k : Kit R} {p : Params} {w h : ℕ} (hp : p.shape = [w, h]) (hv : ValidParams p) (hvu : ValidParams (lineOf p h))
    (hvv : ValidParams (lineOf p w)) (hf : FilterLen k p) {u v : Mat R} (hm : Fits p 0 (outer u v)) (hu : Fits (lineOf p h) 0 u)
    (hw : Fits (lineOf p w) 0 v) {s : ℕ} (hs : s ≤ p.steps) :
    sig p (scaling k p) (outer u v) s =
      outer (sig (lineOf p h) (scaling k p) u s) (sig (lineOf p w) (scaling k p) v s) := by
  induction s with
  | zero => rfl
  | succ s ih =>
    have e1 : sig (lineOf p h) (scaling k p) u (s + 1) =
        stepSub (lineOf p h) (scaling k p) false false (sig (lineOf p h) (scaling k p) u s) :=
      sig_sub (k := k) hvu hf hu (show s < p.steps by omega)
    have e2 : sig (lineOf p w) (scaling k p) v (s + 1) =
        stepSub (lineOf p w) (scaling k p) false false (sig (lineOf p w) (scaling k p) v s) :=
      sig_sub (k := k) hvv hf hw (show s < p.steps by omega)
    obtain ⟨a1, a2⟩ := fits_line hvu rfl (s := s) (show s < p.steps by omega) (fits_sig (k := k) hvu hu (show s ≤ p.steps by omega))
    obtain ⟨b1, b2⟩ := fits_line hvv rfl (s := s) (show s < p.steps by omega) (fits_sig (k := k) hvv hw (show s ≤ p.steps by omega))
    rw [sig_sub hv hf hm (by omega), ih (by omega), e1, e2]
    exact stepSub_outer hp a1 a2 b1 b2 false false

theorem padOf_outer {p : Params} {w h : ℕ} (hp : p.shape = [w, h]) (hvu : ValidParams (lineOf p h))
    (hvv : ValidParams (lineOf p w)) {u v : Mat R} (hu : Shaped (lineOf p h) u) (hw : Shaped (lineOf p w) v) :
    padOf p (outer u v) = outer (padOf (lineOf p h) u) (padOf (lineOf p w) v) := by
  unfold padOf
  by_cases ht : p.wtype = 0
  · rw [if_pos ht, if_pos (show (lineOf p h).wtype = 0 from ht), if_pos (show (lineOf p w).wtype = 0 from ht)]
  · rw [if_neg ht, if_neg (show ¬ (lineOf p h).wtype = 0 from ht), if_neg (show ¬ (lineOf p w).wtype = 0 from ht)]
    have e1 : matRows (paddedShape p) = matRows (paddedShape (lineOf p h)) := by
      rw [paddedShape_of_wavelet ht, paddedShape_of_wavelet (p := lineOf p h) ht, hp]; rfl
    have e2 : matCols (paddedShape p) = matRows (paddedShape (lineOf p w)) := by
      rw [paddedShape_of_wavelet ht, paddedShape_of_wavelet (p := lineOf p w) ht, hp]; rfl
    have c1 : ∀ n, matCols (paddedShape (lineOf p n)) = 1 := by
      intro n; rw [paddedShape_of_wavelet (p := lineOf p n) ht]; rfl
    obtain ⟨g1, _, g3, _⟩ := padded_ge hvu ht
    obtain ⟨k1, _, k3, _⟩ := padded_ge hvv ht
    obtain ⟨r1, c2⟩ := hu
    obtain ⟨r2, c3⟩ := hw
    have c2 : u.cols = 1 := c2
    have c3 : v.cols = 1 := c3
    refine Mat.ext' ?_ ?_ ?_
    · simp [outer, e1]
    · simp [outer, e2]
    intro i hi j hj
    simp only [Mat.rows_ofFn, Mat.cols_ofFn] at hi hj
    rw [Mat.get_ofFn hi hj]
    unfold outer
    simp only [Mat.rows_ofFn, Mat.cols_ofFn]
    rw [Mat.get_ofFn (by unfold clampIdx; omega) (by unfold clampIdx; omega), Mat.get_ofFn (by omega) (by omega),
      Mat.get_ofFn (by omega) (by rw [c1]; omega), Mat.get_ofFn (by omega) (by rw [c1]; omega), e1, e2, c1, c1, c2, c3]
    simp [clampIdx]

/-- C96. If every channel of an image is the product `u vᵀ` of two signals, its approximation is the product of the approximations of
the two signals, and the diagonal details of every step are the product of their details; padding is included. The image is processed
by matrices and the signals by filter loops. -/
theorem C96_product_image (k : Kit R) (b bu bv : Buffer R) (w h : ℕ) (hs : b.params.shape = [w, h])
    (hpu : bu.params = { b.params with shape := [h] }) (hpv : bv.params = { b.params with shape := [w] }) (hb : WellFormed b)
    (hbu : WellFormed bu) (hbv : WellFormed bv) (hk : FilterPresent k b.params) (hch : 0 < b.params.signalNumber)
    (us vs : List (Mat R)) (hu : IsSignal bu.params us) (hv : IsSignal bv.params vs) :
    ∃ d du dv, b.decompose k (List.zipWith outer us vs) nullDenoiser = .ok d true ∧ bu.decompose k us nullDenoiser = .ok du true ∧
      bv.decompose k vs nullDenoiser = .ok dv true ∧
      d.length = b.params.signalNumber ∧ du.length = b.params.signalNumber ∧ dv.length = b.params.signalNumber ∧
      ∀ (n : ℕ) (c cu cv : List (Mat R)), d[n]? = some c → du[n]? = some cu → dv[n]? = some cv →
        (∀ s < b.params.steps, ∃ x y, cu[s]? = some x ∧ cv[s]? = some y ∧ c[s * 3 + 2]? = some (outer x y)) ∧
        ∃ x y, cu[b.params.steps]? = some x ∧ cv[b.params.steps]? = some y ∧ c[b.params.steps * 3]? = some (outer x y) := by
  have hpu : bu.params = lineOf b.params h := hpu
  have hpv : bv.params = lineOf b.params w := hpv
  have vp := hb.1
  have vu := hbu.1
  have vv := hbv.1
  rw [hpu] at vu hu
  rw [hpv] at vv hv
  have lu : us.length = b.params.signalNumber := hu.1
  have lv : vs.length = b.params.signalNumber := hv.1
  have hd : IsSignal b.params (List.zipWith outer us vs) := by
    refine ⟨by simp [lu, lv], ?_⟩
    intro m hm
    obtain ⟨n, hn, rfl⟩ := List.mem_iff_getElem.1 hm
    have h1 : n < us.length := by simp at hn; omega
    have h2 : n < vs.length := by simp at hn; omega
    rw [List.getElem_zipWith, hs]
    exact ⟨(hu.2 _ (List.getElem_mem h1)).1, (hv.2 _ (List.getElem_mem h2)).1⟩
  have du := decompose_ok (k := k) hbu (by rw [hpu]; exact hk) (by rw [hpu]; exact hch) (by rw [hpu]; exact hu) (fun _ => nullDenoiser_sized)
  have dv := decompose_ok (k := k) hbv (by rw [hpv]; exact hk) (by rw [hpv]; exact hch) (by rw [hpv]; exact hv) (fun _ => nullDenoiser_sized)
  refine ⟨_, _, _, decompose_ok hb hk hch hd (fun _ => nullDenoiser_sized), du, dv, by simp [lu, lv], by simp [lu], by simp [lv], ?_⟩
  intro n c cu cv hc hcu hcv
  simp only [List.getElem?_map, Option.map_eq_some_iff] at hc hcu hcv
  obtain ⟨u, hu0, rfl⟩ := hcu
  obtain ⟨v, hv0, rfl⟩ := hcv
  obtain ⟨m, hm, rfl⟩ := hc
  rw [List.getElem?_zipWith, hu0, hv0] at hm
  obtain rfl : outer u v = m := Option.some.inj hm
  have su : Shaped (lineOf b.params h) u := shaped_of (hu.2 u (List.mem_of_getElem? hu0))
  have sv : Shaped (lineOf b.params w) v := shaped_of (hv.2 v (List.mem_of_getElem? hv0))
  have so : Shaped b.params (outer u v) := by
    unfold Shaped; rw [hs]; exact ⟨su.1, sv.1⟩
  rw [hpu, hpv]
  have fo := fits_padOf vp so
  have fu := fits_padOf vu su
  have fv := fits_padOf vv sv
  rw [padOf_outer hs vu vv su sv] at fo
  have h3 : detailsPerStep b.params = 3 := by simp [detailsPerStep, hs]
  have h1 : ∀ n, detailsPerStep (lineOf b.params n) = 1 := fun n => by simp [detailsPerStep, lineOf]
  have hd1 : ¬ b.params.dimension = 1 := by simp [Params.dimension, hs]
  refine ⟨fun s hss => ⟨stepSub (lineOf b.params h) (scaling k b.params) true false (sig (lineOf b.params h) (scaling k b.params)
    (padOf (lineOf b.params h) u) s), stepSub (lineOf b.params w) (scaling k b.params) true false (sig (lineOf b.params w)
    (scaling k b.params) (padOf (lineOf b.params w) v) s), ?_, ?_, ?_⟩, sig (lineOf b.params h) (scaling k b.params)
    (padOf (lineOf b.params h) u) b.params.steps, sig (lineOf b.params w) (scaling k b.params)
    (padOf (lineOf b.params w) v) b.params.steps, ?_, ?_, ?_⟩
  · have := chan_detail (k := k) vu hk su (s := s) (q := 0) hss (by rw [h1]; omega)
    rw [h1, Nat.mul_one] at this
    exact this
  · have := chan_detail (k := k) vv hk sv (s := s) (q := 0) hss (by rw [h1]; omega)
    rw [h1, Nat.mul_one] at this
    exact this
  · have := chan_detail (k := k) vp hk so (s := s) (q := 2) hss (by omega)
    rw [h3] at this
    rw [this, padOf_outer hs vu vv su sv, sig_outer hs vp vu vv hk fo fu fv (by omega)]
    obtain ⟨a1, a2⟩ := fits_line vu rfl (s := s) hss (fits_sig (k := k) vu fu (show s ≤ b.params.steps by omega))
    obtain ⟨b1, b2⟩ := fits_line vv rfl (s := s) hss (fits_sig (k := k) vv fv (show s ≤ b.params.steps by omega))
    have := stepSub_outer (f := scaling k b.params) hs a1 a2 b1 b2 true true
    have e1 : rOff b.params 2 = true := by simp [rOff, hd1]
    have e2 : cOff b.params 2 = true := by simp [cOff, hd1]
    rw [e1, e2]
    exact congrArg some this
  · have := chan_last (k := k) (p := lineOf b.params h) (x := u)
    rw [h1, Nat.mul_one] at this
    exact this
  · have := chan_last (k := k) (p := lineOf b.params w) (x := v)
    rw [h1, Nat.mul_one] at this
    exact this
  · have := chan_last (k := k) (p := b.params) (x := outer u v)
    rw [h3] at this
    rw [this, padOf_outer hs vu vv su sv, sig_outer hs vp vu vv hk fo fu fv le_rfl]

/-- The same parameters with another number of steps. -/
def cutAt (p : Params) (s : ℕ) : Params := { p with steps := s }

theorem sig_cutAt {p : Params} {f : List R} {m : Mat R} {t s : ℕ} : sig (cutAt p t) f m s = sig p f m s := by
  induction s with
  | zero => rfl
  | succ s ih =>
    change approxStep (cutAt p t) f (sig (cutAt p t) f m s) = approxStep p f (sig p f m s)
    rw [ih]; rfl

/-- C96, the mixed details. If the sides are multiples of `2^steps`, the mixed details of step `s` of the image `u vᵀ` are the products
of the details of one signal with the approximation of the other, both after `s + 1` steps. -/
theorem C96_mixed_details (k : Kit R) (b bu bv : Buffer R) (w h s : ℕ) (hs : b.params.shape = [w, h]) (hss : s < b.params.steps)
    (hw : 2 ^ b.params.steps ∣ w) (hh : 2 ^ b.params.steps ∣ h)
    (hpu : bu.params = { b.params with shape := [h], steps := s + 1 })
    (hpv : bv.params = { b.params with shape := [w], steps := s + 1 }) (hb : WellFormed b)
    (hbu : WellFormed bu) (hbv : WellFormed bv) (hk : FilterPresent k b.params) (hch : 0 < b.params.signalNumber)
    (us vs : List (Mat R)) (hu : IsSignal bu.params us) (hv : IsSignal bv.params vs) :
    ∃ d du dv, b.decompose k (List.zipWith outer us vs) nullDenoiser = .ok d true ∧ bu.decompose k us nullDenoiser = .ok du true ∧
      bv.decompose k vs nullDenoiser = .ok dv true ∧
      d.length = b.params.signalNumber ∧ du.length = b.params.signalNumber ∧ dv.length = b.params.signalNumber ∧
      ∀ (n : ℕ) (c cu cv : List (Mat R)), d[n]? = some c → du[n]? = some cu → dv[n]? = some cv →
        ∃ detU appU detV appV, cu[s]? = some detU ∧ cu[s + 1]? = some appU ∧ cv[s]? = some detV ∧ cv[s + 1]? = some appV ∧
          c[s * 3]? = some (outer detU appV) ∧ c[s * 3 + 1]? = some (outer appU detV) := by
  have hpu : bu.params = cutAt (lineOf b.params h) (s + 1) := hpu
  have hpv : bv.params = cutAt (lineOf b.params w) (s + 1) := hpv
  have vp := hb.1
  have vu := hbu.1
  have vv := hbv.1
  rw [hpu] at vu hu
  rw [hpv] at vv hv
  have ht : b.params.wtype ≠ 0 := wavelet_of_steps vp hss
  have vc := vp.2.2
  rw [if_neg ht, hs] at vc
  have vu' : ValidParams (lineOf b.params h) := ⟨vu.1, vu.2.1, by
    rw [if_neg (show (lineOf b.params h).wtype ≠ 0 from ht)]
    intro n hn
    obtain rfl : n = h := by simpa [lineOf] using hn
    exact vc n (by simp)⟩
  have vv' : ValidParams (lineOf b.params w) := ⟨vv.1, vv.2.1, by
    rw [if_neg (show (lineOf b.params w).wtype ≠ 0 from ht)]
    intro n hn
    obtain rfl : n = w := by simpa [lineOf] using hn
    exact vc n (by simp)⟩
  have lu : us.length = b.params.signalNumber := hu.1
  have lv : vs.length = b.params.signalNumber := hv.1
  have hd : IsSignal b.params (List.zipWith outer us vs) := by
    refine ⟨by simp [lu, lv], ?_⟩
    intro m hm
    obtain ⟨n, hn, rfl⟩ := List.mem_iff_getElem.1 hm
    have h1 : n < us.length := by simp at hn; omega
    have h2 : n < vs.length := by simp at hn; omega
    rw [List.getElem_zipWith, hs]
    exact ⟨(hu.2 _ (List.getElem_mem h1)).1, (hv.2 _ (List.getElem_mem h2)).1⟩
  have du := decompose_ok (k := k) hbu (by rw [hpu]; exact hk) (by rw [hpu]; exact hch) (by rw [hpu]; exact hu) (fun _ => nullDenoiser_sized)
  have dv := decompose_ok (k := k) hbv (by rw [hpv]; exact hk) (by rw [hpv]; exact hch) (by rw [hpv]; exact hv) (fun _ => nullDenoiser_sized)
  refine ⟨_, _, _, decompose_ok hb hk hch hd (fun _ => nullDenoiser_sized), du, dv, by simp [lu, lv], by simp [lu], by simp [lv], ?_⟩
  intro n c cu cv hc hcu hcv
  simp only [List.getElem?_map, Option.map_eq_some_iff] at hc hcu hcv
  obtain ⟨u, hu0, rfl⟩ := hcu
  obtain ⟨v, hv0, rfl⟩ := hcv
  obtain ⟨m, hm, rfl⟩ := hc
  rw [List.getElem?_zipWith, hu0, hv0] at hm
  obtain rfl : outer u v = m := Option.some.inj hm
  have su : Shaped (cutAt (lineOf b.params h) (s + 1)) u := shaped_of (hu.2 u (List.mem_of_getElem? hu0))
  have sv : Shaped (cutAt (lineOf b.params w) (s + 1)) v := shaped_of (hv.2 v (List.mem_of_getElem? hv0))
  have su' : Shaped (lineOf b.params h) u := su
  have sv' : Shaped (lineOf b.params w) v := sv
  have so : Shaped b.params (outer u v) := by
    unfold Shaped; rw [hs]; exact ⟨su.1, sv.1⟩
  rw [hpu, hpv]
  have eo : padOf b.params (outer u v) = outer u v := padOf_self vp so (by
    rw [hs]; intro n hn; simp only [List.mem_cons, List.not_mem_nil, or_false] at hn; rcases hn with rfl | rfl <;> assumption)
  have two : 2 ^ (s + 1) ∣ 2 ^ b.params.steps := pow_dvd_pow 2 hss
  have eu : padOf (cutAt (lineOf b.params h) (s + 1)) u = u := padOf_self vu su (fun n hn => by
    obtain rfl : n = h := by simpa [cutAt, lineOf] using hn
    exact two.trans hh)
  have ev : padOf (cutAt (lineOf b.params w) (s + 1)) v = v := padOf_self vv sv (fun n hn => by
    obtain rfl : n = w := by simpa [cutAt, lineOf] using hn
    exact two.trans hw)
  have eu' : padOf (lineOf b.params h) u = u := padOf_self vu' su' (fun n hn => by
    obtain rfl : n = h := by simpa [lineOf] using hn
    exact hh)
  have ev' : padOf (lineOf b.params w) v = v := padOf_self vv' sv' (fun n hn => by
    obtain rfl : n = w := by simpa [lineOf] using hn
    exact hw)
  have fo := fits_padOf vp so
  have fu := fits_padOf vu' su'
  have fv := fits_padOf vv' sv'
  rw [eo] at fo
  rw [eu'] at fu
  rw [ev'] at fv
  have h3 : detailsPerStep b.params = 3 := by simp [detailsPerStep, hs]
  have h1 : ∀ n, detailsPerStep (cutAt (lineOf b.params n) (s + 1)) = 1 := fun n => by simp [detailsPerStep, lineOf, cutAt]
  have hd1 : ¬ b.params.dimension = 1 := by simp [Params.dimension, hs]
  obtain ⟨a1, a2⟩ := fits_line vu' rfl (s := s) hss (fits_sig (k := k) vu' fu (show s ≤ b.params.steps by omega))
  obtain ⟨b1, b2⟩ := fits_line vv' rfl (s := s) hss (fits_sig (k := k) vv' fv (show s ≤ b.params.steps by omega))
  have es := sig_outer (k := k) hs vp vu' vv' hk fo fu fv (s := s) (by omega)
  have so1 : ∀ rb cb, stepSub b.params (scaling k b.params) rb cb (outer (sig (lineOf b.params h) (scaling k b.params) u s)
      (sig (lineOf b.params w) (scaling k b.params) v s)) =
      outer (stepSub (lineOf b.params h) (scaling k b.params) rb false (sig (lineOf b.params h) (scaling k b.params) u s))
        (stepSub (lineOf b.params w) (scaling k b.params) cb false (sig (lineOf b.params w) (scaling k b.params) v s)) :=
    fun rb cb => stepSub_outer (f := scaling k b.params) hs a1 a2 b1 b2 rb cb
  have du := chan_detail (k := k) vu hk su (s := s) (q := 0) (show s < s + 1 by omega) (by rw [h1]; omega)
  have dv := chan_detail (k := k) vv hk sv (s := s) (q := 0) (show s < s + 1 by omega) (by rw [h1]; omega)
  have au := chan_last (k := k) (p := cutAt (lineOf b.params h) (s + 1)) (x := u)
  have av := chan_last (k := k) (p := cutAt (lineOf b.params w) (s + 1)) (x := v)
  rw [h1, Nat.mul_one, eu, sig_cutAt] at du au
  rw [h1, Nat.mul_one, ev, sig_cutAt] at dv av
  have lu1 : sig (lineOf b.params h) (scaling k b.params) u (s + 1) =
      stepSub (lineOf b.params h) (scaling k b.params) false false (sig (lineOf b.params h) (scaling k b.params) u s) :=
    sig_sub (k := k) vu' hk fu hss
  have lv1 : sig (lineOf b.params w) (scaling k b.params) v (s + 1) =
      stepSub (lineOf b.params w) (scaling k b.params) false false (sig (lineOf b.params w) (scaling k b.params) v s) :=
    sig_sub (k := k) vv' hk fv hss
  refine ⟨_, _, _, _, du, au, dv, av, ?_, ?_⟩
  · have := chan_detail (k := k) vp hk so (s := s) (q := 0) hss (by omega)
    rw [h3, eo, es, so1, show rOff b.params 0 = true by simp [rOff, hd1], show cOff b.params 0 = false by simp [cOff, hd1], ← lv1] at this
    exact this
  · have := chan_detail (k := k) vp hk so (s := s) (q := 1) hss (by omega)
    rw [h3, eo, es, so1, show rOff b.params 1 = false by simp [rOff, hd1], show cOff b.params 1 = true by simp [cOff, hd1], ← lu1] at this
    exact this

/-! ### locality -/

theorem window_index {n s i u t : ℕ} (h : n = 2 ^ s * (n / 2 ^ s)) :
    (2 ^ s * ((2 * i + u) % (n / 2 ^ s)) + t) % n = (2 ^ (s + 1) * i + (2 ^ s * u + t)) % n := by
  rw [← Nat.mul_mod_mul_left, ← h, Nat.mod_add_mod]
  congr 1; rw [pow_succ]; ring

theorem window_size {w u s t : ℕ} (hu : u < 2 * w) (ht : t ≤ (2 * w - 1) * (2 ^ s - 1)) :
    2 ^ s * u + t ≤ (2 * w - 1) * (2 ^ (s + 1) - 1) := by
  have h1 : 2 ^ s * u ≤ 2 ^ s * (2 * w - 1) := Nat.mul_le_mul_left _ (by omega)
  have h2 : (2 * w - 1) * (2 ^ (s + 1) - 1) = 2 ^ s * (2 * w - 1) + (2 * w - 1) * (2 ^ s - 1) := by
    have : 0 < 2 ^ s := by positivity
    rw [show 2 ^ (s + 1) - 1 = 2 ^ s + (2 ^ s - 1) by rw [pow_succ]; omega]
    ring
  omega

theorem fits_pow {p : Params} (hv : ValidParams p) (ht : p.wtype ≠ 0) {s : ℕ} (hs : s ≤ p.steps) {m : Mat R} (hm : Fits p 0 m) :
    m.rows = 2 ^ s * (m.rows / 2 ^ s) ∧ (p.dimension ≠ 1 → m.cols = 2 ^ s * (m.cols / 2 ^ s)) := by
  have hd : ∀ n, 2 ^ s ∣ paddedSide p n := fun n => by
    unfold paddedSide
    rw [if_neg ht]
    exact Dvd.dvd.mul_left (pow_dvd_pow 2 hs) _
  rw [fits_iff hv] at hm
  rcases shape_cases hv with ⟨n, hsh, hd1⟩ | ⟨w, hh, hsh, hd2⟩
  · rw [hsh] at hm
    simp only [List.map_cons, List.map_nil, pow_zero, Nat.div_one, HasShape] at hm
    exact ⟨by rw [hm.1, Nat.mul_div_cancel' (hd n)], fun h => absurd hd1 h⟩
  · rw [hsh] at hm
    simp only [List.map_cons, List.map_nil, pow_zero, Nat.div_one, HasShape] at hm
    exact ⟨by rw [hm.1, Nat.mul_div_cancel' (hd hh)], fun _ => by rw [hm.2, Nat.mul_div_cancel' (hd w)]⟩

theorem stepSub_local {p : Params} (hv : ValidParams p) {f : List R} {s : ℕ} (hs : s < p.steps) {x y X Y : Mat R} (hx : Fits p 0 x)
    (hX : Fits p s X) (hY : Fits p s Y) (rb cb : Bool)
    (h : ∀ i < X.rows, ∀ j < X.cols, AgreeNear p s i j x y → X.get i j = Y.get i j) {i j : ℕ}
    (hi : i < (stepSub p f rb cb X).rows) (hj : j < (stepSub p f rb cb X).cols) (ha : AgreeNear p (s + 1) i j x y) :
    (stepSub p f rb cb X).get i j = (stepSub p f rb cb Y).get i j := by
  have ht := wavelet_of_steps hv hs
  obtain ⟨pr, pc⟩ := fits_pow hv ht (show s ≤ p.steps by omega) hx
  obtain ⟨⟨r0, r1⟩, c1⟩ := halves_of_fits hv hs hX
  have er : Y.rows = X.rows := hY.1.trans hX.1.symm
  have ec : Y.cols = X.cols := hY.2.trans hX.2.symm
  have exr : X.rows = x.rows / 2 ^ s := by rw [hX.1, hx.1, pow_zero, Nat.div_one]
  have exc : p.dimension ≠ 1 → X.cols = x.cols / 2 ^ s := fun hd => by
    rw [hX.2, hx.2, if_neg hd, if_neg hd, pow_zero, Nat.div_one]
  have exc1 : p.dimension = 1 → x.cols = 1 := fun hd => by rw [hx.2, if_pos hd]
  unfold stepSub at hi hj ⊢
  simp only [Mat.rows_ofFn, Mat.cols_ofFn] at hi hj
  rw [Mat.get_ofFn hi hj, Mat.get_ofFn (by omega) (by rw [ec]; exact hj), er, ec]
  refine sum_congr rfl fun u hu => ?_
  congr 1
  refine sum_congr rfl fun v hv' => ?_
  congr 1
  rw [mem_range] at hu hv'
  have mc : 0 < X.cols := by by_cases hd : p.dimension = 1 <;> simp only [hd, if_true, if_false] at c1 <;> omega
  refine h _ (Nat.mod_lt _ (by omega)) _ (Nat.mod_lt _ mc) ?_
  intro t htt t' htt'
  rw [exr, window_index pr]
  by_cases hd : p.dimension = 1
  · have := ha (2 ^ s * u + t) (window_size hu htt) 0 (Nat.zero_le _)
    rw [exc1 hd] at this ⊢
    simpa only [Nat.mod_one] using this
  · rw [exc hd, window_index (pc hd)]
    unfold tapsC at hv'
    rw [if_neg hd] at hv'
    exact ha _ (window_size hu htt) _ (window_size hv' htt')

theorem sig_local {k : Kit R} {p : Params} (hv : ValidParams p) (hf : FilterLen k p) {x y : Mat R} (hx : Fits p 0 x) (hy : Fits p 0 y)
    {s : ℕ} (hs : s ≤ p.steps) :
    ∀ i < (sig p (scaling k p) x s).rows, ∀ j < (sig p (scaling k p) x s).cols, AgreeNear p s i j x y →
      (sig p (scaling k p) x s).get i j = (sig p (scaling k p) y s).get i j := by
  induction s with
  | zero =>
    intro i hi j hj h
    have hi : i < x.rows := hi
    have hj : j < x.cols := hj
    have := h 0 (Nat.zero_le _) 0 (Nat.zero_le _)
    rwa [pow_zero, one_mul, one_mul, add_zero, add_zero, Nat.mod_eq_of_lt hi, Nat.mod_eq_of_lt hj] at this
  | succ s ih =>
    intro i hi j hj h
    rw [sig_sub hv hf hx (by omega)] at hi hj ⊢
    rw [sig_sub hv hf hy (by omega)]
    exact stepSub_local hv (by omega) hx (fits_sig hv hx (by omega)) (fits_sig hv hy (by omega)) false false (ih (by omega)) hi hj h

/-- C98. A coefficient depends only on the samples near it. If two signals, after padding, have the same samples in the window of
`(2 · order - 1)(2^(s+1) - 1) + 1` samples (in each direction) that starts at `2^(s+1)` times the position, wrapping round at the end,
the details of step `s` at that position are the same for both, whatever the other samples are; likewise for the approximation. -/
theorem C98_locality (k : Kit R) (b : Buffer R) (hb : WellFormed b) (hk : FilterPresent k b.params) (hch : 0 < b.params.signalNumber)
    (data data' : List (Mat R)) (hd : IsSignal b.params data) (hd' : IsSignal b.params data') :
    ∃ d d', b.decompose k data nullDenoiser = .ok d true ∧ b.decompose k data' nullDenoiser = .ok d' true ∧
      d.length = data.length ∧ d'.length = data'.length ∧
      ∀ (n : ℕ) (x y px py : Mat R) (cx cy : List (Mat R)), data[n]? = some x → data'[n]? = some y →
        addPadding x (b.params.shape.map (paddedSide b.params)) = .ok px →
        addPadding y (b.params.shape.map (paddedSide b.params)) = .ok py → d[n]? = some cx → d'[n]? = some cy →
        (∀ s < b.params.steps, ∀ q < detailsPerStep b.params, ∃ mx my, cx[s * detailsPerStep b.params + q]? = some mx ∧
          cy[s * detailsPerStep b.params + q]? = some my ∧
          ∀ i < mx.rows, ∀ j < mx.cols, AgreeNear b.params (s + 1) i j px py → mx.get i j = my.get i j) ∧
        ∃ mx my, cx[b.params.steps * detailsPerStep b.params]? = some mx ∧ cy[b.params.steps * detailsPerStep b.params]? = some my ∧
          ∀ i < mx.rows, ∀ j < mx.cols, AgreeNear b.params b.params.steps i j px py → mx.get i j = my.get i j := by
  have hv := hb.1
  refine ⟨_, _, decompose_ok hb hk hch hd (fun _ => nullDenoiser_sized), decompose_ok hb hk hch hd' (fun _ => nullDenoiser_sized),
    by simp, by simp, ?_⟩
  intro n x y px py cx cy hx hy hpx hpy hcx hcy
  rw [List.getElem?_map, hx] at hcx
  rw [List.getElem?_map, hy] at hcy
  obtain rfl := Option.some.inj hcx
  obtain rfl := Option.some.inj hcy
  have sx := shaped_of (hd.2 x (List.mem_of_getElem? hx))
  have sy := shaped_of (hd'.2 y (List.mem_of_getElem? hy))
  rw [paddedShape_spec hv, addPadding_ok hv sx] at hpx
  rw [paddedShape_spec hv, addPadding_ok hv sy] at hpy
  injection hpx with hpx
  injection hpy with hpy
  have fx := fits_padOf hv sx
  have fy := fits_padOf hv sy
  rw [hpx] at fx
  rw [hpy] at fy
  refine ⟨fun s hs q hq => ⟨_, _, chan_detail hv hk sx hs hq, chan_detail hv hk sy hs hq, ?_⟩, _, _, chan_last, chan_last, ?_⟩
  · rw [hpx, hpy]
    intro i hi j hj ha
    exact stepSub_local hv hs fx (fits_sig hv fx (by omega)) (fits_sig hv fy (by omega)) _ _ (sig_local hv hk fx fy (by omega)) hi hj ha
  · rw [hpx, hpy]
    exact sig_local hv hk fx fy le_rfl

end Ring

/-! ### Concrete cases -/

/-- C95, C97, C98: a 12 × 16 image, DB2, two steps. -/
example : let p : Params := ⟨[12, 16], 1, 2, 2⟩
    WellFormed (Buffer.mk p [List.replicate 7 Mat.empty] : Buffer ℤ) ∧
    WellFormed (Buffer.mk { p with shape := [16, 12] } [List.replicate 7 Mat.empty] : Buffer ℤ) ∧ 0 < p.signalNumber ∧
    IsSignal p [Mat.ofFn 16 12 (fun i j => (i * i + 3 * j : ℤ))] ∧ (∀ n ∈ p.shape, 2 ^ p.steps ∣ n) ∧
    FilterPresent (⟨fun _ => [1, 2, -1, 5], fun x => 3 * x, fun _ _ x => x⟩ : Kit ℤ) p := by
  refine ⟨⟨⟨by simp, by simp, by simp⟩, by simp, by simp [subbandCount, detailsPerStep]⟩,
    ⟨⟨by simp, by simp, by simp⟩, by simp, by simp [subbandCount, detailsPerStep]⟩, by simp, ⟨by simp, by simp [HasShape]⟩, ?_, ?_⟩
  · intro n hn
    simp at hn
    rcases hn with rfl | rfl <;> decide
  · intro _; rfl

/-- C96: a 7 × 5 image as the product of a signal of 5 with a signal of 7 samples, DB1, one step (with padding). -/
example : let p : Params := ⟨[7, 5], 1, 1, 1⟩
    WellFormed (Buffer.mk p [List.replicate 4 Mat.empty] : Buffer ℤ) ∧
    WellFormed (Buffer.mk { p with shape := [5] } [List.replicate 2 Mat.empty] : Buffer ℤ) ∧
    WellFormed (Buffer.mk { p with shape := [7] } [List.replicate 2 Mat.empty] : Buffer ℤ) ∧
    IsSignal { p with shape := [5] } [Mat.ofFn 5 1 (fun i _ => (i * i : ℤ))] ∧
    IsSignal { p with shape := [7] } [Mat.ofFn 7 1 (fun i _ => (2 * i + 1 : ℤ))] :=
  ⟨⟨⟨by simp, by simp, by simp⟩, by simp, by simp [subbandCount, detailsPerStep]⟩,
    ⟨⟨by simp, by simp, by simp⟩, by simp, by simp [subbandCount, detailsPerStep]⟩,
    ⟨⟨by simp, by simp, by simp⟩, by simp, by simp [subbandCount, detailsPerStep]⟩,
    ⟨by simp, by simp [HasShape]⟩, ⟨by simp, by simp [HasShape]⟩⟩

/-- C98: two different signals of 16 samples that agree near the second detail of step 0 (DB1: the samples 2 and 3). -/
example : let p : Params := ⟨[16], 1, 2, 1⟩
    let x : Mat ℤ := Mat.ofFn 16 1 fun i _ => i
    let y : Mat ℤ := Mat.ofFn 16 1 fun i _ => if i < 2 then 7 else i
    AgreeNear p 1 1 0 x y ∧ ¬ AgreeNear p 1 0 0 x y := by
  refine ⟨?_, ?_⟩
  · intro t ht t' ht'
    have : t = 0 ∨ t = 1 := by simp at ht; omega
    have : t' = 0 ∨ t' = 1 := by simp at ht'; omega
    rcases this with rfl | rfl <;> rcases ‹t = 0 ∨ t = 1› with rfl | rfl <;> decide
  · intro h
    exact absurd (h 0 (Nat.zero_le _) 0 (Nat.zero_le _)) (by decide)

end WB.Props
