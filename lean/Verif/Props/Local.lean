import Verif.Props.Linear
import Verif.Proof.Local
import Verif.Model.Denoise

/-!
C118: how far a sample reaches in the decomposition, a coefficient in the composition, and a sample in the round trip. The scalars are any
type with zero, sum, product and negation, without laws, so that the statements hold for floating point numbers with all their special
values.
-/

set_option linter.unusedSectionVars false

namespace WB.Props

open Spec

section Any
variable {α : Type} [Zero α] [Add α] [Mul α] [Neg α] [Inhabited α]

theorem getD_some {c : List (Mat α)} {n : ℕ} {m : Mat α} (h : c[n]? = some m) : c.getD n default = m := by
  rw [List.getD, h, Option.getD_some]

theorem fits_sides {p : Params} (hv : ValidParams p) {s : ℕ} {m : Mat α} (hm : Fits p s m) : m.rows = (levelSides p s).1 ∧ m.cols = (levelSides p s).2 := by
  rw [fits_iff hv] at hm
  unfold levelSides
  rcases shape_cases hv with ⟨n, hsh, _⟩ | ⟨w, hh, hsh, _⟩
  · rw [hsh] at hm ⊢; exact hm
  · rw [hsh] at hm ⊢; exact hm

theorem finish_same {k : Kit α} {p : Params} (hv : ValidParams p) {s : ℕ} (hs : s ≤ p.steps) {m m' : Mat α} (hm : Fits p s m) (hm' : Fits p s m')
    {i j : ℕ} (hi : i < (finishP k p s m).rows) (hj : j < (finishP k p s m).cols)
    (h : i + ((levelSides p s).1 - (finishP k p s m).rows) / 2 < m.rows → j + ((levelSides p s).2 - (finishP k p s m).cols) / 2 < m.cols →
      m.get (i + ((levelSides p s).1 - (finishP k p s m).rows) / 2) (j + ((levelSides p s).2 - (finishP k p s m).cols) / 2) =
      m'.get (i + ((levelSides p s).1 - (finishP k p s m).rows) / 2) (j + ((levelSides p s).2 - (finishP k p s m).cols) / 2)) :
    (finishP k p s m).get i j = (finishP k p s m').get i j := by
  obtain ⟨r1, r2⟩ := finishP_size (k := k) hv hs hm
  obtain ⟨r1', r2'⟩ := finishP_size (k := k) hv hs hm'
  obtain ⟨l1, l2⟩ := scaled_le hv hm
  obtain ⟨e1, e2⟩ := fits_sides hv hm
  obtain ⟨e1', e2'⟩ := fits_sides hv hm'
  rw [r1] at hi
  rw [r2] at hj
  rw [r1, r2, ← e1, ← e2] at h
  have h0 : ¬ matRows (p.shape.map (· / 2 ^ s)) * matCols (p.shape.map (· / 2 ^ s)) = 0 :=
    Nat.mul_ne_zero (by omega) (by omega)
  have h := h (by omega) (by omega)
  have key : (cropOf p s m).get i j = (cropOf p s m').get i j := by
    unfold cropOf
    simp only [if_neg h0]
    rw [Mat.get_ofFn hi hj, Mat.get_ofFn hi hj, e1', e2', ← e1, ← e2]
    unfold padOffset
    simp only [reduceCtorEq, if_false]
    rw [Nat.add_comm _ i, Nat.add_comm _ j]
    exact h
  unfold finishP
  split_ifs with hpos
  · have size : ∀ m : Mat α, (cropOf p s m).rows = (finishP k p s m).rows ∧ (cropOf p s m).cols = (finishP k p s m).cols := by
      intro m; unfold finishP; rw [if_pos hpos]; exact ⟨rfl, rfl⟩
    rw [Mat.get_map _ _ (by rw [(size m).1, r1]; exact hi) (by rw [(size m).2, r2]; exact hj),
      Mat.get_map _ _ (by rw [(size m').1, r1']; exact hi) (by rw [(size m').2, r2']; exact hj), key]
  · exact key

/-- C118. A coefficient depends only on the samples it reaches, in any arithmetic. If two signals, after padding, agree in the
`(2 · order - 1)(2^(s+1) - 1) + 1` samples (in each direction) from `2^(s+1)` times its position on, the detail of step `s` is the same
for both, whatever the other samples are: not a number, infinite or anything else; likewise for the approximation. The denoiser may
change each coefficient on its own. -/
theorem C118_coefficients (k : Kit α) (b : Buffer α) (hb : WellFormed b) (hk : FilterPresent k b.params) (hch : 0 < b.params.signalNumber)
    (den : Denoiser α) (hden : Pointwise den) (data data' : List (Mat α)) (hd : IsSignal b.params data) (hd' : IsSignal b.params data') :
    ∃ d d', b.decompose k data den = .ok d true ∧ b.decompose k data' den = .ok d' true ∧ d.length = data.length ∧ d'.length = data'.length ∧
      ∀ (n : ℕ) (x y px py : Mat α) (cx cy : List (Mat α)), data[n]? = some x → data'[n]? = some y →
        addPadding x (b.params.shape.map (paddedSide b.params)) = .ok px →
        addPadding y (b.params.shape.map (paddedSide b.params)) = .ok py → d[n]? = some cx → d'[n]? = some cy →
        (∀ s < b.params.steps, ∀ q < detailsPerStep b.params, ∃ mx my, cx[s * detailsPerStep b.params + q]? = some mx ∧
          cy[s * detailsPerStep b.params + q]? = some my ∧ ∀ i < mx.rows, ∀ j < mx.cols,
            (∀ a < px.rows, ∀ c < px.cols, Reaches b.params.wtype px.rows (s + 1) i a → Reaches b.params.wtype px.cols (s + 1) j c →
              px.get a c = py.get a c) → mx.get i j = my.get i j) ∧
        ∃ mx my, cx[b.params.steps * detailsPerStep b.params]? = some mx ∧ cy[b.params.steps * detailsPerStep b.params]? = some my ∧
          ∀ i < mx.rows, ∀ j < mx.cols,
            (∀ a < px.rows, ∀ c < px.cols, Reaches b.params.wtype px.rows b.params.steps i a →
              Reaches b.params.wtype px.cols b.params.steps j c → px.get a c = py.get a c) → mx.get i j = my.get i j := by
  have hv := hb.1
  have hsz := pointwise_sized hden
  refine ⟨_, _, decompose_ok hb hk hch hd (fun _ => hsz), decompose_ok hb hk hch hd' (fun _ => hsz), by simp, by simp, ?_⟩
  intro n x y px py cx cy hx hy hpx hpy hcx hcy
  rw [List.getElem?_map, hx] at hcx
  rw [List.getElem?_map, hy] at hcy
  obtain rfl := Option.some.inj hcx
  obtain rfl := Option.some.inj hcy
  have sx := shaped_of (hd.2 x (List.mem_of_getElem? hx))
  have sy := shaped_of (hd'.2 y (List.mem_of_getElem? hy))
  rw [paddedShape_spec hv, addPadding_ok hv sx] at hpx
  rw [paddedShape_spec hv, addPadding_ok hv sy] at hpy
  injection hpx with hpx
  injection hpy with hpy
  subst hpx hpy
  obtain ⟨h1, h2⟩ := chan_same hv hk hden sx sy
  rw [subbandsPerWT_eq] at h1 h2
  have lt : ∀ z : Mat α, ∀ a, a < subbandCount b.params → ∃ m, (chanP b.params (scaling k b.params) den z)[a]? = some m := by
    intro z a ha
    have : a < (chanP b.params (scaling k b.params) den z).length := by rw [chanP_length, decompositionSize_eq]; exact ha
    exact ⟨_, List.getElem?_eq_getElem this⟩
  refine ⟨?_, ?_⟩
  · intro s hs q hq
    have hlt : s * detailsPerStep b.params + q < subbandCount b.params := by
      have := Nat.mul_le_mul_right (detailsPerStep b.params) (Nat.succ_le_of_lt hs)
      rw [Nat.succ_mul] at this
      unfold subbandCount; omega
    obtain ⟨mx, hmx⟩ := lt x _ hlt
    obtain ⟨my, hmy⟩ := lt y _ hlt
    refine ⟨mx, my, hmx, hmy, ?_⟩
    have := h1 s hs q hq
    rw [getD_some hmx, getD_some hmy] at this
    exact this
  · have hlt : b.params.steps * detailsPerStep b.params < subbandCount b.params := by unfold subbandCount; omega
    obtain ⟨mx, hmx⟩ := lt x _ hlt
    obtain ⟨my, hmy⟩ := lt y _ hlt
    refine ⟨mx, my, hmx, hmy, ?_⟩
    rw [getD_some hmx, getD_some hmy] at h2
    exact h2

/-- Composed channels agree where the coefficients that reach them agree. -/
theorem out_same {k : Kit α} {p : Params} (hv : ValidParams p) (hk : FilterPresent k p) {s : ℕ} (hs : s ≤ p.steps) {cx cy : List (Mat α)}
    (hx : SizedChan p cx) (hy : SizedChan p cy) {i j : ℕ} (hi : i < (outP k p s cx).rows) (hj : j < (outP k p s cx).cols)
    (h : SameReaching p s (levelSides p s).1 (levelSides p s).2 (i + ((levelSides p s).1 - (outP k p s cx).rows) / 2)
      (j + ((levelSides p s).2 - (outP k p s cx).cols) / 2) cx cy) : (outP k p s cx).get i j = (outP k p s cy).get i j := by
  unfold outP at hi hj h ⊢
  have e : p.steps - (p.steps - s) = s := by omega
  have fx := fits_recon (h := scaling k p) hv hx (show p.steps - s ≤ p.steps by omega)
  have fy := fits_recon (h := scaling k p) hv hy (show p.steps - s ≤ p.steps by omega)
  rw [e] at fx fy
  obtain ⟨e1, e2⟩ := fits_sides hv fx
  refine finish_same hv hs fx fy hi hj ?_
  intro l1 l2
  have hlt : ∀ c : List (Mat α), SizedChan p c → ∀ s' < p.steps, ∀ q < detailsPerStep p, s' * detailsPerStep p + q < c.length := by
    intro c hc s' hs' q hq
    rw [hc.1, decompositionSize_eq]
    have := Nat.mul_le_mul_right (detailsPerStep p) (Nat.succ_le_of_lt hs')
    rw [Nat.succ_mul] at this
    unfold subbandCount; omega
  have hll : ∀ c : List (Mat α), SizedChan p c → p.steps * detailsPerStep p < c.length := by
    intro c hc
    rw [hc.1, decompositionSize_eq]
    unfold subbandCount; omega
  have := recon_same (k := k) hv hk hx hy (n := p.steps - s) (by omega) (by rw [e]; exact l1) (by rw [e]; exact l2)
  rw [e] at this
  refine this ?_ ?_
  · intro s' h1 h2 q hq a ha b hb ra rb
    rw [subbandsPerWT_eq] at hq ha hb ⊢
    rw [e1] at ra
    rw [e2] at rb
    have g1 := List.getElem?_eq_getElem (hlt cx hx s' h2 q hq)
    have g2 := List.getElem?_eq_getElem (hlt cy hy s' h2 q hq)
    rw [getD_some g1] at ha hb ⊢
    rw [getD_some g2]
    exact h.1 s' h1 h2 q hq _ _ g1 g2 a ha b hb ra rb
  · intro a ha b hb ra rb
    rw [subbandsPerWT_eq] at ha hb ⊢
    rw [e1] at ra
    rw [e2] at rb
    have g1 := List.getElem?_eq_getElem (hll cx hx)
    have g2 := List.getElem?_eq_getElem (hll cy hy)
    rw [getD_some g1] at ha hb ⊢
    rw [getD_some g2]
    exact h.2 _ _ g1 g2 a ha b hb ra rb

/-- C118. A composed sample depends only on the coefficients that reach it, in any arithmetic. If two buffers with the same parameters agree
in the coefficients that reach a sample, the composition returns the same sample for both, at every scale factor, whatever the other
coefficients are. -/
theorem C118_samples (k : Kit α) (p : Params) (dx dy : Decs α) (hx : WellFormed (Buffer.mk p dx)) (hy : WellFormed (Buffer.mk p dy))
    (hk : FilterPresent k p) (sx : ∀ c ∈ dx, PrescribedShapes p c) (sy : ∀ c ∈ dy, PrescribedShapes p c) (s : ℕ) (hs : s ≤ p.steps) :
    ∃ ox oy, (Buffer.mk p dx).compose k s = .ok ox ∧ (Buffer.mk p dy).compose k s = .ok oy ∧ ox.length = dx.length ∧ oy.length = dy.length ∧
      ∀ (n : ℕ) (cx cy : List (Mat α)) (x y : Mat α), dx[n]? = some cx → dy[n]? = some cy → ox[n]? = some x → oy[n]? = some y →
        ∀ i < x.rows, ∀ j < x.cols, SameReaching p s (levelSides p s).1 (levelSides p s).2
          (i + ((levelSides p s).1 - x.rows) / 2) (j + ((levelSides p s).2 - x.cols) / 2) cx cy → x.get i j = y.get i j := by
  have hv := hx.1
  have hv' : ValidParams p := hv
  refine ⟨_, _, compose_ok (b := ⟨p, dx⟩) hv hx.2.1 hk (fun c hc => (sized_iff hv' c).2 (sx c hc)) hs,
    compose_ok (b := ⟨p, dy⟩) hv' hy.2.1 hk (fun c hc => (sized_iff hv' c).2 (sy c hc)) hs, by simp, by simp, ?_⟩
  intro n cx cy x y h1 h2 h3 h4
  simp only [List.getElem?_map, h1, Option.map_some, Option.some.injEq] at h3
  simp only [List.getElem?_map, h2, Option.map_some, Option.some.injEq] at h4
  subst h3 h4
  intro i hi j hj h
  exact out_same hv hk hs ((sized_iff hv cx).2 (sx cx (List.mem_of_getElem? h1))) ((sized_iff hv cy).2 (sy cy (List.mem_of_getElem? h2))) hi hj h

/-- What a coefficient reaches above and below is close together. -/
theorem within_of {w n s m a i c steps : ℕ} (hm : s + m ≤ steps) (h1 : Reaches w n m c i) (h2 : Reaches w (2 ^ s * n) (s + m) c a) :
    RingWithin ((2 * w - 1) * (2 ^ steps - 1)) (2 ^ s * n) a (2 ^ s * i) := by
  obtain ⟨t, ht, rfl⟩ := h1
  obtain ⟨t', ht', rfl⟩ := h2
  have hp : 0 < 2 ^ s := by positivity
  have hp1 : 0 < 2 ^ m := by positivity
  have mono : (2 * w - 1) * (2 ^ (s + m) - 1) ≤ (2 * w - 1) * (2 ^ steps - 1) :=
    Nat.mul_le_mul_left _ (Nat.sub_le_sub_right (Nat.pow_le_pow_right (by omega) hm) 1)
  have hts : 2 ^ s * t ≤ (2 * w - 1) * (2 ^ (s + m) - 1) := by
    have h3 := Nat.mul_le_mul_left (2 ^ s) ht
    have h4 : 2 ^ s * ((2 * w - 1) * (2 ^ m - 1)) = (2 * w - 1) * (2 ^ (s + m) - 2 ^ s) := by
      rw [pow_add, Nat.mul_left_comm, Nat.mul_sub, Nat.mul_one]
    have h5 : (2 * w - 1) * (2 ^ (s + m) - 2 ^ s) ≤ (2 * w - 1) * (2 ^ (s + m) - 1) := Nat.mul_le_mul_left _ (by omega)
    omega
  have e : 2 ^ s * ((2 ^ m * c + t) % n) = (2 ^ (s + m) * c + 2 ^ s * t) % (2 ^ s * n) := by
    rw [← Nat.mul_mod_mul_left]; congr 1; rw [pow_add]; ring
  rw [e]
  rcases Nat.le_total (2 ^ s * t) t' with h | h
  · refine ⟨t' - 2 ^ s * t, by omega, Or.inr ?_⟩
    rw [Nat.mod_add_mod, Nat.mod_mod]
    congr 1; omega
  · refine ⟨2 ^ s * t - t', by omega, Or.inl ?_⟩
    rw [Nat.mod_add_mod, Nat.mod_mod]
    congr 1; omega

/-- C118. What is wrong with a sample stays near it. Two signals are decomposed (with a denoiser that looks at one coefficient at a time) and
composed. A sample of the results is the same for both if the signals, after padding, agree up to a distance of
`(2 · order - 1)(2^steps - 1)` samples from it in each direction, whatever the other samples are. -/
theorem C118_round_trip (k : Kit α) (b : Buffer α) (hb : WellFormed b) (hk : FilterPresent k b.params) (hch : 0 < b.params.signalNumber)
    (den : Denoiser α) (hden : Pointwise den) (data data' : List (Mat α)) (hd : IsSignal b.params data) (hd' : IsSignal b.params data')
    (s : ℕ) (hs : s ≤ b.params.steps) :
    ∃ d d' o o', b.decompose k data den = .ok d true ∧ b.decompose k data' den = .ok d' true ∧
      ({ b with decs := d } : Buffer α).compose k s = .ok o ∧ ({ b with decs := d' } : Buffer α).compose k s = .ok o' ∧
      o.length = data.length ∧ o'.length = data'.length ∧
      ∀ (n : ℕ) (x y px py ox oy : Mat α), data[n]? = some x → data'[n]? = some y →
        addPadding x (b.params.shape.map (paddedSide b.params)) = .ok px →
        addPadding y (b.params.shape.map (paddedSide b.params)) = .ok py → o[n]? = some ox → o'[n]? = some oy →
        ∀ i < ox.rows, ∀ j < ox.cols,
          (∀ a < px.rows, ∀ c < px.cols,
            RingWithin ((2 * b.params.wtype - 1) * (2 ^ b.params.steps - 1)) px.rows a (2 ^ s * (i + ((levelSides b.params s).1 - ox.rows) / 2)) →
            RingWithin ((2 * b.params.wtype - 1) * (2 ^ b.params.steps - 1)) px.cols c (2 ^ s * (j + ((levelSides b.params s).2 - ox.cols) / 2)) →
            px.get a c = py.get a c) → ox.get i j = oy.get i j := by
  have hv := hb.1
  have hsz := pointwise_sized hden
  have shx : ∀ m ∈ data, Shaped b.params m := fun m hm => shaped_of (hd.2 m hm)
  have shy : ∀ m ∈ data', Shaped b.params m := fun m hm => shaped_of (hd'.2 m hm)
  refine ⟨_, _, _, _, decompose_ok hb hk hch hd (fun _ => hsz), decompose_ok hb hk hch hd' (fun _ => hsz),
    compose_ok (b := ⟨b.params, data.map (chanP b.params (scaling k b.params) den)⟩) hv (by simpa using hd.1) hk (by
      intro c hc
      obtain ⟨m, hm, rfl⟩ := List.mem_map.1 hc
      exact chanP_sized hv hsz (shx m hm)) hs,
    compose_ok (b := ⟨b.params, data'.map (chanP b.params (scaling k b.params) den)⟩) hv (by simpa using hd'.1) hk (by
      intro c hc
      obtain ⟨m, hm, rfl⟩ := List.mem_map.1 hc
      exact chanP_sized hv hsz (shy m hm)) hs, by simp, by simp, ?_⟩
  intro n x y px py ox oy hx hy hpx hpy hox hoy
  simp only [List.getElem?_map, hx, Option.map_some, Option.some.injEq] at hox
  simp only [List.getElem?_map, hy, Option.map_some, Option.some.injEq] at hoy
  subst hox hoy
  have sx := shx x (List.mem_of_getElem? hx)
  have sy := shy y (List.mem_of_getElem? hy)
  rw [paddedShape_spec hv, addPadding_ok hv sx] at hpx
  rw [paddedShape_spec hv, addPadding_ok hv sy] at hpy
  injection hpx with hpx
  injection hpy with hpy
  subst hpx hpy
  intro i hi j hj h
  obtain ⟨h1, h2⟩ := chan_same (k := k) hv hk hden sx sy
  rw [subbandsPerWT_eq] at h1 h2
  have f0 := fits_padOf hv sx
  have lvl : (padOf b.params x).rows = 2 ^ s * (levelSides b.params s).1 ∧
      ((padOf b.params x).cols = 1 ∨ (padOf b.params x).cols = 2 ^ s * (levelSides b.params s).2) := by
    have fs := fits_sig (k := k) hv f0 hs
    obtain ⟨q1, q2⟩ := fits_pow2 hv hs f0 fs
    obtain ⟨e1, e2⟩ := fits_sides hv fs
    rw [e1] at q1
    rw [e2] at q2
    refine ⟨q1, ?_⟩
    by_cases hd1 : b.params.dimension = 1
    · rw [if_pos hd1] at q2; exact .inl q2.1
    · rw [if_neg hd1] at q2; exact .inr q2
  have near : ∀ m, s + m ≤ b.params.steps → ∀ a b' I J, Reaches b.params.wtype (levelSides b.params s).1 m a I →
      Reaches b.params.wtype (levelSides b.params s).2 m b' J → ∀ a' c', Reaches b.params.wtype (padOf b.params x).rows (s + m) a a' →
      Reaches b.params.wtype (padOf b.params x).cols (s + m) b' c' →
      RingWithin ((2 * b.params.wtype - 1) * (2 ^ b.params.steps - 1)) (padOf b.params x).rows a' (2 ^ s * I) ∧
      RingWithin ((2 * b.params.wtype - 1) * (2 ^ b.params.steps - 1)) (padOf b.params x).cols c' (2 ^ s * J) := by
    intro m hm a b' I J r1 r2 a' c' r3 r4
    rw [lvl.1] at r3 ⊢
    refine ⟨within_of hm r1 r3, ?_⟩
    rcases lvl.2 with hc | hc
    · rw [hc]; exact ⟨0, Nat.zero_le _, Or.inl (by simp [Nat.mod_one])⟩
    · rw [hc] at r4 ⊢; exact within_of hm r2 r4
  refine out_same hv hk hs (chanP_sized hv hsz sx) (chanP_sized hv hsz sy) hi hj ⟨?_, ?_⟩
  · intro s' hs1 hs2 q hq mx my hmx hmy a ha b' hb' ra rb
    have := h1 s' hs2 q hq
    rw [getD_some hmx, getD_some hmy] at this
    refine this a ha b' hb' ?_
    intro a' ha' c' hc' r1 r2
    have e : s' + 1 = s + (s' + 1 - s) := by omega
    rw [e] at r1 r2
    obtain ⟨n1, n2⟩ := near _ (by omega) a b' _ _ ra rb a' c' r1 r2
    exact h a' ha' c' hc' n1 n2
  · intro mx my hmx hmy a ha b' hb' ra rb
    rw [getD_some hmx, getD_some hmy] at h2
    refine h2 a ha b' hb' ?_
    intro a' ha' c' hc' r1 r2
    have e : s + (b.params.steps - s) = b.params.steps := by omega
    obtain ⟨n1, n2⟩ := near (b.params.steps - s) (by omega) a b' _ _ ra rb a' c' (by rw [e]; exact r1) (by rw [e]; exact r2)
    exact h a' ha' c' hc' n1 n2

end Any

/-! ### Concrete cases -/

/-- Integers with a value that spoils every sum and product it takes part in. -/
private abbrev Sick := Option ℤ
private instance : Zero Sick := ⟨some 0⟩
private instance : Add Sick := ⟨fun a b => a.bind fun x => b.map (x + ·)⟩
private instance : Mul Sick := ⟨fun a b => a.bind fun x => b.map (x * ·)⟩
private instance : Neg Sick := ⟨Option.map (- ·)⟩

/-- C118: two signals of 64 samples that differ in sample 20, where one of them has the spoiling value, and a wavelet of order 2 with two
steps. Sample 40 is more than nine samples away; sample 22 is not. -/
example : let p : Params := ⟨[64], 1, 2, 2⟩
    let x : Mat Sick := Mat.ofFn 64 1 fun i _ => some (i * i : ℤ)
    let y : Mat Sick := Mat.ofFn 64 1 fun i _ => if i = 20 then none else some (i * i : ℤ)
    WellFormed (Buffer.mk p [List.replicate 3 Mat.empty] : Buffer Sick) ∧ IsSignal p [x] ∧ IsSignal p [y] ∧
    FilterPresent (⟨fun _ => [some 1, some 2, some (-1), some 5], fun x => x, fun _ _ x => x⟩ : Kit Sick) p ∧
    levelSides p 0 = (64, 1) ∧
    (∀ a < 64, ∀ c < 1, RingWithin ((2 * p.wtype - 1) * (2 ^ p.steps - 1)) 64 a 40 → x.get a c = y.get a c) ∧
    RingWithin ((2 * p.wtype - 1) * (2 ^ p.steps - 1)) 64 20 22 ∧ x.get 20 0 ≠ y.get 20 0 := by
  refine ⟨⟨⟨by simp, by simp, by simp⟩, by simp, by simp [subbandCount, detailsPerStep]⟩, ⟨by simp, by simp [HasShape]⟩,
    ⟨by simp, by simp [HasShape]⟩, fun _ => rfl, by simp [levelSides, paddedSide], ?_, ⟨2, by simp, Or.inl rfl⟩, ?_⟩
  · intro a ha c hc h
    obtain ⟨t, ht, h⟩ := h
    norm_num at ht
    rw [Mat.get_ofFn ha hc, Mat.get_ofFn ha hc, if_neg]
    rintro rfl
    omega
  · rw [Mat.get_ofFn (by omega) (by omega), Mat.get_ofFn (by omega) (by omega)]
    simp

/-- C118: the null denoiser and the threshold denoiser look at one coefficient at a time. -/
example (abs : ℤ → ℤ) (a b : ℤ) : Pointwise (nullDenoiser : Denoiser ℤ) ∧ Pointwise (thresholdDenoiser abs a b) :=
  ⟨⟨fun _ x => x, fun _ _ => by simp [nullDenoiser], fun m s => by simp [nullDenoiser, Mat.map]⟩, _, fun _ _ => rfl, fun _ _ => rfl⟩

/-- C118: two buffers that differ in one detail. -/
example : let p : Params := ⟨[8], 1, 1, 1⟩
    let d : ℤ → Decs ℤ := fun v => [[Mat.ofFn 4 1 fun i _ => if i = 2 then v else i, Mat.ofFn 4 1 fun i _ => i]]
    WellFormed (Buffer.mk p (d 7)) ∧ (∀ c ∈ d 7, PrescribedShapes p c) ∧ (∀ c ∈ d 9, PrescribedShapes p c) ∧
    SameReaching p 0 8 1 6 0 ((d 7).getD 0 []) ((d 9).getD 0 []) ∧ ¬ SameReaching p 0 8 1 5 0 ((d 7).getD 0 []) ((d 9).getD 0 []) := by
  have ps : ∀ v : ℤ, PrescribedShapes ⟨[8], 1, 1, 1⟩ [Mat.ofFn 4 1 fun i _ => if i = 2 then v else (i : ℤ), Mat.ofFn 4 1 fun i _ => (i : ℤ)] := by
    intro v
    refine ⟨by simp [subbandCount, detailsPerStep], ?_, ?_⟩
    · intro s hs j hj m hm
      obtain rfl : s = 0 := by simpa using hs
      obtain rfl : j = 0 := by simpa [detailsPerStep] using hj
      simp [detailsPerStep] at hm
      subst hm
      simp [HasShape, paddedSide]
    · intro m hm
      simp [detailsPerStep] at hm
      subst hm
      simp [HasShape, paddedSide]
  refine ⟨⟨⟨by simp, by simp, by simp⟩, by simp, by simp [subbandCount, detailsPerStep]⟩, by simpa using ps 7, by simpa using ps 9, ⟨?_, ?_⟩, ?_⟩
  · intro s' _ hs q hq mx my hx hy a ha b hb ra rb
    obtain rfl : s' = 0 := by simpa using hs
    obtain rfl : q = 0 := by simpa [detailsPerStep] using hq
    simp [detailsPerStep] at hx hy
    subst hx hy
    simp only [Mat.rows_ofFn, Mat.cols_ofFn] at ha hb
    rw [Mat.get_ofFn ha hb, Mat.get_ofFn ha hb, if_neg, if_neg] <;>
    · rintro rfl
      obtain ⟨t, ht, e⟩ := ra
      norm_num at ht e
      omega
  · intro mx my hx hy a ha b hb _ _
    simp [detailsPerStep] at hx hy
    subst hx hy
    rfl
  · intro h
    have := h.1 0 le_rfl (by simp) 0 (by simp [detailsPerStep]) _ _ rfl rfl 2 (by simp) 0 (by simp) ⟨1, by simp, rfl⟩ ⟨0, by simp, rfl⟩
    rw [Mat.get_ofFn (by omega) (by omega), Mat.get_ofFn (by omega) (by omega)] at this
    simp at this

end WB.Props
