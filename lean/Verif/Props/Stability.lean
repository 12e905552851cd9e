import Verif.Proof.Stability
import Verif.Props.Metrics
import Verif.Props.Denoise

/-!
C89: how far composed samples can move when coefficients are changed. C90, C93: what `Distance` of decomposed signals says about
the signals. C91: the error of denoising.
-/

namespace WB.Props

open Finset Spec

theorem dev_code_le (p : Params) (hv : ValidParams p) (hw : p.wtype ≤ 5) (n : ℕ) (hn : 0 < n → 0 < p.steps) :
    growth p (dev p.wtype (scaling codeKit p)) ^ n ≤ (1 + 12 / 10 ^ 12 : ℝ) ^ (p.shape.length * n) := by
  rw [← growth_pow _ hv]
  by_cases ht : n = 0
  · rw [ht, pow_zero, pow_zero]
  · have hw0 := wavelet_of_steps hv (hn (by omega))
    refine pow_le_pow_left₀ (zero_le_one.trans (growth_ge (dev_nonneg _ _))) (growth_mono (dev_nonneg _ _) ?_) _
    rw [dev_code]
    have := dev_table ⟨p.wtype, by omega⟩ (by simp; omega)
    simp only at this
    calc _ ≤ (((12 / 10 ^ 12 : ℚ)) : ℝ) := by exact_mod_cast this
      _ = _ := by push_cast; ring

theorem zip_sqDist_nonneg (x y : List (Mat ℝ)) : 0 ≤ (List.zipWith sqDist x y).sum := by
  apply List.sum_nonneg
  intro r hr
  rw [List.mem_iff_getElem] at hr
  obtain ⟨i, hi, rfl⟩ := hr
  rw [List.getElem_zipWith]
  unfold sqDist
  exact sum_nonneg fun _ _ => sum_nonneg fun _ _ => sq_nonneg _

/-- C89, per channel, with the coefficients of DB1..DB5 that are in the code. Whatever was done to the subbands, composing two
buffers with the same parameters at scale `s` gives channels whose squared Euclidean distance is at most that of the subbands,
times `(1 + 1.2·10⁻¹¹)^(dimensions · (steps - s))`, divided by `2^(dimensions · s)`. -/
theorem C89_compose_is_stable (p : Params) (dx dy : Decs ℝ) (hx : WellFormed (Buffer.mk p dx))
    (hy : WellFormed (Buffer.mk p dy)) (hw : p.wtype ≤ 5) (sx : ∀ c ∈ dx, PrescribedShapes p c)
    (sy : ∀ c ∈ dy, PrescribedShapes p c) (s : ℕ) (hs : s ≤ p.steps) :
    ∃ ox oy, (Buffer.mk p dx).compose codeKit s = .ok ox ∧ (Buffer.mk p dy).compose codeKit s = .ok oy ∧
      ox.length = dx.length ∧ oy.length = dy.length ∧
      ∀ (n : ℕ) (cx cy : List (Mat ℝ)) (mx my : Mat ℝ), dx[n]? = some cx → dy[n]? = some cy → ox[n]? = some mx → oy[n]? = some my →
        SameSize mx my ∧
        sqDist mx my ≤ (1 + 12 / 10 ^ 12 : ℝ) ^ (p.shape.length * (p.steps - s)) / 2 ^ (p.shape.length * s) *
          (List.zipWith sqDist cx cy).sum := by
  have hv : ValidParams p := hx.1
  have hk : FilterPresent codeKit p := codeKit_present (by omega)
  have zx : ∀ c ∈ dx, SizedChan p c := fun c hc => (sized_iff hv c).2 (sx c hc)
  have zy : ∀ c ∈ dy, SizedChan p c := fun c hc => (sized_iff hv c).2 (sy c hc)
  refine ⟨_, _, compose_ok (b := ⟨p, dx⟩) hv hx.2.1 hk zx hs, compose_ok (b := ⟨p, dy⟩) hv hy.2.1 hk zy hs, by simp, by simp, ?_⟩
  intro n cx cy mx my ex ey fx fy
  simp only [List.getElem?_map, ex, ey, Option.map_some, Option.some.injEq] at fx fy
  subst fx fy
  obtain ⟨h1, h2⟩ := out_stable (k := codeKit) hv hk (fun _ _ _ => rfl) (zx _ (List.mem_of_getElem? ex))
    (zy _ (List.mem_of_getElem? ey)) hs
  refine ⟨h1, h2.trans ?_⟩
  refine mul_le_mul_of_nonneg_right (div_le_div_of_nonneg_right (dev_code_le p hv hw _ (by omega)) (by positivity)) (zip_sqDist_nonneg _ _)

/-- C89 with any filter that is orthonormal under even shifts: the factor is one at full scale. -/
theorem C89_compose_is_stable_orthonormal (k : Kit ℝ) (hr : RealArithmetic k) (p : Params) (dx dy : Decs ℝ)
    (hx : WellFormed (Buffer.mk p dx)) (hy : WellFormed (Buffer.mk p dy)) (hk : FilterPresent k p)
    (ho : p.wtype ≠ 0 → EvenShiftOrthonormal (scalingFilter k p)) (sx : ∀ c ∈ dx, PrescribedShapes p c)
    (sy : ∀ c ∈ dy, PrescribedShapes p c) (s : ℕ) (hs : s ≤ p.steps) :
    ∃ ox oy, (Buffer.mk p dx).compose k s = .ok ox ∧ (Buffer.mk p dy).compose k s = .ok oy ∧
      ox.length = dx.length ∧ oy.length = dy.length ∧
      ∀ (n : ℕ) (cx cy : List (Mat ℝ)) (mx my : Mat ℝ), dx[n]? = some cx → dy[n]? = some cy → ox[n]? = some mx → oy[n]? = some my →
        SameSize mx my ∧ sqDist mx my ≤ (List.zipWith sqDist cx cy).sum / 2 ^ (p.shape.length * s) := by
  have hv : ValidParams p := hx.1
  have hok : OrthoKit k p := fun ht => ortho_of hk (ho ht) ht
  have zx : ∀ c ∈ dx, SizedChan p c := fun c hc => (sized_iff hv c).2 (sx c hc)
  have zy : ∀ c ∈ dy, SizedChan p c := fun c hc => (sized_iff hv c).2 (sy c hc)
  refine ⟨_, _, compose_ok (b := ⟨p, dx⟩) hv hx.2.1 hk zx hs, compose_ok (b := ⟨p, dy⟩) hv hy.2.1 hk zy hs, by simp, by simp, ?_⟩
  intro n cx cy mx my ex ey fx fy
  simp only [List.getElem?_map, ex, ey, Option.map_some, Option.some.injEq] at fx fy
  subst fx fy
  obtain ⟨h1, h2⟩ := out_stable (k := k) hv hk (fun f s x => by rw [hr.2]; rfl) (zx _ (List.mem_of_getElem? ex))
    (zy _ (List.mem_of_getElem? ey)) hs
  refine ⟨h1, h2.trans (le_of_eq ?_)⟩
  have e : growth p (dev p.wtype (scaling k p)) ^ (p.steps - s) = 1 := by
    by_cases h0 : p.steps - s = 0
    · rw [h0, pow_zero]
    · rw [dev_ortho hok (wavelet_of_steps hv (show 0 < p.steps by omega))]
      unfold growth; simp
  rw [e]
  have : p.shape.length = p.dimension := rfl
  rw [this]; ring

theorem zip_sum_le {α β γ : Type} (f : α → β → ℝ) (F : γ → γ → ℝ) (A : ℝ) (gx : α → γ) (gy : β → γ) (xs : List α) (ys : List β)
    (h : ∀ x ∈ xs, ∀ y ∈ ys, F (gx x) (gy y) ≤ A * f x y) :
    (List.zipWith F (xs.map gx) (ys.map gy)).sum ≤ A * (List.zipWith f xs ys).sum := by
  induction xs generalizing ys with
  | nil => simp
  | cons x xs ih =>
    cases ys with
    | nil => simp
    | cons y ys =>
      simp only [List.map_cons, List.zipWith_cons_cons, List.sum_cons, mul_add]
      exact add_le_add (h x (by simp) y (by simp)) (ih ys fun a ha b hb => h a (by simp [ha]) b (by simp [hb]))

theorem sized_sameSize {p : Params} {x y : Channel ℝ} (hx : SizedChan p x) (hy : SizedChan p y) : List.Forall₂ SameSize x y := by
  rw [List.forall₂_iff_get]
  refine ⟨by rw [hx.1, hy.1], ?_⟩
  intro i h1 h2
  have hi : i < decompositionSize p := by rw [← hx.1]; exact h1
  have ex : x.get ⟨i, h1⟩ = x.getD i default := by simp [List.getD, h1]
  have ey : y.get ⟨i, h2⟩ = y.getD i default := by simp [List.getD, h2]
  rw [ex, ey]
  rcases sub_cases p hi with rfl | ⟨s, hs, q, hq, rfl⟩
  · exact ⟨by rw [hx.2.2.1, hy.2.2.1], by rw [hx.2.2.2, hy.2.2.2]⟩
  · exact ⟨by rw [(hx.2.1 s hs q hq).1, (hy.2.1 s hs q hq).1], by rw [(hx.2.1 s hs q hq).2, (hy.2.1 s hs q hq).2]⟩

theorem sized_sameForm {p : Params} {dx dy : Decs ℝ} (hl : dx.length = dy.length) (zx : ∀ c ∈ dx, SizedChan p c)
    (zy : ∀ c ∈ dy, SizedChan p c) : SameForm (Buffer.mk p dx) (Buffer.mk p dy) := by
  refine ⟨rfl, rfl, ?_⟩
  rw [List.forall₂_iff_get]
  exact ⟨hl, fun i h1 h2 => sized_sameSize (zx _ (List.get_mem _ _)) (zy _ (List.get_mem _ _))⟩

/-- C89, in terms of `Distance`: the mean squared difference of all composed samples of two buffers with the same parameters is
at most their `Distance`, up to the deviation of the tabulated decimals from orthonormality. -/
theorem C89_distance_bounds_error (p : Params) (dx dy : Decs ℝ) (hx : WellFormed (Buffer.mk p dx))
    (hy : WellFormed (Buffer.mk p dy)) (hw : p.wtype ≤ 5) (sx : ∀ c ∈ dx, PrescribedShapes p c)
    (sy : ∀ c ∈ dy, PrescribedShapes p c) (hc : CountableSamples p) :
    ∃ δ ox oy, distance ⟨p, dx⟩ ⟨p, dy⟩ = .ok (.val δ) ∧ (Buffer.mk p dx).compose codeKit 0 = .ok ox ∧
      (Buffer.mk p dy).compose codeKit 0 = .ok oy ∧ ox.length = p.signalNumber ∧ oy.length = p.signalNumber ∧
      (List.zipWith sqDist ox oy).sum / (p.signalNumber * p.shape.prod : ℕ) ≤
        (1 + 12 / 10 ^ 12 : ℝ) ^ (p.shape.length * p.steps) * δ := by
  have hv : ValidParams p := hx.1
  have hk : FilterPresent codeKit p := codeKit_present (by omega)
  have zx : ∀ c ∈ dx, SizedChan p c := fun c hc => (sized_iff hv c).2 (sx c hc)
  have zy : ∀ c ∈ dy, SizedChan p c := fun c hc => (sized_iff hv c).2 (sy c hc)
  have lx : dx.length = p.signalNumber := hx.2.1
  have ly : dy.length = p.signalNumber := hy.2.1
  refine ⟨_, _, _, C37_distance_formula ⟨p, dx⟩ ⟨p, dy⟩ (sized_sameForm (by omega) zx zy) hc rfl,
    compose_ok (b := ⟨p, dx⟩) hv hx.2.1 hk zx (Nat.zero_le _), compose_ok (b := ⟨p, dy⟩) hv hy.2.1 hk zy (Nat.zero_le _),
    by simpa using lx, by simpa using ly, ?_⟩
  rw [← mul_div_assoc]
  refine div_le_div_of_nonneg_right ?_ (Nat.cast_nonneg _)
  unfold sqDistAll
  refine zip_sum_le (fun c d => (List.zipWith sqDist c d).sum) sqDist _ _ _ dx dy ?_
  intro x mx y my
  obtain ⟨h1, h2⟩ := out_stable (k := codeKit) hv hk (fun _ _ _ => rfl) (zx x mx) (zy y my) (Nat.zero_le p.steps)
  refine h2.trans (mul_le_mul_of_nonneg_right ?_ (zip_sqDist_nonneg _ _))
  have := dev_code_le p hv hw p.steps (fun h => h)
  simpa using this

/-- C90. With a filter that is orthonormal under even shifts: `Distance` of the decompositions of two signals is the sum over the
channels of the squared differences of the padded signals, divided by the number of samples. -/
theorem C90_distance_of_decomposed (k : Kit ℝ) (b : Buffer ℝ) (hb : WellFormed b) (hk : FilterPresent k b.params)
    (ho : b.params.wtype ≠ 0 → EvenShiftOrthonormal (scalingFilter k b.params)) (hc : CountableSamples b.params)
    (x y px py : List (Mat ℝ)) (hx : IsSignal b.params x) (hy : IsSignal b.params y)
    (ex : List.Forall₂ (fun m q => addPadding m (b.params.shape.map (paddedSide b.params)) = .ok q) x px)
    (ey : List.Forall₂ (fun m q => addPadding m (b.params.shape.map (paddedSide b.params)) = .ok q) y py) :
    ∃ dx dy, b.decompose k x nullDenoiser = .ok dx true ∧ b.decompose k y nullDenoiser = .ok dy true ∧
      distance ⟨b.params, dx⟩ ⟨b.params, dy⟩ =
        .ok (.val ((List.zipWith sqDist px py).sum / (b.params.signalNumber * b.params.shape.prod : ℕ))) := by
  have hv := hb.1
  have hok : OrthoKit k b.params := fun ht => ortho_of hk (ho ht) ht
  have key : ∀ (z pz : List (Mat ℝ)), IsSignal b.params z →
      List.Forall₂ (fun m q => addPadding m (b.params.shape.map (paddedSide b.params)) = .ok q) z pz → pz = z.map (padOf b.params) := by
    intro z pz hz hzp
    have hsh : ∀ m ∈ z, Shaped b.params m := fun m hm => shaped_of (hz.2 m hm)
    clear hz
    induction hzp with
    | nil => rfl
    | cons h _ ih =>
      rw [paddedShape_spec hv, addPadding_ok hv (hsh _ (by simp))] at h
      injection h with h
      rw [List.map_cons, h, ih fun m hm => hsh m (by simp [hm])]
  rw [key x px hx ex, key y py hy ey]
  have sized : ∀ z, IsSignal b.params z → ∀ c ∈ z.map (chanP b.params (scaling k b.params) nullDenoiser), SizedChan b.params c := by
    intro z hz c hc
    rw [List.mem_map] at hc
    obtain ⟨m, hm, rfl⟩ := hc
    exact chanP_sized hv nullDenoiser_sized (shaped_of (hz.2 m hm))
  refine ⟨_, _, decompose_ok hb hk hc.1 hx (fun _ => nullDenoiser_sized), decompose_ok hb hk hc.1 hy (fun _ => nullDenoiser_sized), ?_⟩
  rw [C37_distance_formula ⟨b.params, _⟩ ⟨b.params, _⟩ (sized_sameForm (by simp [hx.1, hy.1]) (sized x hx) (sized y hy)) hc rfl]
  congr 3
  unfold sqDistAll
  congr 1
  rw [List.zipWith_map, List.zipWith_map]
  have h1 : ∀ m ∈ x, Shaped b.params m := fun m hm => shaped_of (hx.2 m hm)
  have h2 : ∀ m ∈ y, Shaped b.params m := fun m hm => shaped_of (hy.2 m hm)
  apply List.ext_getElem
  · simp
  · intro i g1 g2
    simp only [List.getElem_zipWith]
    exact energy_pair hv hk hok (h1 _ (List.getElem_mem _)) (h2 _ (List.getElem_mem _))

/-! ### denoising -/

/-- C91. `Decompose` with any denoiser that keeps sizes, then `Compose`, with the decimals of DB1..DB5 in the code: the
Euclidean distance of a composed channel from the signal is at most that of its coefficients from the coefficients without
denoising, times `(1 + 1.2·10⁻¹¹)^(dimensions · steps / 2)`, plus the error of C09. -/
theorem C91_denoised_error (b : Buffer ℝ) (hb : WellFormed b) (hw : b.params.wtype ≤ 5) (hch : 0 < b.params.signalNumber)
    (data : List (Mat ℝ)) (hd : IsSignal b.params data) (den : Denoiser ℝ) (hden : KeepsSizes den) :
    ∃ d d0 out, b.decompose codeKit data den = .ok d true ∧ b.decompose codeKit data nullDenoiser = .ok d0 true ∧
      (Buffer.mk b.params d).compose codeKit 0 = .ok out ∧ out.length = data.length ∧
      ∀ (n : ℕ) (x padded : Mat ℝ), data[n]? = some x →
        addPadding x (b.params.shape.map (paddedSide b.params)) = .ok padded →
        ∃ c c0 y, d[n]? = some c ∧ d0[n]? = some c0 ∧ out[n]? = some y ∧ SameSize y x ∧
          Real.sqrt (sqDist y x) ≤
            Real.sqrt ((1 + 12 / 10 ^ 12 : ℝ) ^ (b.params.shape.length * b.params.steps)) * Real.sqrt (List.zipWith sqDist c c0).sum +
            ((1 + 12 / 10 ^ 12 : ℝ) ^ (b.params.shape.length * b.params.steps) - 1) * Real.sqrt (energy padded) := by
  have hv := hb.1
  have hk : FilterPresent codeKit b.params := codeKit_present (by omega)
  have sized : ∀ c ∈ data.map (chanP b.params (scaling codeKit b.params) den), SizedChan b.params c := by
    intro c hc
    rw [List.mem_map] at hc
    obtain ⟨m, hm, rfl⟩ := hc
    exact chanP_sized hv hden (shaped_of (hd.2 m hm))
  refine ⟨_, _, _, decompose_ok hb hk hch hd (fun _ => hden), decompose_ok hb hk hch hd (fun _ => nullDenoiser_sized),
    compose_ok (b := ⟨b.params, data.map (chanP b.params (scaling codeKit b.params) den)⟩) (s := 0) hv (by simpa using hd.1) hk
      sized (Nat.zero_le _), by simp, ?_⟩
  intro n x padded hn hp
  have hsh := shaped_of (hd.2 x (List.mem_of_getElem? hn))
  rw [paddedShape_spec hv, addPadding_ok hv hsh] at hp
  injection hp with hp
  subst hp
  obtain ⟨h1, h2⟩ := changed_trip (k := codeKit) hv hk (fun _ _ _ => rfl) hsh (chanP_sized (k := codeKit) hv hden hsh)
  refine ⟨_, _, _, by rw [List.getElem?_map, hn]; rfl, by rw [List.getElem?_map, hn]; rfl, by simp only [List.getElem?_map, hn]; rfl,
    h1, h2.trans ?_⟩
  have hA := dev_code_le b.params hv hw b.params.steps (fun h => h)
  refine add_le_add (mul_le_mul_of_nonneg_right (Real.sqrt_le_sqrt hA) (Real.sqrt_nonneg _))
    (mul_le_mul_of_nonneg_right (by linarith) (nrm_nonneg _))

/-- C91 with any filter that is orthonormal under even shifts: the squared error of the composed channel is at most the sum of
the squared changes of the coefficients. -/
theorem C91_denoised_error_orthonormal (k : Kit ℝ) (hr : RealArithmetic k) (b : Buffer ℝ) (hb : WellFormed b)
    (hk : FilterPresent k b.params) (ho : b.params.wtype ≠ 0 → EvenShiftOrthonormal (scalingFilter k b.params))
    (hch : 0 < b.params.signalNumber) (data : List (Mat ℝ)) (hd : IsSignal b.params data) (den : Denoiser ℝ)
    (hden : KeepsSizes den) :
    ∃ d d0 out, b.decompose k data den = .ok d true ∧ b.decompose k data nullDenoiser = .ok d0 true ∧
      (Buffer.mk b.params d).compose k 0 = .ok out ∧ out.length = data.length ∧
      ∀ (n : ℕ) (x : Mat ℝ), data[n]? = some x →
        ∃ c c0 y, d[n]? = some c ∧ d0[n]? = some c0 ∧ out[n]? = some y ∧ SameSize y x ∧
          sqDist y x ≤ (List.zipWith sqDist c c0).sum := by
  have hv := hb.1
  have hok : OrthoKit k b.params := fun ht => ortho_of hk (ho ht) ht
  have sized : ∀ c ∈ data.map (chanP b.params (scaling k b.params) den), SizedChan b.params c := by
    intro c hc
    rw [List.mem_map] at hc
    obtain ⟨m, hm, rfl⟩ := hc
    exact chanP_sized hv hden (shaped_of (hd.2 m hm))
  refine ⟨_, _, _, decompose_ok hb hk hch hd (fun _ => hden), decompose_ok hb hk hch hd (fun _ => nullDenoiser_sized),
    compose_ok (b := ⟨b.params, data.map (chanP b.params (scaling k b.params) den)⟩) (s := 0) hv (by simpa using hd.1) hk
      sized (Nat.zero_le _), by simp, ?_⟩
  intro n x hn
  have hsh := shaped_of (hd.2 x (List.mem_of_getElem? hn))
  obtain ⟨h1, h2⟩ := changed_trip (k := k) hv hk (fun f s x => by rw [hr.2]; rfl) hsh (chanP_sized (k := k) hv hden hsh)
  refine ⟨_, _, _, by rw [List.getElem?_map, hn]; rfl, by rw [List.getElem?_map, hn]; rfl, by simp only [List.getElem?_map, hn]; rfl,
    h1, ?_⟩
  have e : growth b.params (dev b.params.wtype (scaling k b.params)) ^ b.params.steps = 1 := by
    by_cases h0 : b.params.steps = 0
    · rw [h0, pow_zero]
    · rw [dev_ortho hok (wavelet_of_steps hv (show 0 < b.params.steps by omega))]
      unfold growth; simp
  rw [e, sub_self, zero_mul, add_zero, Real.sqrt_one, one_mul] at h2
  exact (Real.sqrt_le_sqrt_iff (zip_sqDist_nonneg _ _)).1 h2

/-- Sum of squared changes when only details change, none by more than `T`. -/
theorem change_le {p : Params} (hv : ValidParams p) {c c0 : Channel ℝ} (hc : SizedChan p c) (hc0 : SizedChan p c0) {T : ℝ}
    (h : ∀ s < p.steps, ∀ q < subbandsPerWT p, ∀ i < (c0.getD (s * subbandsPerWT p + q) default).rows,
      ∀ j < (c0.getD (s * subbandsPerWT p + q) default).cols,
      |(c.getD (s * subbandsPerWT p + q) default).get i j - (c0.getD (s * subbandsPerWT p + q) default).get i j| ≤ T)
    (hl : c.getD (p.steps * subbandsPerWT p) default = c0.getD (p.steps * subbandsPerWT p) default) :
    (List.zipWith sqDist c c0).sum ≤ T ^ 2 * (p.shape.map (paddedSide p)).prod := by
  have hlen : c.length = c0.length := by rw [hc.1, hc0.1]
  set F : ℕ → ℝ := fun i => sqDist (c.getD i default) (c0.getD i default) with hF
  have e1 : (List.zipWith sqDist c c0).sum = ∑ i ∈ range (decompositionSize p), F i := by
    rw [← hc.1, Finset.sum_range, ← List.sum_ofFn]
    congr 1
    apply List.ext_getElem
    · simp [hlen]
    · intro i h1 h2
      have h3 : i < c.length := by simpa using h2
      have h4 : i < c0.length := by omega
      simp [hF, List.getD, h4]
  have e2 : ∀ n, ∑ i ∈ range (n * subbandsPerWT p), F i = ∑ s ∈ range n, ∑ q ∈ range (subbandsPerWT p), F (s * subbandsPerWT p + q) := by
    intro n
    induction n with
    | zero => simp
    | succ n ih => rw [Nat.succ_mul, sum_range_add, ih, sum_range_succ]
  have e3 : decompositionSize p = p.steps * subbandsPerWT p + 1 := by unfold decompositionSize; ring
  have e4 : F (p.steps * subbandsPerWT p) = 0 := by
    simp only [hF]; rw [hl]; simp [sqDist]
  rw [e1, e3, sum_range_succ, e2, e4, add_zero]
  have hb : ∀ s < p.steps, ∀ q < subbandsPerWT p, F (s * subbandsPerWT p + q) ≤ T ^ 2 * (lvlR p (s + 1) * lvlC p (s + 1) : ℕ) := by
    intro s hs q hq
    have f1 := hc.2.1 s hs q hq
    have f0 := hc0.2.1 s hs q hq
    simp only [hF]
    unfold sqDist
    have r1 : (c.getD (s * subbandsPerWT p + q) default).rows = lvlR p (s + 1) := f1.1
    have c1 : (c.getD (s * subbandsPerWT p + q) default).cols = lvlC p (s + 1) := f1.2
    have r0 : (c0.getD (s * subbandsPerWT p + q) default).rows = lvlR p (s + 1) := f0.1
    have c0' : (c0.getD (s * subbandsPerWT p + q) default).cols = lvlC p (s + 1) := f0.2
    rw [r1, c1]
    calc _ ≤ ∑ _i ∈ range (lvlR p (s + 1)), ∑ _j ∈ range (lvlC p (s + 1)), T ^ 2 := by
            refine sum_le_sum fun i hi => sum_le_sum fun j hj => ?_
            have := h s hs q hq i (by rw [r0]; exact mem_range.1 hi) j (by rw [c0']; exact mem_range.1 hj)
            exact sq_le_sq' (by linarith [(abs_le.1 this).1]) (abs_le.1 this).2
      _ = _ := by simp; ring
  have hsum := levels_sum hv (le_refl p.steps)
  rw [← padded_size hv, ← hsum]
  calc _ ≤ ∑ s ∈ range p.steps, ∑ _q ∈ range (subbandsPerWT p), T ^ 2 * (lvlR p (s + 1) * lvlC p (s + 1) : ℕ) :=
        sum_le_sum fun s hs => sum_le_sum fun q hq => hb s (mem_range.1 hs) q (mem_range.1 hq)
    _ = T ^ 2 * ((∑ s ∈ range p.steps, subbandsPerWT p * (lvlR p (s + 1) * lvlC p (s + 1)) : ℕ) : ℝ) := by
        push_cast
        rw [mul_sum]
        refine sum_congr rfl fun s _ => ?_
        rw [sum_const, card_range, nsmul_eq_mul]; ring
    _ ≤ _ := by
        refine mul_le_mul_of_nonneg_left ?_ (sq_nonneg T)
        exact_mod_cast Nat.le_add_right _ _

theorem threshold_change {p : Params} (hv : ValidParams p) (k : Kit ℝ) {x : Mat ℝ} (hx : Shaped p x) {a c T : ℝ} (h0 : 0 ≤ T)
    (hT : ∀ s < p.steps, a * s + c ≤ T) :
    (List.zipWith sqDist (chanP p (scaling k p) (thresholdDenoiser (fun x => |x|) a c) x)
      (chanP p (scaling k p) nullDenoiser x)).sum ≤ T ^ 2 * (p.shape.map (paddedSide p)).prod := by
  have hden : KeepsSizes (thresholdDenoiser (fun x : ℝ => |x|) a c) := ⟨fun v s => by simp [thresholdDenoiser, threshold1],
    fun m s => ⟨rfl, rfl⟩⟩
  refine change_le hv (chanP_sized hv hden hx) (chanP_sized hv nullDenoiser_sized hx) ?_ (by rw [chanP_last, chanP_last])
  intro s hs q hq i hi j hj
  have hmap : (chanP p (scaling k p) (thresholdDenoiser (fun x : ℝ => |x|) a c) x).getD (s * subbandsPerWT p + q) default =
      ((chanP p (scaling k p) nullDenoiser x).getD (s * subbandsPerWT p + q) default).map
        (fun x => if getThreshold a c s < |x| then x else 0) := by
    rw [chanP_detail p _ _ _ hs hq, chanP_detail p _ _ _ hs hq]
    unfold detailStep
    split_ifs with hdim
    · have hj0 : q = 0 := by rw [subbandsPerWT, if_pos hdim] at hq; omega
      subst hj0
      rw [Mat.eq_iff]
      exact ⟨by simp [thresholdDenoiser, threshold1, nullDenoiser], rfl, rfl⟩
    · have hj3 : q < 3 := by rw [subbandsPerWT, if_neg hdim] at hq; omega
      rcases (by omega : q = 0 ∨ q = 1 ∨ q = 2) with rfl | rfl | rfl <;> rfl
  rw [hmap, Mat.get_map _ _ hi hj]
  split_ifs with h
  · simpa using h0
  · rw [zero_sub, abs_neg]
    exact (not_lt.1 h).trans (hT s hs)

/-- C91 for the threshold denoiser: if no step has a threshold above `T`, the composed channel is within `T √N` of the signal in
Euclidean distance (`N` samples of the padded channel), so the root mean square error over the padded samples is at most `T`;
up to the deviation of the decimals in the code. -/
theorem C91_threshold_error (b : Buffer ℝ) (hb : WellFormed b) (hw : b.params.wtype ≤ 5) (hch : 0 < b.params.signalNumber)
    (data : List (Mat ℝ)) (hd : IsSignal b.params data) (a c T : ℝ) (h0 : 0 ≤ T) (hT : ∀ s < b.params.steps, a * s + c ≤ T) :
    ∃ d out, b.decompose codeKit data (thresholdDenoiser (fun x => |x|) a c) = .ok d true ∧
      (Buffer.mk b.params d).compose codeKit 0 = .ok out ∧ out.length = data.length ∧
      ∀ (n : ℕ) (x padded : Mat ℝ), data[n]? = some x →
        addPadding x (b.params.shape.map (paddedSide b.params)) = .ok padded →
        ∃ y, out[n]? = some y ∧ SameSize y x ∧
          Real.sqrt (sqDist y x) ≤
            Real.sqrt ((1 + 12 / 10 ^ 12 : ℝ) ^ (b.params.shape.length * b.params.steps)) *
              (T * Real.sqrt ((b.params.shape.map (paddedSide b.params)).prod : ℕ)) +
            ((1 + 12 / 10 ^ 12 : ℝ) ^ (b.params.shape.length * b.params.steps) - 1) * Real.sqrt (energy padded) := by
  have hv := hb.1
  have hden : KeepsSizes (thresholdDenoiser (fun x : ℝ => |x|) a c) := ⟨fun v s => by simp [thresholdDenoiser, threshold1],
    fun m s => ⟨rfl, rfl⟩⟩
  have hk : FilterPresent codeKit b.params := codeKit_present (by omega)
  obtain ⟨d, d0, out, h1, h2, h3, h4, h5⟩ := C91_denoised_error b hb hw hch data hd _ hden
  refine ⟨d, out, h1, h3, h4, ?_⟩
  intro n x padded hn hp
  obtain ⟨e, e0, y, g1, g2, g3, g4, g5⟩ := h5 n x padded hn hp
  refine ⟨y, g3, g4, g5.trans ?_⟩
  rw [decompose_ok hb hk hch hd (fun _ => hden)] at h1
  rw [decompose_ok hb hk hch hd (fun _ => nullDenoiser_sized)] at h2
  injection h1 with h1
  injection h2 with h2
  rw [← h1, List.getElem?_map, hn] at g1
  rw [← h2, List.getElem?_map, hn] at g2
  simp only [Option.map_some, Option.some.injEq] at g1 g2
  have hsh := shaped_of (hd.2 x (List.mem_of_getElem? hn))
  have := threshold_change hv codeKit hsh h0 hT
  rw [g1, g2] at this
  refine add_le_add (mul_le_mul_of_nonneg_left ?_ (Real.sqrt_nonneg _)) le_rfl
  refine (Real.sqrt_le_sqrt this).trans (le_of_eq ?_)
  rw [Real.sqrt_mul (sq_nonneg T), Real.sqrt_sq h0]

/-- C91 for the threshold denoiser and an orthonormal filter: root mean square error at most `T`. -/
theorem C91_threshold_error_orthonormal (k : Kit ℝ) (hr : RealArithmetic k) (b : Buffer ℝ) (hb : WellFormed b)
    (hk : FilterPresent k b.params) (ho : b.params.wtype ≠ 0 → EvenShiftOrthonormal (scalingFilter k b.params))
    (hch : 0 < b.params.signalNumber) (data : List (Mat ℝ)) (hd : IsSignal b.params data) (a c T : ℝ) (h0 : 0 ≤ T)
    (hT : ∀ s < b.params.steps, a * s + c ≤ T) :
    ∃ d out, b.decompose k data (thresholdDenoiser (fun x => |x|) a c) = .ok d true ∧
      (Buffer.mk b.params d).compose k 0 = .ok out ∧ out.length = data.length ∧
      ∀ (n : ℕ) (x : Mat ℝ), data[n]? = some x →
        ∃ y, out[n]? = some y ∧ SameSize y x ∧ sqDist y x ≤ T ^ 2 * (b.params.shape.map (paddedSide b.params)).prod := by
  have hv := hb.1
  have hden : KeepsSizes (thresholdDenoiser (fun x : ℝ => |x|) a c) := ⟨fun v s => by simp [thresholdDenoiser, threshold1],
    fun m s => ⟨rfl, rfl⟩⟩
  obtain ⟨d, d0, out, h1, h2, h3, h4, h5⟩ := C91_denoised_error_orthonormal k hr b hb hk ho hch data hd _ hden
  refine ⟨d, out, h1, h3, h4, ?_⟩
  intro n x hn
  obtain ⟨e, e0, y, g1, g2, g3, g4, g5⟩ := h5 n x hn
  refine ⟨y, g3, g4, g5.trans ?_⟩
  rw [decompose_ok hb hk hch hd (fun _ => hden)] at h1
  rw [decompose_ok hb hk hch hd (fun _ => nullDenoiser_sized)] at h2
  injection h1 with h1
  injection h2 with h2
  rw [← h1, List.getElem?_map, hn] at g1
  rw [← h2, List.getElem?_map, hn] at g2
  simp only [Option.map_some, Option.some.injEq] at g1 g2
  have hsh := shaped_of (hd.2 x (List.mem_of_getElem? hn))
  have := threshold_change hv k hsh h0 hT
  rwa [g1, g2] at this

theorem forall2_self {α : Type} {R : α → α → Prop} (l : List α) (h : ∀ a ∈ l, R a a) : List.Forall₂ R l l := by
  induction l with
  | nil => exact .nil
  | cons a l ih => exact .cons (h a (by simp)) (ih fun b hb => h b (by simp [hb]))

/-- C90, sides that are multiples of `2^steps`: `Distance` of the decompositions is the mean squared difference of the
samples. -/
theorem C90_distance_is_mean_square (k : Kit ℝ) (b : Buffer ℝ) (hb : WellFormed b) (hk : FilterPresent k b.params)
    (ho : b.params.wtype ≠ 0 → EvenShiftOrthonormal (scalingFilter k b.params)) (hc : CountableSamples b.params)
    (hdvd : ∀ n ∈ b.params.shape, 2 ^ b.params.steps ∣ n)
    (x y : List (Mat ℝ)) (hx : IsSignal b.params x) (hy : IsSignal b.params y) :
    ∃ dx dy, b.decompose k x nullDenoiser = .ok dx true ∧ b.decompose k y nullDenoiser = .ok dy true ∧
      distance ⟨b.params, dx⟩ ⟨b.params, dy⟩ =
        .ok (.val ((List.zipWith sqDist x y).sum / (b.params.signalNumber * b.params.shape.prod : ℕ))) := by
  have hsame : b.params.shape.map (paddedSide b.params) = b.params.shape := by
    conv_rhs => rw [← List.map_id b.params.shape]
    apply List.map_congr_left
    intro n hn
    unfold paddedSide
    split_ifs
    · rfl
    · obtain ⟨q, hq⟩ := hdvd n hn
      have hpos : 0 < 2 ^ b.params.steps := by positivity
      have : (n + 2 ^ b.params.steps - 1) / 2 ^ b.params.steps = q := by
        rw [Nat.div_eq_iff hpos, hq, Nat.mul_comm q]; omega
      rw [this, hq, Nat.mul_comm]; rfl
  have key : ∀ z : List (Mat ℝ), IsSignal b.params z →
      List.Forall₂ (fun m q => addPadding m (b.params.shape.map (paddedSide b.params)) = .ok q) z z := by
    intro z hz
    refine forall2_self z fun m hm => ?_
    rw [hsame]
    have hsh := shaped_of (hz.2 m hm)
    exact extend_self _ _ _ hsh.1 hsh.2
  exact C90_distance_of_decomposed k b hb hk ho hc x y x y hx hy (key x hx) (key y hy)

theorem pad_three (a b c : ℝ) : addPadding (Mat.ofCol [a, b, c]) [4] = .ok (Mat.ofCol [a, b, c, c]) := by
  unfold addPadding
  rw [extend_ok _ _ _ _ (by simp [matRows]) (by simp [matCols]) (by simp) (by simp)]
  congr 1
  refine Mat.ext' (by simp [matRows]) (by simp [matCols]) ?_
  intro i hi j hj
  simp only [Mat.rows_ofFn, Mat.cols_ofFn, matRows, matCols] at hi hj
  rw [Mat.get_ofFn (by simpa [matRows] using hi) (by simpa [matCols] using hj)]
  simp at hi hj
  subst hj
  rcases (by omega : i = 0 ∨ i = 1 ∨ i = 2 ∨ i = 3) with rfl | rfl | rfl | rfl <;>
    simp [clampIdx, padOffset, matRows, matCols, Mat.get, Mat.ofCol]

/-- Without that condition it is not: the two signals `0, 0, 1` and `0, 0, 0`, one Haar step. Their mean squared difference is
one third, `Distance` is two thirds, because the sample that padding repeats counts twice. -/
theorem C90_padding_counterexample :
    ∃ dx dy, (Buffer.mk ⟨[3], 1, 1, 1⟩ [[Mat.empty, Mat.empty]] : Buffer ℝ).decompose codeKit [Mat.ofCol [0, 0, 1]] nullDenoiser =
        .ok dx true ∧
      (Buffer.mk ⟨[3], 1, 1, 1⟩ [[Mat.empty, Mat.empty]] : Buffer ℝ).decompose codeKit [Mat.ofCol [0, 0, 0]] nullDenoiser = .ok dy true ∧
      distance ⟨⟨[3], 1, 1, 1⟩, dx⟩ ⟨⟨[3], 1, 1, 1⟩, dy⟩ = .ok (.val (2 / 3)) ∧
      sqDist (Mat.ofCol [0, 0, 1]) (Mat.ofCol [0, 0, 0]) / 3 = 1 / 3 := by
  have hs : ([3] : List ℕ).map (paddedSide ⟨[3], 1, 1, 1⟩) = [4] := rfl
  obtain ⟨dx, dy, h1, h2, h3⟩ := C90_distance_of_decomposed codeKit (Buffer.mk ⟨[3], 1, 1, 1⟩ [[Mat.empty, Mat.empty]])
    ⟨⟨by simp, by simp, by simp⟩, by simp, by simp [subbandCount, detailsPerStep]⟩ (codeKit_present (by simp))
    (fun _ => haar_ortho _ rfl) ⟨by simp, by simp, by simp, by simp⟩ [Mat.ofCol [0, 0, 1]] [Mat.ofCol [0, 0, 0]]
    [Mat.ofCol [0, 0, 1, 1]] [Mat.ofCol [0, 0, 0, 0]] ⟨by simp, by simp [HasShape]⟩ ⟨by simp, by simp [HasShape]⟩
    (.cons (by simp only [hs]; exact pad_three _ _ _) .nil) (.cons (by simp only [hs]; exact pad_three _ _ _) .nil)
  refine ⟨dx, dy, h1, h2, ?_, ?_⟩
  · rw [h3]
    congr 2
    simp [sqDist, sum_range_succ, Mat.get, Mat.ofCol]
    norm_num
  · simp [sqDist, sum_range_succ, Mat.get, Mat.ofCol]

/-! ### range of `Distance` -/

theorem sqDist_unit {x y : Mat ℝ} (hx : ∀ i < x.rows, ∀ j < x.cols, 0 ≤ x.get i j ∧ x.get i j ≤ 1)
    (hy : ∀ i < x.rows, ∀ j < x.cols, 0 ≤ y.get i j ∧ y.get i j ≤ 1) :
    sqDist x y ≤ (x.rows * x.cols : ℕ) ∧
      (sqDist x y = (x.rows * x.cols : ℕ) ↔ ∀ i < x.rows, ∀ j < x.cols, |x.get i j - y.get i j| = 1) := by
  have hle : ∀ i ∈ range x.rows, ∀ j ∈ range x.cols, (x.get i j - y.get i j) ^ 2 ≤ 1 := by
    intro i hi j hj
    obtain ⟨a1, a2⟩ := hx i (mem_range.1 hi) j (mem_range.1 hj)
    obtain ⟨b1, b2⟩ := hy i (mem_range.1 hi) j (mem_range.1 hj)
    rw [sq_le_one_iff_abs_le_one, abs_le]
    constructor <;> linarith
  have hN : ((x.rows * x.cols : ℕ) : ℝ) = ∑ _i ∈ range x.rows, ∑ _j ∈ range x.cols, (1 : ℝ) := by simp
  have hle2 : ∀ i ∈ range x.rows, ∑ j ∈ range x.cols, (x.get i j - y.get i j) ^ 2 ≤ ∑ _j ∈ range x.cols, (1 : ℝ) :=
    fun i hi => sum_le_sum (hle i hi)
  rw [hN]
  unfold sqDist
  refine ⟨sum_le_sum hle2, ?_⟩
  rw [sum_eq_sum_iff_of_le hle2]
  constructor
  · intro h i hi j hj
    have h2 := (sum_eq_sum_iff_of_le (hle i (mem_range.2 hi))).1 (h i (mem_range.2 hi)) j (mem_range.2 hj)
    rw [← sq_abs] at h2
    exact (sq_eq_sq₀ (abs_nonneg _) zero_le_one).1 (by simpa using h2)
  · intro h i hi
    refine sum_congr rfl fun j hj => ?_
    rw [← sq_abs, h i (mem_range.1 hi) j (mem_range.1 hj)]; norm_num

theorem zip_sum_max (K : ℝ) (xs ys : List (Mat ℝ)) (hl : xs.length = ys.length)
    (h : ∀ (n : ℕ) (x y : Mat ℝ), xs[n]? = some x → ys[n]? = some y → sqDist x y ≤ K) :
    (List.zipWith sqDist xs ys).sum ≤ xs.length * K ∧
      ((List.zipWith sqDist xs ys).sum = xs.length * K ↔
        ∀ (n : ℕ) (x y : Mat ℝ), xs[n]? = some x → ys[n]? = some y → sqDist x y = K) := by
  induction xs generalizing ys with
  | nil => simp
  | cons x xs ih =>
    cases ys with
    | nil => simp at hl
    | cons y ys =>
      obtain ⟨i1, i2⟩ := ih ys (by simpa using hl) (fun n a b ha hb => h (n + 1) a b (by simpa using ha) (by simpa using hb))
      have h0 := h 0 x y rfl rfl
      simp only [List.zipWith_cons_cons, List.sum_cons, List.length_cons]
      push_cast
      refine ⟨by linarith, ?_⟩
      constructor
      · intro he
        have e0 : sqDist x y = K := by linarith
        have e1 := i2.1 (by linarith)
        intro n a b ha hb
        cases n with
        | zero =>
          simp only [List.getElem?_cons_zero, Option.some.injEq] at ha hb
          rw [← ha, ← hb]; exact e0
        | succ n => exact e1 n a b (by simpa using ha) (by simpa using hb)
      · intro he
        rw [he 0 x y rfl rfl, i2.2 fun n a b ha hb => he (n + 1) a b (by simpa using ha) (by simpa using hb)]
        ring

theorem shape_size {p : Params} (hv : ValidParams p) {m : Mat ℝ} (hm : HasShape p.shape m) : m.rows * m.cols = p.shape.prod := by
  rcases shape_cases hv with ⟨n, hs, _⟩ | ⟨w, hh, hs, _⟩
  · rw [hs] at hm ⊢
    simp only [HasShape] at hm
    rw [hm.1, hm.2]; simp
  · rw [hs] at hm ⊢
    simp only [HasShape] at hm
    rw [hm.1, hm.2]; simp [mul_comm]

/-- C93, the part that holds: if all sides are multiples of `2^steps` and all samples lie between 0 and 1, `Distance` of the
decompositions lies between 0 and 1, and it is 1 exactly if every pair of samples differs by 1. (In general it does not, see
`C93_padding_counterexample` and `C93_unbounded`.) -/
theorem C93_distance_range_partial (k : Kit ℝ) (b : Buffer ℝ) (hb : WellFormed b) (hk : FilterPresent k b.params)
    (ho : b.params.wtype ≠ 0 → EvenShiftOrthonormal (scalingFilter k b.params)) (hc : CountableSamples b.params)
    (hdvd : ∀ n ∈ b.params.shape, 2 ^ b.params.steps ∣ n)
    (x y : List (Mat ℝ)) (hx : IsSignal b.params x) (hy : IsSignal b.params y)
    (ux : ∀ m ∈ x, ∀ i < m.rows, ∀ j < m.cols, 0 ≤ m.get i j ∧ m.get i j ≤ 1)
    (uy : ∀ m ∈ y, ∀ i < m.rows, ∀ j < m.cols, 0 ≤ m.get i j ∧ m.get i j ≤ 1) :
    ∃ dx dy δ, b.decompose k x nullDenoiser = .ok dx true ∧ b.decompose k y nullDenoiser = .ok dy true ∧
      distance ⟨b.params, dx⟩ ⟨b.params, dy⟩ = .ok (.val δ) ∧ 0 ≤ δ ∧ δ ≤ 1 ∧
      (δ = 1 ↔ ∀ (n : ℕ) (mx my : Mat ℝ), x[n]? = some mx → y[n]? = some my →
        ∀ i < mx.rows, ∀ j < mx.cols, |mx.get i j - my.get i j| = 1) := by
  have hv := hb.1
  obtain ⟨dx, dy, h1, h2, h3⟩ := C90_distance_is_mean_square k b hb hk ho hc hdvd x y hx hy
  have hpos : 0 < ((b.params.signalNumber * b.params.shape.prod : ℕ) : ℝ) := by
    exact_mod_cast Nat.mul_pos hc.1 (List.prod_pos hc.2.1)
  have hpair : ∀ (n : ℕ) (mx my : Mat ℝ), x[n]? = some mx → y[n]? = some my →
      sqDist mx my ≤ (b.params.shape.prod : ℕ) ∧ (sqDist mx my = (b.params.shape.prod : ℕ) ↔
        ∀ i < mx.rows, ∀ j < mx.cols, |mx.get i j - my.get i j| = 1) := by
    intro n mx my ex ey
    have sx := hx.2 mx (List.mem_of_getElem? ex)
    have sy := hy.2 my (List.mem_of_getElem? ey)
    have hs := shaped_of sx
    have hs' := shaped_of sy
    have := sqDist_unit (x := mx) (y := my) (ux mx (List.mem_of_getElem? ex)) (fun i hi j hj => uy my (List.mem_of_getElem? ey) i
      (by rw [hs'.1, ← hs.1]; exact hi) j (by rw [hs'.2, ← hs.2]; exact hj))
    rwa [shape_size hv sx] at this
  obtain ⟨z1, z2⟩ := zip_sum_max (b.params.shape.prod : ℕ) x y (by rw [hx.1, hy.1]) fun n mx my ex ey => (hpair n mx my ex ey).1
  have hlen : (x.length : ℝ) * ((b.params.shape.prod : ℕ) : ℝ) = ((b.params.signalNumber * b.params.shape.prod : ℕ) : ℝ) := by
    rw [hx.1]; push_cast; ring
  rw [hlen] at z1 z2
  refine ⟨dx, dy, _, h1, h2, h3, div_nonneg (zip_sqDist_nonneg _ _) hpos.le, (div_le_one hpos).2 z1, ?_⟩
  rw [div_eq_one_iff_eq hpos.ne', z2]
  constructor
  · intro h n mx my ex ey
    exact (hpair n mx my ex ey).2.1 (h n mx my ex ey)
  · intro h n mx my ex ey
    exact (hpair n mx my ex ey).2.2 (h n mx my ex ey)

/-- The documentation says that 1 means "absolutely different". With padding it is exceeded even by signals between 0 and 1:
`1, 1, 1` and `0, 0, 0`, one Haar step, have `Distance` 4/3. -/
theorem C93_padding_counterexample :
    ∃ dx dy, (Buffer.mk ⟨[3], 1, 1, 1⟩ [[Mat.empty, Mat.empty]] : Buffer ℝ).decompose codeKit [Mat.ofCol [1, 1, 1]] nullDenoiser =
        .ok dx true ∧
      (Buffer.mk ⟨[3], 1, 1, 1⟩ [[Mat.empty, Mat.empty]] : Buffer ℝ).decompose codeKit [Mat.ofCol [0, 0, 0]] nullDenoiser = .ok dy true ∧
      distance ⟨⟨[3], 1, 1, 1⟩, dx⟩ ⟨⟨[3], 1, 1, 1⟩, dy⟩ = .ok (.val (4 / 3)) := by
  have hs : ([3] : List ℕ).map (paddedSide ⟨[3], 1, 1, 1⟩) = [4] := rfl
  obtain ⟨dx, dy, h1, h2, h3⟩ := C90_distance_of_decomposed codeKit (Buffer.mk ⟨[3], 1, 1, 1⟩ [[Mat.empty, Mat.empty]])
    ⟨⟨by simp, by simp, by simp⟩, by simp, by simp [subbandCount, detailsPerStep]⟩ (codeKit_present (by simp))
    (fun _ => haar_ortho _ rfl) ⟨by simp, by simp, by simp, by simp⟩ [Mat.ofCol [1, 1, 1]] [Mat.ofCol [0, 0, 0]]
    [Mat.ofCol [1, 1, 1, 1]] [Mat.ofCol [0, 0, 0, 0]] ⟨by simp, by simp [HasShape]⟩ ⟨by simp, by simp [HasShape]⟩
    (.cons (by simp only [hs]; exact pad_three _ _ _) .nil) (.cons (by simp only [hs]; exact pad_three _ _ _) .nil)
  refine ⟨dx, dy, h1, h2, ?_⟩
  rw [h3]
  congr 2
  simp [sqDist, sum_range_succ, Mat.get, Mat.ofCol]
  norm_num

/-- For signals in general `Distance` has no upper limit. -/
theorem C93_unbounded (M : ℝ) :
    ∃ (x : List (Mat ℝ)) (dx dy : Decs ℝ) (δ : ℝ),
      (Buffer.mk ⟨[2], 1, 1, 1⟩ [[Mat.empty, Mat.empty]] : Buffer ℝ).decompose codeKit x nullDenoiser = .ok dx true ∧
      (Buffer.mk ⟨[2], 1, 1, 1⟩ [[Mat.empty, Mat.empty]] : Buffer ℝ).decompose codeKit [Mat.ofCol [0, 0]] nullDenoiser = .ok dy true ∧
      distance ⟨⟨[2], 1, 1, 1⟩, dx⟩ ⟨⟨[2], 1, 1, 1⟩, dy⟩ = .ok (.val δ) ∧ M < δ := by
  obtain ⟨dx, dy, h1, h2, h3⟩ := C90_distance_is_mean_square codeKit (Buffer.mk ⟨[2], 1, 1, 1⟩ [[Mat.empty, Mat.empty]])
    ⟨⟨by simp, by simp, by simp⟩, by simp, by simp [subbandCount, detailsPerStep]⟩ (codeKit_present (by simp))
    (fun _ => haar_ortho _ rfl) ⟨by simp, by simp, by simp, by simp⟩ (by simp) [Mat.ofCol [|M| + 1, |M| + 1]] [Mat.ofCol [0, 0]]
    ⟨by simp, by simp [HasShape]⟩ ⟨by simp, by simp [HasShape]⟩
  refine ⟨_, dx, dy, _, h1, h2, h3, ?_⟩
  have e : (List.zipWith sqDist [Mat.ofCol [|M| + 1, |M| + 1]] [Mat.ofCol [(0 : ℝ), 0]]).sum = 2 * (|M| + 1) ^ 2 := by
    simp [sqDist, sum_range_succ, Mat.get, Mat.ofCol]
    ring
  rw [e]
  simp only [List.prod_cons, List.prod_nil]
  norm_num
  have h1 := le_abs_self M
  have h2 := abs_nonneg M
  nlinarith

/-! ### Concrete cases -/

/-- C89: two buffers with different details, DB1 and one step. -/
example : let p : Params := ⟨[4], 1, 1, 1⟩
    WellFormed (Buffer.mk p [[Mat.ofCol [1, 2], Mat.ofCol [3, 4]]] : Buffer ℝ) ∧
    WellFormed (Buffer.mk p [[Mat.ofCol [0, 0], Mat.ofCol [3, 5]]] : Buffer ℝ) ∧ p.wtype ≤ 5 ∧ CountableSamples p ∧
    PrescribedShapes p [Mat.ofCol [1, 2], Mat.ofCol [3, (4 : ℝ)]] ∧ PrescribedShapes p [Mat.ofCol [0, 0], Mat.ofCol [3, (5 : ℝ)]] := by
  have h : ∀ a b c d : ℝ, PrescribedShapes ⟨[4], 1, 1, 1⟩ [Mat.ofCol [a, b], Mat.ofCol [c, d]] := by
    intro a b c d
    refine ⟨rfl, ?_, ?_⟩
    · intro s hs j hj m hm
      have hs : s = 0 := by simp at hs; omega
      have hj : j = 0 := by simp [detailsPerStep] at hj; omega
      subst hs hj
      simp at hm; subst hm
      simp [HasShape, paddedSide]
    · intro m hm
      simp [detailsPerStep] at hm; subst hm
      simp [HasShape, paddedSide]
  exact ⟨⟨⟨by simp, by simp, by simp⟩, by simp, by simp [subbandCount, detailsPerStep]⟩,
    ⟨⟨by simp, by simp, by simp⟩, by simp, by simp [subbandCount, detailsPerStep]⟩, by simp, ⟨by simp, by simp, by simp, by simp⟩,
    h 1 2 3 4, h 0 0 3 5⟩

/-- C91: a 40 × 36 image, DB5, two steps, thresholds 0.1 and 0.3, all at most 0.3. -/
example : let p : Params := ⟨[40, 36], 1, 2, 5⟩
    WellFormed (Buffer.mk p [List.replicate 7 Mat.empty] : Buffer ℝ) ∧ IsSignal p [Mat.ofFn 36 40 (fun i j => (i * j : ℝ))] ∧
      p.wtype ≤ 5 ∧ 0 < p.signalNumber ∧ ∀ s < p.steps, (0.2 : ℝ) * s + 0.1 ≤ 0.3 := by
  refine ⟨⟨⟨by simp, by simp, by simp⟩, by simp, by simp [subbandCount, detailsPerStep]⟩, ⟨by simp, by simp [HasShape]⟩, by simp,
    by simp, ?_⟩
  intro s hs
  have hs : s = 0 ∨ s = 1 := by simp at hs; omega
  rcases hs with rfl | rfl <;> norm_num

/-- C93: black and white, four samples, two Haar steps. -/
example : let p : Params := ⟨[4], 1, 2, 1⟩
    WellFormed (Buffer.mk p [[Mat.empty, Mat.empty, Mat.empty]] : Buffer ℝ) ∧ CountableSamples p ∧
    (∀ n ∈ p.shape, 2 ^ p.steps ∣ n) ∧ EvenShiftOrthonormal (scalingFilter codeKit p) ∧ FilterPresent codeKit p ∧
    IsSignal p [Mat.ofFn 4 1 fun _ _ => (1 : ℝ)] ∧
    ∀ m ∈ [Mat.ofFn 4 1 fun _ _ => (1 : ℝ)], ∀ i < m.rows, ∀ j < m.cols, 0 ≤ m.get i j ∧ m.get i j ≤ 1 := by
  refine ⟨⟨⟨by simp, by simp, by simp⟩, by simp, by simp [subbandCount, detailsPerStep]⟩, ⟨by simp, by simp, by simp, by simp⟩,
    by simp, haar_ortho _ rfl, codeKit_present (by simp), ⟨by simp, by simp [HasShape]⟩, ?_⟩
  intro m hm i hi j hj
  simp only [List.mem_singleton] at hm
  subst hm
  rw [Mat.get_ofFn (by simpa using hi) (by simpa using hj)]
  norm_num

end WB.Props
