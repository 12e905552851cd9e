import Verif.Proof.Optimal
import Verif.Props.SimpleLoss
import Verif.Props.Reverse

/-!
C101: the denoisers give best approximations.
-/

set_option linter.unusedSectionVars false

namespace WB.Props

open Finset Spec

/-- C101 for one subband and the simple denoiser: at most `keptCount level` coefficients are left, and no matrix of the same size with that
many coefficients is closer to the subband. -/
theorem C101_simple_subband (ext : SimpleExt ℝ) (ha : ExactCast ext) (hnth : NthOk ext) (level : ℝ) (h0 : 0 ≤ level) (h1 : level ≤ 1)
    (m : Mat ℝ) (hm : m.rows * m.cols < 2 ^ 64) :
    ∃ r, simple2 ext level m = .ok r ∧ SameSize r m ∧ nonzeros r ≤ keptCount level (m.rows * m.cols) ∧
      ∀ z : Mat ℝ, SameSize z m → nonzeros z ≤ keptCount level (m.rows * m.cols) → sqDist r m ≤ sqDist z m := by
  obtain ⟨c1, -⟩ := cut_ok ha h0 h1 hm
  obtain ⟨r, hr, hk⟩ := simple2_ok ext level m _ c1 hnth.2
  rw [show ext.abs = fun x => |x| from funext ha.1] at hk
  exact ⟨r, hr, ⟨hk.rows, hk.cols⟩, keepsLargest_nonzeros hk, fun z hz hn => keepsLargest_best hk hz hn⟩

/-- The same for vectors. -/
theorem C101_simple_subband_1D (ext : SimpleExt ℝ) (ha : ExactCast ext) (hnth : NthOk ext) (level : ℝ) (h0 : 0 ≤ level) (h1 : level ≤ 1)
    (v : List ℝ) (hm : v.length < 2 ^ 64) :
    ∃ r, simple1 ext level v = .ok r ∧ r.length = v.length ∧ nonzeros (Mat.ofCol r) ≤ keptCount level v.length ∧
      ∀ z : List ℝ, z.length = v.length → nonzeros (Mat.ofCol z) ≤ keptCount level v.length →
        sqDist (Mat.ofCol r) (Mat.ofCol v) ≤ sqDist (Mat.ofCol z) (Mat.ofCol v) := by
  obtain ⟨c1, -⟩ := cut_ok ha h0 h1 hm
  obtain ⟨r, hr, hk⟩ := simple1_ok ext level v _ c1 hnth.1
  rw [show ext.abs = fun x => |x| from funext ha.1] at hk
  exact ⟨r, hr, by simpa using hk.rows, keepsLargest_nonzeros hk,
    fun z hz hn => keepsLargest_best hk ⟨by simpa using hz, by simp⟩ hn⟩

/-- C101 for one subband and the threshold denoiser with a threshold that is not negative: nothing has a smaller sum of the squared
distance and the squared threshold for every coefficient that is not zero. -/
theorem C101_threshold_subband (a b : ℝ) (m : Mat ℝ) (s : ℕ) (ht : 0 ≤ a * s + b) (z : Mat ℝ) (hz : SameSize z m) :
    sqDist ((thresholdDenoiser (fun x => |x|) a b).d2 m s) m + (a * s + b) ^ 2 * nonzeros ((thresholdDenoiser (fun x => |x|) a b).d2 m s) ≤
      sqDist z m + (a * s + b) ^ 2 * nonzeros z :=
  threshold_best ht m z hz

/-- Two lists of subbands of a channel against the decomposition without denoising. -/
theorem best_channel {k : Kit ℝ} {p : Params} {den : Denoiser ℝ} {x : Mat ℝ} (w : ℕ → ℝ) {c2 : List (Mat ℝ)}
    (hl : c2.length = decompositionSize p)
    (h : ∀ s < p.steps, ∀ q < subbandsPerWT p,
      let m0 := (detailStep p (scaling k p) nullDenoiser s (sig p (scaling k p) (padOf p x) s)).getD q default
      let m := (detailStep p (scaling k p) den s (sig p (scaling k p) (padOf p x) s)).getD q default
      let z := c2.getD (s * subbandsPerWT p + q) default
      sqDist m m0 + w s ^ 2 * nonzeros m ≤ sqDist z m0 + w s ^ 2 * nonzeros z) :
    (List.zipWith sqDist (chanP p (scaling k p) den x) (chanP p (scaling k p) nullDenoiser x)).sum +
        price p w (chanP p (scaling k p) den x) ≤
      (List.zipWith sqDist c2 (chanP p (scaling k p) nullDenoiser x)).sum + price p w c2 := by
  rw [channel_dist (chanP_length _ _ _ _) (chanP_length _ _ _ _), channel_dist hl (chanP_length _ _ _ _)]
  unfold price
  rw [← subbandsPerWT_eq]
  have hlast : sqDist ((chanP p (scaling k p) den x).getD (p.steps * subbandsPerWT p) default)
      ((chanP p (scaling k p) nullDenoiser x).getD (p.steps * subbandsPerWT p) default) = 0 := by
    rw [chanP_last, chanP_last]; simp [sqDist]
  have hn := sqDist_nonneg (c2.getD (p.steps * subbandsPerWT p) default)
    ((chanP p (scaling k p) nullDenoiser x).getD (p.steps * subbandsPerWT p) default)
  have hsum : ∑ s ∈ range p.steps, ∑ q ∈ range (subbandsPerWT p),
      (sqDist ((chanP p (scaling k p) den x).getD (s * subbandsPerWT p + q) default)
        ((chanP p (scaling k p) nullDenoiser x).getD (s * subbandsPerWT p + q) default) +
        w s ^ 2 * nonzeros ((chanP p (scaling k p) den x).getD (s * subbandsPerWT p + q) default)) ≤
      ∑ s ∈ range p.steps, ∑ q ∈ range (subbandsPerWT p),
      (sqDist (c2.getD (s * subbandsPerWT p + q) default)
        ((chanP p (scaling k p) nullDenoiser x).getD (s * subbandsPerWT p + q) default) +
        w s ^ 2 * nonzeros (c2.getD (s * subbandsPerWT p + q) default)) := by
    refine sum_le_sum fun s hs => sum_le_sum fun q hq => ?_
    rw [chanP_detail p _ _ _ (mem_range.1 hs) (mem_range.1 hq), chanP_detail p _ _ _ (mem_range.1 hs) (mem_range.1 hq)]
    exact h s (mem_range.1 hs) q (mem_range.1 hq)
  simp only [sum_add_distrib] at hsum
  linarith

/-- C101 for signals and the threshold denoiser. The filter is orthonormal, no padding is needed and the thresholds are not negative:
among all signals that buffers with these parameters compose, the denoised round trip gives the one with the smallest sum of squared
distance to the input and price of the details, in every channel. -/
theorem C101_threshold_signal (k : Kit ℝ) (b : Buffer ℝ) (hb : WellFormed b) (hk : FilterPresent k b.params)
    (ho : b.params.wtype ≠ 0 → EvenShiftOrthonormal (scalingFilter k b.params)) (hch : 0 < b.params.signalNumber)
    (hdvd : ∀ n ∈ b.params.shape, 2 ^ b.params.steps ∣ n) (data : List (Mat ℝ)) (hd : IsSignal b.params data)
    (a c : ℝ) (ht : ∀ s < b.params.steps, 0 ≤ a * s + c) :
    ∃ d out, b.decompose k data (thresholdDenoiser (fun x => |x|) a c) = .ok d true ∧
      (Buffer.mk b.params d).compose k 0 = .ok out ∧ out.length = data.length ∧ d.length = data.length ∧
      ∀ b2 : Buffer ℝ, WellFormed b2 → b2.params = b.params → (∀ e ∈ b2.decs, PrescribedShapes b.params e) →
        ∃ out2, b2.compose k 0 = .ok out2 ∧
          ∀ (n : ℕ) (x y y2 : Mat ℝ) (e e2 : List (Mat ℝ)), data[n]? = some x → out[n]? = some y → out2[n]? = some y2 →
            d[n]? = some e → b2.decs[n]? = some e2 →
            sqDist y x + price b.params (fun s => a * s + c) e ≤ sqDist y2 x + price b.params (fun s => a * s + c) e2 := by
  have hv := hb.1
  have hok : OrthoKit k b.params := fun ht => ortho_of hk (ho ht) ht
  have hden : KeepsSizes (thresholdDenoiser (fun x : ℝ => |x|) a c) := ⟨fun v s => by simp [thresholdDenoiser, threshold1],
    fun m s => ⟨rfl, rfl⟩⟩
  have hsz : ∀ e ∈ data.map (chanP b.params (scaling k b.params) (thresholdDenoiser (fun x : ℝ => |x|) a c)), SizedChan b.params e := by
    intro e he
    obtain ⟨x, h1, rfl⟩ := List.mem_map.1 he
    exact chanP_sized hv hden (shaped_of (hd.2 x h1))
  refine ⟨_, _, decompose_ok hb hk hch hd (fun _ => hden),
    compose_ok (b := Buffer.mk b.params (data.map (chanP b.params (scaling k b.params) (thresholdDenoiser (fun x : ℝ => |x|) a c))))
      hv (by simp [hd.1]) hk hsz (Nat.zero_le _), by simp, by simp, ?_⟩
  intro b2 hb2 hp hs2
  have hc2 : ∀ e ∈ b2.decs, SizedChan b.params e := fun e h => (sized_iff hv e).2 (hs2 e h)
  refine ⟨_, compose_ok (by rw [hp]; exact hv) hb2.2.1 (by rw [hp]; exact hk) (by rw [hp]; exact hc2) (Nat.zero_le _), ?_⟩
  intro n x y y2 e e2 hx hy hy2 he he2
  rw [hp] at hy2
  simp only [List.getElem?_map, hx, he2, Option.map_some, Option.some.injEq] at hy hy2 he
  subst hy hy2 he
  have sx := shaped_of (hd.2 x (List.mem_of_getElem? hx))
  have s2 := hc2 e2 (List.mem_of_getElem? he2)
  rw [composed_dist hv hk hok hdvd (chanP_sized hv hden sx) sx, composed_dist hv hk hok hdvd s2 sx]
  refine best_channel _ s2.1 ?_
  intro s hs q hq
  have fz := s2.2.1 s hs q hq
  have f0 := detailStep_fits (k := k) hv nullDenoiser_sized hs (fits_sig (k := k) hv (fits_padOf hv sx) hs.le) hq
  have hsame : SameSize (e2.getD (s * subbandsPerWT b.params + q) default)
      ((detailStep b.params (scaling k b.params) nullDenoiser s (sig b.params (scaling k b.params) (padOf b.params x) s)).getD q default) :=
    ⟨fz.1.trans f0.1.symm, fz.2.trans f0.2.symm⟩
  have hmap : (detailStep b.params (scaling k b.params) (thresholdDenoiser (fun x : ℝ => |x|) a c) s
      (sig b.params (scaling k b.params) (padOf b.params x) s)).getD q default =
      ((detailStep b.params (scaling k b.params) nullDenoiser s (sig b.params (scaling k b.params) (padOf b.params x) s)).getD q default).map
        (fun x => if a * s + c < |x| then x else 0) := by
    unfold detailStep
    split_ifs with hdim
    · have hj0 : q = 0 := by rw [subbandsPerWT, if_pos hdim] at hq; omega
      subst hj0
      rw [Mat.eq_iff]
      exact ⟨by simp [thresholdDenoiser, threshold1, nullDenoiser], rfl, rfl⟩
    · have hj3 : q < 3 := by rw [subbandsPerWT, if_neg hdim] at hq; omega
      rcases (by omega : q = 0 ∨ q = 1 ∨ q = 2) with rfl | rfl | rfl <;> rfl
  intro m0 m z
  simp only [m, hmap]
  exact threshold_best (ht s hs) _ _ hsame

/-- C101 for signals and the simple denoiser: among all signals composed from details with at most as many coefficients as the denoiser
keeps, subband by subband, the denoised round trip gives the one closest to the input. -/
theorem C101_simple_signal (ext : SimpleExt ℝ) (ha : ExactCast ext) (hnth : NthOk ext) (level : ℝ) (h0 : 0 ≤ level) (h1 : level ≤ 1)
    (den : Denoiser ℝ) (hden : IsSimple ext level den) (k : Kit ℝ) (b : Buffer ℝ) (hb : WellFormed b) (hk : FilterPresent k b.params)
    (ho : b.params.wtype ≠ 0 → EvenShiftOrthonormal (scalingFilter k b.params)) (hch : 0 < b.params.signalNumber)
    (hdvd : ∀ n ∈ b.params.shape, 2 ^ b.params.steps ∣ n) (hN : b.params.shape.prod < 2 ^ 64) (data : List (Mat ℝ))
    (hd : IsSignal b.params data) :
    ∃ d out, b.decompose k data den = .ok d true ∧ (Buffer.mk b.params d).compose k 0 = .ok out ∧ out.length = data.length ∧
      ∀ b2 : Buffer ℝ, WellFormed b2 → b2.params = b.params → (∀ e ∈ b2.decs, PrescribedShapes b.params e) →
        (∀ e ∈ b2.decs, ∀ s < b.params.steps, ∀ q < detailsPerStep b.params, ∀ m : Mat ℝ, e[s * detailsPerStep b.params + q]? = some m →
          nonzeros m ≤ keptCount level (m.rows * m.cols)) →
        ∃ out2, b2.compose k 0 = .ok out2 ∧
          ∀ (n : ℕ) (x y y2 : Mat ℝ), data[n]? = some x → out[n]? = some y → out2[n]? = some y2 → sqDist y x ≤ sqDist y2 x := by
  have hv := hb.1
  have hok : OrthoKit k b.params := fun ht => ortho_of hk (ho ht) ht
  have hsz : ∀ e ∈ data.map (chanP b.params (scaling k b.params) den), SizedChan b.params e := by
    intro e he
    obtain ⟨x, h1, rfl⟩ := List.mem_map.1 he
    exact chanP_sized hv hden.1 (shaped_of (hd.2 x h1))
  refine ⟨_, _, decompose_ok hb hk hch hd (fun _ => hden.1),
    compose_ok (b := Buffer.mk b.params (data.map (chanP b.params (scaling k b.params) den))) hv (by simp [hd.1]) hk hsz (Nat.zero_le _),
    by simp, ?_⟩
  intro b2 hb2 hp hs2 hfew
  have hc2 : ∀ e ∈ b2.decs, SizedChan b.params e := fun e h => (sized_iff hv e).2 (hs2 e h)
  refine ⟨_, compose_ok (by rw [hp]; exact hv) hb2.2.1 (by rw [hp]; exact hk) (by rw [hp]; exact hc2) (Nat.zero_le _), ?_⟩
  intro n x y y2 hx hy hy2
  rw [hp] at hy2
  rw [List.getElem?_map] at hy2
  obtain ⟨e2, he2, rfl⟩ := Option.map_eq_some_iff.1 hy2
  simp only [List.getElem?_map, hx, Option.map_some, Option.some.injEq] at hy
  subst hy
  have sx := shaped_of (hd.2 x (List.mem_of_getElem? hx))
  have m2 := List.mem_of_getElem? he2
  have s2 := hc2 e2 m2
  rw [composed_dist hv hk hok hdvd (chanP_sized hv hden.1 sx) sx, composed_dist hv hk hok hdvd s2 sx]
  have key := best_channel (k := k) (p := b.params) (den := den) (x := x) (fun _ => 0) s2.1 ?_
  · unfold price at key
    simpa using key
  intro s hs q hq
  have fz := s2.2.1 s hs q hq
  have f0 := detailStep_fits (k := k) hv nullDenoiser_sized hs (fits_sig (k := k) hv (fits_padOf hv sx) hs.le) hq
  have hlt : s * subbandsPerWT b.params + q < e2.length := by
    rw [s2.1]
    unfold decompositionSize
    have := Nat.mul_le_mul_right (subbandsPerWT b.params) (Nat.succ_le_of_lt hs)
    rw [Nat.succ_mul] at this
    omega
  have hn := hfew e2 m2 s hs q (by rw [← subbandsPerWT_eq]; exact hq) (e2.getD (s * subbandsPerWT b.params + q) default)
    (by rw [← subbandsPerWT_eq, List.getD, List.getElem?_eq_getElem hlt, Option.getD_some])
  intro m0 m z
  have hsame : SameSize z m0 := ⟨fz.1.trans f0.1.symm, fz.2.trans f0.2.symm⟩
  have hsize : m0.rows * m0.cols < 2 ^ 64 := by
    rw [show m0.rows = _ from f0.1, show m0.cols = _ from f0.2]
    refine (level_le hv (show s + 1 ≤ b.params.steps by omega)).trans_lt ?_
    have e : b.params.shape.map (paddedSide b.params) = b.params.shape := by
      conv_rhs => rw [← List.map_id b.params.shape]
      apply List.map_congr_left
      intro n hn
      unfold paddedSide
      split_ifs
      · rfl
      · obtain ⟨c, rfl⟩ := hdvd n hn
        have h2 : 0 < 2 ^ b.params.steps := by positivity
        have : (2 ^ b.params.steps * c + 2 ^ b.params.steps - 1) / 2 ^ b.params.steps = c := by
          rw [Nat.add_sub_assoc h2, Nat.mul_add_div h2, Nat.div_eq_of_lt (by omega)]; rfl
        rw [this, Nat.mul_comm]; rfl
    rw [e]; exact hN
  have hn' : nonzeros z ≤ keptCount level (m0.rows * m0.cols) := by rw [← hsame.1, ← hsame.2]; exact hn
  suffices hle : sqDist m m0 ≤ sqDist z m0 by simpa using hle
  clear_value z
  have hm : KeepsLargest (fun x => |x|) (keptCount level (m0.rows * m0.cols)) m0 m := by
    revert hsize
    simp only [m0, m]
    unfold detailStep
    split_ifs with hdim
    · have hj0 : q = 0 := by rw [subbandsPerWT, if_pos hdim] at hq; omega
      subst hj0
      simp only [List.getD_cons_zero, nullDenoiser, Mat.rows_ofCol, Mat.cols_ofCol, Nat.mul_one]
      intro hsize
      obtain ⟨c1, -⟩ := cut_ok ha h0 h1 hsize
      obtain ⟨r, hr, hk⟩ := simple1_ok ext level _ _ c1 hnth.1
      rw [hden.2.1 _ s r hsize hr]
      rw [show ext.abs = fun x => |x| from funext ha.1] at hk
      exact hk
    · have hj3 : q < 3 := by rw [subbandsPerWT, if_neg hdim] at hq; omega
      rcases (by omega : q = 0 ∨ q = 1 ∨ q = 2) with rfl | rfl | rfl <;>
      · intro hsize
        obtain ⟨c1, -⟩ := cut_ok ha h0 h1 hsize
        obtain ⟨r, hr, hk⟩ := simple2_ok ext level _ _ c1 hnth.2
        rw [show ext.abs = fun x => |x| from funext ha.1] at hk
        have := hden.2.2 _ s r hsize hr
        simp only [List.getD_cons_zero, List.getD_cons_succ, nullDenoiser] at this hk ⊢
        rw [this]
        exact hk
  exact keepsLargest_best hm hsame hn'

/-! ### Concrete cases -/

/-- The hypotheses of C101 for signals: 8 × 4 samples, two steps of the Haar wavelet of the code, thresholds 1/2 and 3/4. Denoiser and library
functions as in the example of C92. -/
example : let p : Params := ⟨[8, 4], 1, 2, 1⟩
    WellFormed (Buffer.mk p [List.replicate 7 Mat.empty] : Buffer ℝ) ∧ FilterPresent codeKit p ∧
      EvenShiftOrthonormal (scalingFilter codeKit p) ∧ (∀ n ∈ p.shape, 2 ^ p.steps ∣ n) ∧ p.shape.prod < 2 ^ 64 ∧
      IsSignal p [Mat.ofFn 4 8 (fun i j => (i * j : ℝ))] ∧ ∀ s < p.steps, 0 ≤ (1 / 4 : ℝ) * s + 1 / 2 := by
  intro p
  refine ⟨⟨⟨by simp [p], by simp [p], by simp [p]⟩, by simp [p], by simp [p, subbandCount, detailsPerStep]⟩, codeKit_present (by simp [p]),
    haar_ortho p rfl, ?_, by simp [p], ⟨by simp [p], by simp [p, HasShape]⟩, fun s _ => by positivity⟩
  intro n hn
  simp only [p, List.mem_cons, List.not_mem_nil, or_false] at hn
  rcases hn with rfl | rfl <;> decide

/-- The simple denoiser at level 1/2 keeps 5 of 9 coefficients. -/
example : keptCount (1 / 2) 9 = 5 := by
  have : ⌊((9 : ℕ) : ℝ) * (1 / 2)⌋₊ = 4 := by rw [Nat.floor_eq_iff (by positivity)]; norm_num
  unfold keptCount
  rw [this]
  rfl

end WB.Props
