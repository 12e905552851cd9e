import Verif.Proof.Mirror
import Verif.Proof.Means
import Verif.Props.Twice

/-!
C142: mirrored signals and pictures.
-/

set_option linter.unusedSectionVars false

namespace WB.Props

open Spec Finset

section Ring
variable {R : Type} [CommRing R] [Inhabited R]

theorem mirror_signal {p : Params} (hv : ValidParams p) {data : List (Mat R)} (hd : IsSignal p data) (v h : Bool) : IsSignal p (data.map (mirror v h)) := by
  refine ⟨by rw [List.length_map]; exact hd.1, ?_⟩
  intro m hm
  obtain ⟨m0, h0, rfl⟩ := List.mem_map.1 hm
  have hs : Shaped p m0 := shaped_of (hd.2 m0 h0)
  exact of_shaped hv (show Shaped p (mirror v h m0) from hs)

/-- C142. Haar, padding centred in the mirrored directions: mirroring the signal mirrors all subbands and changes the signs of those details that are differences in a
mirrored direction. Any denoiser that treats all places and both signs alike may be used. -/
theorem C142_mirror (k : Kit R) (b : Buffer R) (hb : WellFormed b) (hk : FilterPresent k b.params) (hw : b.params.wtype = 1) (c : R)
    (hc : scalingFilter k b.params = [c, c]) (hch : 0 < b.params.signalNumber) (data : List (Mat R)) (hd : IsSignal b.params data) (v h : Bool)
    (h0 : Centred b.params 0 v h) (den : Denoiser R) (hden : KeepsSizes den) (hi : IgnoresMirrors den) :
    ∃ d d', b.decompose k data den = .ok d true ∧ b.decompose k (data.map (mirror v h)) den = .ok d' true ∧
      List.Forall₂ (fun x y => x.length = y.length ∧
        (∀ s < b.params.steps, ∀ q < detailsPerStep b.params, ∃ m, x[s * detailsPerStep b.params + q]? = some m ∧
          y[s * detailsPerStep b.params + q]? = some (signed (turns b.params v h q) (mirror v h m))) ∧
        ∃ m, x[b.params.steps * detailsPerStep b.params]? = some m ∧ y[b.params.steps * detailsPerStep b.params]? = some (mirror v h m)) d d' := by
  have hv := hb.1
  refine ⟨_, _, decompose_ok hb hk hch hd (fun _ => hden), decompose_ok hb hk hch (mirror_signal hv hd v h) (fun _ => hden), ?_⟩
  set p := b.params with hp
  rw [List.map_map, List.forall₂_map_left_iff, List.forall₂_map_right_iff, List.forall₂_same]
  intro x hx
  obtain ⟨m1, m2⟩ := chan_mirror (k := k) hv hk hw hc (shaped_of (hd.2 x hx)) h0 hi
  have there : ∀ (y : Mat R) {n : ℕ}, n < decompositionSize p → (chanP p (scaling k p) den y)[n]? = some ((chanP p (scaling k p) den y).getD n default) := by
    intro y n hn
    have : n < (chanP p (scaling k p) den y).length := by rw [chanP_length]; exact hn
    simp [List.getD, this]
  show (chanP p (scaling k p) den x).length = (chanP p (scaling k p) den (mirror v h x)).length ∧ _ ∧ _
  refine ⟨by rw [chanP_length, chanP_length], ?_, ?_⟩
  · intro s hs q hq
    rw [← subbandsPerWT_eq] at hq ⊢
    have hlt : s * subbandsPerWT p + q < decompositionSize p := by
      unfold decompositionSize
      have := Nat.mul_le_mul_right (subbandsPerWT p) (Nat.succ_le_of_lt hs)
      rw [Nat.succ_mul] at this
      omega
    refine ⟨_, there x hlt, ?_⟩
    show (chanP p (scaling k p) den (mirror v h x))[s * subbandsPerWT p + q]? = _
    rw [there _ hlt, m1 s hs q hq]
  · rw [← subbandsPerWT_eq]
    have hlt : p.steps * subbandsPerWT p < decompositionSize p := by unfold decompositionSize; omega
    refine ⟨_, there x hlt, ?_⟩
    show (chanP p (scaling k p) den (mirror v h x))[p.steps * subbandsPerWT p]? = _
    rw [there _ hlt, m2]

/-- C142. With an orthonormal filter also the composed signals and the previews are mirrored, whatever the denoiser has removed. -/
theorem C142_composed (k : Kit R) (b : Buffer R) (hb : WellFormed b) (hk : FilterPresent k b.params) (hw : b.params.wtype = 1) (c : R)
    (hc : scalingFilter k b.params = [c, c]) (ho : EvenShiftOrthonormal (scalingFilter k b.params)) (hch : 0 < b.params.signalNumber)
    (data : List (Mat R)) (hd : IsSignal b.params data) (v h : Bool) (h0 : Centred b.params 0 v h) (den : Denoiser R) (hden : KeepsSizes den)
    (hi : IgnoresMirrors den) (s : ℕ) (hs : s ≤ b.params.steps) (h1 : Centred b.params s v h) :
    ∃ d d' out, b.decompose k data den = .ok d true ∧ b.decompose k (data.map (mirror v h)) den = .ok d' true ∧
      (Buffer.mk b.params d).compose k s = .ok out ∧ (Buffer.mk b.params d').compose k s = .ok (out.map (mirror v h)) := by
  have hv := hb.1
  have hd' := mirror_signal hv hd v h
  have hok : OrthoKit k b.params := fun ht => ortho_of hk ho ht
  have cmp : ∀ {data : List (Mat R)}, IsSignal b.params data → (Buffer.mk b.params (data.map (chanP b.params (scaling k b.params) den))).compose k s =
      .ok ((data.map (chanP b.params (scaling k b.params) den)).map (outP k b.params s)) := by
    intro data hd
    refine compose_ok (b := ⟨b.params, data.map (chanP b.params (scaling k b.params) den)⟩) hv (by simpa using hd.1) hk ?_ hs
    intro c hc
    obtain ⟨m, hm, rfl⟩ := List.mem_map.1 hc
    exact chanP_sized hv hden (shaped_of (hd.2 m hm))
  refine ⟨_, _, _, decompose_ok hb hk hch hd (fun _ => hden), decompose_ok hb hk hch hd' (fun _ => hden), cmp hd, ?_⟩
  rw [cmp hd']
  congr 1
  simp only [List.map_map]
  refine List.map_congr_left fun x hx => ?_
  have sx := shaped_of (hd.2 x hx)
  have hz := chanP_sized (k := k) hv hden sx
  obtain ⟨m1, m2⟩ := chan_mirror (k := k) hv hk hw hc sx h0 hi
  simp only [Function.comp]
  unfold outP
  rw [recon_mirror hv hk hw hc hok hz v h m1 m2 hs, finish_mirror hv (reconP_fits hv hz hs) h1]

/-- C142. At full size the padding of even sides is centred, whatever the number of steps. -/
theorem C142_even_sides (p : Params) (he : ∀ n ∈ p.shape, 2 ∣ n) (v h : Bool) : Centred p 0 v h := by
  have one : ∀ n : ℕ, 2 ∣ n → 2 ∣ paddedSide p n / 2 ^ 0 - n / 2 ^ 0 := by
    intro n hn
    unfold paddedSide
    rw [pow_zero, Nat.div_one, Nat.div_one]
    split_ifs
    · simp
    · refine Nat.dvd_sub ?_ hn
      rcases Nat.eq_zero_or_pos p.steps with h0 | h0
      · rw [h0]; simpa using hn
      · exact Dvd.dvd.mul_left (dvd_pow_self 2 (by omega)) _
  unfold Centred
  split
  · rename_i n hs
    exact fun _ => one n (he n (by simp [hs]))
  · rename_i x y hs
    exact ⟨fun _ => one y (he y (by simp [hs])), fun _ => one x (he x (by simp [hs]))⟩
  · trivial

/-- The null denoiser treats all alike. -/
theorem C142_null : IgnoresMirrors (nullDenoiser : Denoiser R) := ⟨fun _ _ _ _ => rfl, fun _ _ _ _ _ => rfl⟩

/-- So does the threshold denoiser. -/
theorem C142_threshold [LT R] [DecidableLT R] (abs : R → R) (ha : ∀ x, abs (-x) = abs x) (a b : R) :
    IgnoresMirrors (thresholdDenoiser abs a b) := by
  have one : ∀ (g : Bool) (s : ℕ) (x : R), (if getThreshold a b s < abs (if g then -x else x) then (if g then -x else x) else 0) =
      if g then -(if getThreshold a b s < abs x then x else 0) else (if getThreshold a b s < abs x then x else 0) := by
    intro g s x
    cases g
    · simp
    · simp only [if_true, ha]
      split_ifs <;> simp
  constructor
  · intro g v l s
    simp only [thresholdDenoiser, threshold1, mirrorList, List.map_map]
    cases v
    · simp only [Bool.false_eq_true, if_false, List.map_map]
      exact List.map_congr_left fun x _ => one g s x
    · simp only [if_true]
      rw [← List.map_reverse, List.map_map]
      exact List.map_congr_left fun x _ => one g s x
  · intro g v h m s
    simp only [thresholdDenoiser, threshold2]
    set f : R → R := fun x => if getThreshold a b s < abs x then x else 0 with hf
    rw [← map_mirror]
    refine Mat.ext' rfl rfl fun i hi j hj => ?_
    have hi' : i < (mirror v h m).rows := hi
    have hj' : j < (mirror v h m).cols := hj
    rw [Mat.get_map f (signed g (mirror v h m)) hi hj]
    unfold signed
    rw [Mat.get_ofFn hi' hj', Mat.get_ofFn (show i < ((mirror v h m).map f).rows from hi') (show j < ((mirror v h m).map f).cols from hj'), Mat.get_map f _ hi' hj']
    exact one g s _

end Ring

/-! ### Where it fails -/

/-- C142. An odd side: a signal of three samples without details whose mirror image has a detail. The padding is on one side only. -/
theorem C142_odd_side : let b : Buffer ℝ := ⟨⟨[3], 1, 1, 1⟩, [[Mat.empty, Mat.empty]]⟩
    WellFormed b ∧ FilterPresent codeKit b.params ∧ b.params.wtype = 1 ∧ IsSignal b.params [Mat.ofCol [(0 : ℝ), 0, 1]] ∧
    ∃ a a' u, b.decompose codeKit [Mat.ofCol [0, 0, 1]] nullDenoiser = .ok [[Mat.ofCol [0, 0], a]] true ∧
      b.decompose codeKit ([Mat.ofCol [0, 0, 1]].map (mirror true false)) nullDenoiser = .ok [[Mat.ofCol [u, 0], a']] true ∧ u ≠ 0 := by
  intro b
  have hv : ValidParams b.params := ⟨by simp [b], by simp [b], by simp [b]⟩
  have hb : WellFormed b := ⟨hv, by simp [b], by simp [b, subbandCount, detailsPerStep]⟩
  have hk : FilterPresent codeKit b.params := codeKit_present (by simp [b])
  have hd : IsSignal b.params [Mat.ofCol [(0 : ℝ), 0, 1]] := by
    refine ⟨by simp [b], ?_⟩
    intro m hm
    obtain rfl : m = Mat.ofCol [(0 : ℝ), 0, 1] := by simpa using hm
    exact ⟨rfl, rfl⟩
  have dim : b.params.dimension = 1 := rfl
  have hsc : scaling codeKit b.params = [Real.sqrt 2 / 2, Real.sqrt 2 / 2] := haar_scaling rfl
  have form : ∀ x0 x1 x2 : ℝ, chanP b.params (scaling codeKit b.params) nullDenoiser (Mat.ofCol [x0, x1, x2]) =
      [Mat.ofCol [x0 * (Real.sqrt 2 / 2) + -(x1 * (Real.sqrt 2 / 2)), 0], approxStep b.params (scaling codeKit b.params) (Mat.ofCol [x0, x1, x2, x2])] := by
    intro x0 x1 x2
    have e1 : matRows (paddedShape b.params) = 4 := by decide +kernel
    have e2 : matCols (paddedShape b.params) = 1 := by decide +kernel
    have hpad : padOf b.params (Mat.ofCol [x0, x1, x2]) = Mat.ofCol [x0, x1, x2, x2] := by
      unfold padOf
      rw [if_neg (by simp [b]), e1, e2, Mat.eq_iff]
      refine ⟨rfl, rfl, ?_⟩
      simp [Mat.ofFn, Mat.get, Mat.ofCol, clampIdx, padOffset, List.range, List.range.loop]
    unfold chanP
    rw [hpad]
    have st : b.params.steps = 1 := rfl
    have r1 : List.range 1 = [0] := rfl
    rw [st, r1]
    simp only [List.flatMap_cons, List.flatMap_nil, List.append_nil, sig]
    unfold detailStep
    rw [if_pos dim, Mat.col_ofCol, hsc]
    simp [anaP, qmf, nullDenoiser, List.range, List.range.loop]
  have em : mirror true false (Mat.ofCol [(0 : ℝ), 0, 1]) = Mat.ofCol [1, 0, 0] := by
    rw [Mat.eq_iff]
    refine ⟨rfl, rfl, ?_⟩
    simp [mirror, Mat.ofFn, Mat.get, Mat.ofCol, List.range, List.range.loop]
  refine ⟨hb, hk, rfl, hd, approxStep b.params (scaling codeKit b.params) (Mat.ofCol [0, 0, 1, 1]),
    approxStep b.params (scaling codeKit b.params) (Mat.ofCol [1, 0, 0, 0]), Real.sqrt 2 / 2, ?_, ?_, ?_⟩
  · rw [decompose_ok hb hk (by simp [b]) hd (fun _ => nullDenoiser_sized), List.map_cons, List.map_nil, form]
    simp
  · rw [decompose_ok hb hk (by simp [b]) (mirror_signal hv hd true false) (fun _ => nullDenoiser_sized), List.map_cons, List.map_nil, List.map_cons, List.map_nil, em, form]
    simp
  · have : 0 < Real.sqrt 2 := Real.sqrt_pos.2 (by norm_num)
    positivity

/-- C142. Other wavelets: with order 2 and six samples, where nothing is padded, the middle detail of a signal is zero and that of its mirror image is not. -/
theorem C142_order_two : let b : Buffer ℝ := ⟨⟨[6], 1, 1, 2⟩, [[Mat.empty, Mat.empty]]⟩
    WellFormed b ∧ FilterPresent codeKit b.params ∧ IsSignal b.params [Mat.ofCol [(1 : ℝ), 0, 0, 0, 0, 0]] ∧ (∀ n ∈ b.params.shape, 2 ^ b.params.steps ∣ n) ∧
    ∃ a a' u v u' v' w, b.decompose codeKit [Mat.ofCol [1, 0, 0, 0, 0, 0]] nullDenoiser = .ok [[Mat.ofCol [u, 0, v], a]] true ∧
      b.decompose codeKit ([Mat.ofCol [1, 0, 0, 0, 0, 0]].map (mirror true false)) nullDenoiser = .ok [[Mat.ofCol [u', w, v'], a']] true ∧ w ≠ 0 := by
  intro b
  have hv : ValidParams b.params := ⟨by simp [b], by simp [b], by simp [b]⟩
  have hb : WellFormed b := ⟨hv, by simp [b], by simp [b, subbandCount, detailsPerStep]⟩
  have hk : FilterPresent codeKit b.params := codeKit_present (by simp [b])
  have hd : IsSignal b.params [Mat.ofCol [(1 : ℝ), 0, 0, 0, 0, 0]] := by
    refine ⟨by simp [b], ?_⟩
    intro m hm
    obtain rfl : m = Mat.ofCol [(1 : ℝ), 0, 0, 0, 0, 0] := by simpa using hm
    exact ⟨rfl, rfl⟩
  have dim : b.params.dimension = 1 := rfl
  obtain ⟨f0, f1, f2, f3, hsc, hf0⟩ : ∃ f0 f1 f2 f3 : ℝ, scaling codeKit b.params = [f0, f1, f2, f3] ∧ f0 ≠ 0 := by
    refine ⟨_, _, _, _, rfl, ?_⟩
    have : 0 < Real.sqrt 2 := Real.sqrt_pos.2 (by norm_num)
    simp only [codeKit]
    refine mul_ne_zero this.ne' ?_
    norm_num
  have hdv : ∀ n ∈ b.params.shape, 2 ^ b.params.steps ∣ n := by simp [b]
  have form : ∀ x0 x5 : ℝ, ∃ a, chanP b.params (scaling codeKit b.params) nullDenoiser (Mat.ofCol [x0, 0, 0, 0, 0, x5]) =
      [Mat.ofCol [x0 * f3, x5 * -f0, x0 * f1 + x5 * -f2], a] := by
    intro x0 x5
    have hpad : padOf b.params (Mat.ofCol [x0, 0, 0, 0, 0, x5]) = Mat.ofCol [x0, 0, 0, 0, 0, x5] := padOf_self hv ⟨rfl, rfl⟩ hdv
    refine ⟨approxStep b.params (scaling codeKit b.params) (Mat.ofCol [x0, 0, 0, 0, 0, x5]), ?_⟩
    unfold chanP
    rw [hpad]
    have st : b.params.steps = 1 := rfl
    have r1 : List.range 1 = [0] := rfl
    rw [st, r1]
    simp only [List.flatMap_cons, List.flatMap_nil, List.append_nil, sig]
    unfold detailStep
    rw [if_pos dim, Mat.col_ofCol, hsc]
    simp [anaP, qmf, nullDenoiser, List.range, List.range.loop, add_comm]
  have em : mirror true false (Mat.ofCol [(1 : ℝ), 0, 0, 0, 0, 0]) = Mat.ofCol [0, 0, 0, 0, 0, 1] := by
    rw [Mat.eq_iff]
    refine ⟨rfl, rfl, ?_⟩
    simp [mirror, Mat.ofFn, Mat.get, Mat.ofCol, List.range, List.range.loop]
  obtain ⟨a, ea⟩ := form 1 0
  obtain ⟨a', ea'⟩ := form 0 1
  refine ⟨hb, hk, hd, hdv, a, a', 1 * f3, 1 * f1 + 0 * -f2, 0 * f3, 0 * f1 + 1 * -f2, 1 * -f0, ?_, ?_, ?_⟩
  · rw [decompose_ok hb hk (by simp [b]) hd (fun _ => nullDenoiser_sized), List.map_cons, List.map_nil, ea, zero_mul]
  · rw [decompose_ok hb hk (by simp [b]) (mirror_signal hv hd true false) (fun _ => nullDenoiser_sized), List.map_cons, List.map_nil, List.map_cons, List.map_nil, em, ea']
  · simpa using hf0

/-! ### A concrete case -/

/-- The hypotheses of C142 for a picture of four rows and six columns that is padded to eight columns, mirrored both ways, with two steps of the Haar wavelet of the code and
thresholds. -/
example : let p : Params := ⟨[6, 4], 1, 2, 1⟩
    let b : Buffer ℝ := ⟨p, [List.replicate 7 Mat.empty]⟩
    WellFormed b ∧ FilterPresent codeKit p ∧ scalingFilter codeKit p = [Real.sqrt 2 / 2, Real.sqrt 2 / 2] ∧ EvenShiftOrthonormal (scalingFilter codeKit p) ∧
      IsSignal p [Mat.ofFn 4 6 fun i j => (i * j * j : ℝ)] ∧ Centred p 0 true true ∧ paddedSide p 6 = 8 ∧
      KeepsSizes (thresholdDenoiser (fun x : ℝ => |x|) 0 1) ∧ IgnoresMirrors (thresholdDenoiser (fun x : ℝ => |x|) 0 1) := by
  intro p b
  refine ⟨⟨⟨by simp [b, p], by simp [b, p], by simp [b, p]⟩, by simp [b, p], by simp [b, p, subbandCount, detailsPerStep]⟩,
    codeKit_present (by simp [p]), haar_scaling (p := p) rfl, haar_ortho p rfl, ⟨by simp [p], ?_⟩, ?_, by simp [paddedSide, p], threshold_sizes_kept _ _ _,
    C142_threshold _ abs_neg _ _⟩
  · intro m hm
    obtain rfl : m = Mat.ofFn 4 6 fun i j => (i * j * j : ℝ) := by simpa using hm
    exact ⟨rfl, rfl⟩
  · exact ⟨fun _ => by decide, fun _ => by decide⟩

end WB.Props
