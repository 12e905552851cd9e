import Verif.Proof.Coarse

/-!
Decomposition and composition: C05, C06, C07, C08, C12, C13, C15, C55.
-/

namespace WB.Props

open Spec

section Poly
variable {α : Type} [Zero α] [Add α] [Mul α] [Neg α] [Inhabited α]

/-- C05. For every accepted parameter set, every signal of the declared shape (at least one channel) and every denoiser
that keeps sizes, `Decompose` returns `true` and every `Compose` with a scale up to the number of steps returns a signal:
no element access is out of range, no index wraps around, no sparse append is out of order (all of these are `ub` in the
model). Nothing is assumed about the arithmetic. -/
theorem C05_transforms_stay_in_range (k : Kit α) (b : Buffer α) (hb : WellFormed b) (hk : FilterPresent k b.params)
    (hch : 0 < b.params.signalNumber) (data : List (Mat α)) (hd : IsSignal b.params data) (den : Denoiser α)
    (hden : KeepsSizes den) :
    ∃ d, b.decompose k data den = .ok d true ∧
      ∀ scale : ℕ, scale ≤ b.params.steps → ∃ out, (Buffer.mk b.params d).compose k scale = .ok out := by
  refine ⟨_, decompose_ok hb hk hch hd (fun _ => hden), ?_⟩
  intro scale hs
  refine ⟨_, compose_ok (b := Buffer.mk b.params (data.map (chanP b.params (scaling k b.params) den)))
    hb.1 ?_ hk ?_ hs⟩
  · simpa using hd.1
  · intro c hc
    rw [List.mem_map] at hc
    obtain ⟨m, hm, rfl⟩ := hc
    exact chanP_sized hb.1 hden (shaped_of (hd.2 m hm))

/-- The bound on the channels in C05 is needed: with zero channels the shape check reads the first channel of an empty
list. -/
theorem C05_zero_channels (k : Kit α) (p : Params) (hv : ValidParams p) (hz : p.signalNumber = 0) (den : Denoiser α) :
    IsSignal p ([] : List (Mat α)) ∧ (Buffer.mk p []).decompose k [] den = .ub := by
  refine ⟨⟨by simp [hz], by simp⟩, ?_⟩
  unfold Buffer.decompose decomposeImpl shapeCheck
  rcases shape_cases hv with ⟨n, hsh, hd⟩ | ⟨w, hh, hsh, hd⟩
  · simp [hd, rd, Run.lift, Run.bind]
  · simp [hd, hz, rd, Run.lift, Run.bind]

/-- C06. Sizes of the stored subbands. -/
theorem C06_subband_shapes (k : Kit α) (b : Buffer α) (hb : WellFormed b) (hk : FilterPresent k b.params)
    (hch : 0 < b.params.signalNumber) (data : List (Mat α)) (hd : IsSignal b.params data) (den : Denoiser α)
    (hden : KeepsSizes den) :
    ∃ d, b.decompose k data den = .ok d true ∧ d.length = b.params.signalNumber ∧
      ∀ c ∈ d, PrescribedShapes b.params c := by
  refine ⟨_, decompose_ok hb hk hch hd (fun _ => hden), by simpa using hd.1, ?_⟩
  intro c hc
  rw [List.mem_map] at hc
  obtain ⟨m, hm, rfl⟩ := hc
  rw [← sized_iff hb.1]
  exact chanP_sized hb.1 hden (shaped_of (hd.2 m hm))

/-- C12. Without a wavelet or without steps `Decompose` stores the channels verbatim, whatever the denoiser, and `Compose`
at scale 0 returns them: no arithmetic is applied to any sample. -/
theorem C12_no_decomposition_is_verbatim (k : Kit α) (b : Buffer α) (hb : WellFormed b)
    (hk : FilterPresent k b.params) (hch : 0 < b.params.signalNumber) (data : List (Mat α))
    (hd : IsSignal b.params data) (den : Denoiser α) (h : b.params.wtype = 0 ∨ b.params.steps = 0) :
    b.decompose k data den = .ok (data.map (fun m => [m])) true ∧
    (Buffer.mk b.params (data.map (fun m => [m]))).compose k 0 = .ok data := by
  have hv := hb.1
  have hs : b.params.steps = 0 := by
    rcases h with h | h
    · have := hv.2.2; rwa [if_pos h] at this
    · exact h
  have hpad : ∀ m ∈ data, padOf b.params m = m := by
    intro m hm
    have hsh := shaped_of (hd.2 m hm)
    have h1 := addPadding_ok hv hsh
    have hp : paddedShape b.params = b.params.shape := by
      unfold paddedShape
      split_ifs with ht
      · have : b.params.shape.map (paddedDim b.params.steps) = b.params.shape.map id := by
          apply List.map_congr_left
          intro n hn
          have := (valid_side hv ht hn).1
          simp [hs, paddedDim]; omega
        rw [this, List.map_id]
      · rfl
    rw [hp] at h1
    have h2 := extend_self (m := m) _ _ .both hsh.1 hsh.2
    unfold addPadding at h1
    rw [h2] at h1
    injection h1 with h1
    exact h1.symm
  have hchan : data.map (chanP b.params (scaling k b.params) den) = data.map (fun m => [m]) := by
    apply List.map_congr_left
    intro m hm
    unfold chanP
    rw [hs, hpad m hm]
    rfl
  refine ⟨by rw [decompose_ok hb hk hch hd (by omega), hchan], ?_⟩
  have hcomp := compose_ok (k := k) (b := Buffer.mk b.params (data.map (fun m => [m]))) hv (by simpa using hd.1) hk
    (by
      intro c hc
      rw [← hchan, List.mem_map] at hc
      obtain ⟨m, hm, rfl⟩ := hc
      refine ⟨chanP_length _ _ _ _, fun s h0 => absurd h0 (by simp only; omega), ?_⟩
      rw [chanP_last]
      exact fits_sig hv (fits_padOf hv (shaped_of (hd.2 m hm))) le_rfl) (s := 0) (Nat.zero_le _)
  rw [Nat.cast_zero] at hcomp
  rw [hcomp]
  congr 1
  simp only [List.map_map]
  conv_rhs => rw [← List.map_id data]
  apply List.map_congr_left
  intro m hm
  have hsh := shaped_of (hd.2 m hm)
  simp only [Function.comp, outP, reconP, hs, Nat.zero_mul, Nat.sub_zero, reconFrom, List.getD_cons_zero, finishP, id]
  have hmap : b.params.shape.map (· / 2 ^ 0) = b.params.shape := by simp
  unfold cropOf
  simp only [hmap, gt_iff_lt, lt_self_iff_false, if_false]
  split_ifs with h0
  · rfl
  · rw [← hsh.1, ← hsh.2]
    conv_rhs => rw [← Mat.ofFn_get m]
    apply Mat.ofFn_congr
    intro i _ j _
    simp [padOffset]

/-- C13. Composition at scale `s ≤ steps` of any buffer whose subbands have the prescribed sizes: one signal per channel,
every side `⌊n / 2^s⌋`. -/
theorem C13_scaled_shape (k : Kit α) (b : Buffer α) (hb : WellFormed b) (hk : FilterPresent k b.params)
    (hc : ∀ c ∈ b.decs, PrescribedShapes b.params c) (s : ℕ) (hs : s ≤ b.params.steps) :
    ∃ out, b.compose k s = .ok out ∧ out.length = b.params.signalNumber ∧
      ∀ m ∈ out, HasShape (b.params.shape.map (fun n => n / 2 ^ s)) m := by
  have hsz : ∀ c ∈ b.decs, SizedChan b.params c := fun c hcc => (sized_iff hb.1 c).2 (hc c hcc)
  refine ⟨_, compose_ok hb.1 hb.2.1 hk hsz hs, by simpa using hb.2.1, ?_⟩
  intro m hm
  rw [List.mem_map] at hm
  obtain ⟨c, hcc, rfl⟩ := hm
  have h1 := (composeChannel_ok hb.1 hk (d := [c]) (ch := 0) hs (by simp) (hsz c hcc)).2
  have h2 := finishP_size (k := k) hb.1 hs h1
  unfold outP
  rcases shape_cases hb.1 with ⟨n, hsh, hd⟩ | ⟨w, hh, hsh, hd⟩
  · rw [hsh] at h2 ⊢; exact h2
  · rw [hsh] at h2 ⊢; exact h2

/-- C55. Channel `i` of the result depends on channel `i` of the data only: a decomposition of other data, possibly with
another number of channels, that agrees with the first one in one channel (at any position) gives the same subbands for
it. -/
theorem C55_channels_independent (k : Kit α) (b b' : Buffer α) (hb : WellFormed b) (hb' : WellFormed b')
    (hk : FilterPresent k b.params) (hsame : b'.params.shape = b.params.shape ∧ b'.params.steps = b.params.steps ∧
      b'.params.wtype = b.params.wtype)
    (data data' : List (Mat α)) (hd : IsSignal b.params data) (hd' : IsSignal b'.params data')
    (den : Denoiser α) (hden : KeepsSizes den) (i j : ℕ) (hi : i < b.params.signalNumber)
    (hj : j < b'.params.signalNumber) (heq : data[i]? = data'[j]?) :
    ∃ d d', b.decompose k data den = .ok d true ∧ b'.decompose k data' den = .ok d' true ∧
      (∃ c, d[i]? = some c ∧ d'[j]? = some c) := by
  obtain ⟨e1, e2, e3⟩ := hsame
  have hk' : FilterPresent k b'.params := by unfold FilterPresent; rw [e3]; exact hk
  refine ⟨_, _, decompose_ok hb hk (by omega) hd (fun _ => hden), decompose_ok hb' hk' (by omega) hd' (fun _ => hden), ?_⟩
  have hlen := hd.1
  have hi' : i < data.length := by omega
  refine ⟨chanP b.params (scaling k b.params) den data[i], by simp [hi'], ?_⟩
  rw [List.getElem?_map, ← heq, List.getElem?_eq_getElem hi', Option.map_some, scaling_congr e3,
    chanP_congr e1 e2 e3]

end Poly

section Ring
variable {R : Type} [CommRing R] [Inhabited R]

/-- Decomposing with the null denoiser and composing at scale 0 gives the data back. -/
theorem roundtrip (k : Kit R) (b : Buffer R) (hb : WellFormed b) (hk : FilterPresent k b.params)
    (ho : b.params.wtype ≠ 0 → EvenShiftOrthonormal (scalingFilter k b.params))
    (hch : 0 < b.params.signalNumber) (data : List (Mat R)) (hd : IsSignal b.params data) :
    ∃ d, b.decompose k data nullDenoiser = .ok d true ∧ (Buffer.mk b.params d).compose k 0 = .ok data := by
  refine ⟨_, decompose_ok hb hk hch hd (fun _ => nullDenoiser_sized), ?_⟩
  have h := compose_ok (k := k) (b := Buffer.mk b.params (data.map (chanP b.params (scaling k b.params) nullDenoiser)))
    hb.1 (by simpa using hd.1) hk
    (by
      intro c hc
      rw [List.mem_map] at hc
      obtain ⟨m, hm, rfl⟩ := hc
      exact chanP_sized hb.1 nullDenoiser_sized (shaped_of (hd.2 m hm))) (s := 0) (Nat.zero_le _)
  rw [Nat.cast_zero] at h
  rw [h]
  congr 1
  simp only [List.map_map]
  conv_rhs => rw [← List.map_id data]
  apply List.map_congr_left
  intro m hm
  have hsh := shaped_of (hd.2 m hm)
  have hok : OrthoKit k b.params := fun ht => ortho_of hk (ho ht) ht
  simp only [Function.comp, outP, id]
  rw [reconP_chanP hb.1 hk hok hsh (Nat.zero_le _)]
  simp only [finishP, gt_iff_lt, lt_self_iff_false, if_false]
  exact cropOf_padOf hb.1 hsh

/-- C07. One dimension: with a filter that is orthonormal under even shifts, `Decompose` with the null denoiser followed by
`Compose` returns exactly the samples, over every commutative ring. -/
theorem C07_perfect_reconstruction_1D (k : Kit R) (b : Buffer R) (hb : WellFormed b) (hk : FilterPresent k b.params)
    (_h1 : b.params.shape.length = 1)
    (ho : b.params.wtype ≠ 0 → EvenShiftOrthonormal (scalingFilter k b.params))
    (hch : 0 < b.params.signalNumber) (data : List (Mat R)) (hd : IsSignal b.params data) :
    ∃ d, b.decompose k data nullDenoiser = .ok d true ∧ (Buffer.mk b.params d).compose k 0 = .ok data :=
  roundtrip k b hb hk ho hch data hd

/-- C08. Two dimensions, any number of channels. -/
theorem C08_perfect_reconstruction_2D (k : Kit R) (b : Buffer R) (hb : WellFormed b) (hk : FilterPresent k b.params)
    (_h2 : b.params.shape.length = 2)
    (ho : b.params.wtype ≠ 0 → EvenShiftOrthonormal (scalingFilter k b.params))
    (hch : 0 < b.params.signalNumber) (data : List (Mat R)) (hd : IsSignal b.params data) :
    ∃ d, b.decompose k data nullDenoiser = .ok d true ∧ (Buffer.mk b.params d).compose k 0 = .ok data :=
  roundtrip k b hb hk ho hch data hd

/-- C07, C08. The Haar filter in the code satisfies the hypotheses: with it the round trip is exact over the reals, in one
and two dimensions. -/
theorem C07_C08_haar_exact (b : Buffer ℝ) (hb : WellFormed b) (hw : b.params.wtype = 1)
    (hch : 0 < b.params.signalNumber) (data : List (Mat ℝ)) (hd : IsSignal b.params data) :
    ∃ d, b.decompose codeKit data nullDenoiser = .ok d true ∧ (Buffer.mk b.params d).compose codeKit 0 = .ok data :=
  roundtrip codeKit b hb (codeKit_present (by omega)) (fun _ => haar_ortho b.params hw) hch data hd

/-- C15. `b` decomposes the data, `b2` decomposes the padded data in `s` steps only. Then composing `b` at scale `s` gives,
channel by channel, the last subband of `b2`, cropped to the scaled shape and divided by the gain (which is not applied at
scale 0). -/
theorem C15_scaled_composition_is_coarse_approximation (k : Kit R) (b : Buffer R) (hb : WellFormed b)
    (hk : FilterPresent k b.params)
    (ho : b.params.wtype ≠ 0 → EvenShiftOrthonormal (scalingFilter k b.params))
    (hch : 0 < b.params.signalNumber) (data : List (Mat R)) (hd : IsSignal b.params data)
    (s : ℕ) (hs : s ≤ b.params.steps)
    (b2 : Buffer R) (hb2 : WellFormed b2)
    (hp2 : b2.params = { b.params with shape := b.params.shape.map (paddedSide b.params), steps := s })
    (data2 : List (Mat R))
    (hpad : data.mapM (fun m => addPadding m (b.params.shape.map (paddedSide b.params))) = .ok data2) :
    ∃ d d2 out, b.decompose k data nullDenoiser = .ok d true ∧ b2.decompose k data2 nullDenoiser = .ok d2 true ∧
      (Buffer.mk b.params d).compose k s = .ok out ∧ out.length = data.length ∧
      ∀ i < data.length, ∃ c last cropped, d2[i]? = some c ∧ c.getLast? = some last ∧
        cropPadding last (b.params.shape.map (fun n => n / 2 ^ s)) = .ok cropped ∧
        out[i]? = some (if s = 0 then cropped else cropped.map (k.divFactor (b.params.shape.length == 2) s)) := by
  have hv := hb.1
  have hps : b.params.shape.map (paddedSide b.params) = paddedShape b.params := by
    have h := paddedShape_map hv 1
    simpa using h.symm
  rw [hps] at hp2 hpad
  have hdata2 : data2 = data.map (padOf b.params) := by
    rw [Outcome.mapM_ok (g := padOf b.params) (fun m hm => addPadding_ok hv (shaped_of (hd.2 m hm)))] at hpad
    injection hpad with h
    exact h.symm
  have hlast : ∀ m ∈ data, Shaped b2.params (padOf b.params m) ∧
      (chanP b2.params (scaling k b2.params) nullDenoiser (padOf b.params m)).getD
        (b2.params.steps * subbandsPerWT b2.params) default = sig b.params (scaling k b2.params) (padOf b.params m) s := by
    intro m hm
    rw [hp2]
    exact coarse_last hv hs _ _ (shaped_of (hd.2 m hm))
  have hv2 : ValidParams b2.params := hb2.1
  have hk2 : FilterPresent k b2.params := by rw [hp2]; exact hk
  have hsc : scaling k b2.params = scaling k b.params := by rw [hp2]; rfl
  have hd2 : IsSignal b2.params data2 := by
    refine ⟨by rw [hdata2, hp2]; simpa using hd.1, ?_⟩
    intro m2 hm2
    rw [hdata2, List.mem_map] at hm2
    obtain ⟨m, hm, rfl⟩ := hm2
    exact of_shaped hv2 (hlast m hm).1
  have hch2 : 0 < b2.params.signalNumber := by rw [hp2]; exact hch
  have hcomp := compose_ok (k := k) (b := Buffer.mk b.params (data.map (chanP b.params (scaling k b.params) nullDenoiser)))
    hv (by simpa using hd.1) hk
    (by
      intro c hc
      rw [List.mem_map] at hc
      obtain ⟨m, hm, rfl⟩ := hc
      exact chanP_sized hv nullDenoiser_sized (shaped_of (hd.2 m hm))) hs
  refine ⟨_, _, _, decompose_ok hb hk hch hd (fun _ => nullDenoiser_sized),
    decompose_ok hb2 hk2 hch2 hd2 (fun _ => nullDenoiser_sized), hcomp, by simp, ?_⟩
  intro i hi
  have hm : data[i] ∈ data := List.getElem_mem hi
  have hsh := shaped_of (hd.2 _ hm)
  have hok : OrthoKit k b.params := fun ht => ortho_of hk (ho ht) ht
  have hfit := fits_sig (k := k) hv (fits_padOf hv hsh) hs
  obtain ⟨h1, h2⟩ := hlast _ hm
  refine ⟨chanP b2.params (scaling k b2.params) nullDenoiser (padOf b.params data[i]),
    sig b.params (scaling k b.params) (padOf b.params data[i]) s,
    cropOf b.params s (sig b.params (scaling k b.params) (padOf b.params data[i]) s), ?_, ?_, ?_, ?_⟩
  · rw [hdata2]; simp [hi]
  · rw [List.getLast?_eq_getElem?]
    rw [chanP_length]
    rw [hsc] at h2 ⊢
    have hl := chanP_length b2.params (scaling k b.params) nullDenoiser (padOf b.params data[i])
    have hlt : b2.params.steps * subbandsPerWT b2.params <
        (chanP b2.params (scaling k b.params) nullDenoiser (padOf b.params data[i])).length := by
      rw [hl, decompositionSize]; omega
    have e : decompositionSize b2.params - 1 = b2.params.steps * subbandsPerWT b2.params := by
      simp [decompositionSize]
    rw [e, List.getElem?_eq_getElem hlt]
    congr 1
    rw [← h2]
    simp [List.getD, hlt]
  · have hfc := finishChannel_ok (k := k) hv hfit
    obtain ⟨l1, l2⟩ := scaled_le hv hfit
    unfold cropPadding cropOf
    simp only
    split_ifs with h0
    · unfold crop; rw [if_pos h0]
    · rw [crop_ok _ _ _ _ l1 l2 h0]
  · simp only [List.map_map]
    rw [List.getElem?_map, List.getElem?_eq_getElem hi, Option.map_some]
    congr 1
    simp only [Function.comp, outP]
    rw [reconP_chanP hv hk hok hsh hs]
    unfold finishP
    by_cases h0 : s = 0
    · subst h0; simp
    · rw [if_pos (by omega), if_neg h0]; rfl

end Ring

/-! ### Concrete instances -/

/-- A 6-sample signal, Haar, one step. -/
example : ∃ d, (Buffer.mk ⟨[6], 1, 1, 1⟩ [[Mat.empty, Mat.empty]] : Buffer ℝ).decompose codeKit
      [Mat.ofCol [1, 2, 3, 4, 5, 6]] nullDenoiser = .ok d true ∧
    (Buffer.mk ⟨[6], 1, 1, 1⟩ d : Buffer ℝ).compose codeKit 0 = .ok [Mat.ofCol [1, 2, 3, 4, 5, 6]] :=
  C07_C08_haar_exact _ ⟨⟨by simp, by simp, by simp⟩, by simp, by simp [subbandCount, detailsPerStep]⟩ rfl (by simp) _
    ⟨by simp, by simp [HasShape]⟩

/-- A 4 wide, 5 high image with two channels (padded to 4 × 8), Haar, two steps; the hypotheses of C05, C06, C08 hold. -/
example : let p : Params := ⟨[4, 5], 2, 2, 1⟩
    WellFormed (Buffer.mk p (List.replicate 2 (List.replicate 7 Mat.empty)) : Buffer ℝ) ∧
    IsSignal p [Mat.ofFn 5 4 (fun i j => (i + j : ℝ)), Mat.ofFn 5 4 (fun i j => (i * j : ℝ))] ∧
    FilterPresent codeKit p ∧ EvenShiftOrthonormal (scalingFilter codeKit p) ∧ 0 < p.signalNumber ∧
    KeepsSizes (nullDenoiser : Denoiser ℝ) :=
  ⟨⟨⟨by simp, by simp, by simp⟩, by simp, by simp [subbandCount, detailsPerStep]⟩, ⟨by simp, by simp [HasShape]⟩,
    codeKit_present (by simp), haar_ortho _ rfl, by simp, nullDenoiser_sized⟩

/-- C12 also covers odd sizes and samples that are not numbers: the scalars need no laws. -/
example : (Buffer.mk ⟨[3], 1, 0, 0⟩ [[Mat.empty]] : Buffer Float).decompose
      ⟨fun _ => [], id, fun _ _ x => x⟩ [Mat.ofCol [0 / 0, 1 / 0, -0]] ⟨fun _ _ => [], fun _ _ => Mat.empty⟩ =
    .ok [[Mat.ofCol [0 / 0, 1 / 0, -0]]] true :=
  letI : Zero Float := ⟨0⟩
  (C12_no_decomposition_is_verbatim _ (Buffer.mk ⟨[3], 1, 0, 0⟩ [[Mat.empty]])
    ⟨⟨by simp, by simp, by simp⟩, by simp, by simp [subbandCount]⟩ (by simp [FilterPresent]) (by simp)
    [Mat.ofCol [0 / 0, 1 / 0, -0]] ⟨by simp, by simp [HasShape]⟩ _ (.inl rfl)).1

/-- C15: a 5-sample signal padded to 8, two Haar steps, scale 1. -/
example : let p : Params := ⟨[5], 1, 2, 1⟩
    p.shape.map (paddedSide p) = [8] ∧ WellFormed (Buffer.mk ⟨[8], 1, 1, 1⟩ [[Mat.empty, Mat.empty]] : Buffer ℝ) ∧
    ∃ d2, [Mat.ofCol [(1 : ℝ), 2, 3, 4, 5]].mapM (fun m => addPadding m [8]) = .ok d2 :=
  ⟨by simp [paddedSide], ⟨⟨by simp, by simp, by simp⟩, by simp, by simp [subbandCount, detailsPerStep]⟩,
    ⟨_, Outcome.mapM_ok (g := padOf ⟨[5], 1, 2, 1⟩) (fun m hm =>
      addPadding_ok (p := ⟨[5], 1, 2, 1⟩) ⟨by simp, by simp, by simp⟩ (by
        simp only [List.mem_singleton] at hm; subst hm; exact ⟨rfl, rfl⟩))⟩⟩

end WB.Props
