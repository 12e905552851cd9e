import Verif.Proof.Partial
import Verif.Props.Reverse

/-!
C103: the partial decomposition and the partial composition of `wavelet_utils.h`.
-/

set_option linter.unusedSectionVars false

namespace WB.Spec

/-- `d0` holds the channels of `d`, each followed by free places up to the number of subbands of `p`. -/
def HasRoomFor {α : Type} (p : Params) (d d0 : Decs α) : Prop :=
  d0.length = d.length ∧ ∀ (n : ℕ) (c c0 : Channel α), d[n]? = some c → d0[n]? = some c0 → c <+: c0 ∧ c0.length = subbandCount p

end WB.Spec

namespace WB.Props

open Spec

section Ring
variable {R : Type} [CommRing R] [Inhabited R]

/-- C103, decomposition. A decomposition of a signal with `s` steps, put into lists that have room for all steps, and continued by the
missing steps is the decomposition with all steps, for every denoiser that keeps sizes, provided both pad the signal to the same size. -/
theorem C103_continue_partial (k : Kit R) (b bs : Buffer R) (hb : WellFormed b) (hbs : WellFormed bs) (hk : FilterPresent k b.params)
    (hch : 0 < b.params.signalNumber) (s : ℕ) (hs : s ≤ b.params.steps) (hp : bs.params = { b.params with steps := s })
    (hpad : ∀ n ∈ b.params.shape, paddedSide bs.params n = paddedSide b.params n) (data : List (Mat R))
    (hd : IsSignal b.params data) (den : Denoiser R) (hden : KeepsSizes den) :
    ∃ d ds, b.decompose k data den = .ok d true ∧ bs.decompose k data den = .ok ds true ∧
      ∀ d0, HasRoomFor b.params ds d0 →
        continueImpl (freshStack k b.params) b.params d0 ((b.params.steps - s : ℕ) : ℤ) den = .ok d () := by
  have hv := hb.1
  have hp' : bs.params = fewer b.params s := hp
  have he : paddedShape (fewer b.params s) = paddedShape b.params := fewer_padded hv hs (by rw [← hp']; exact hpad)
  have hsh : ∀ m ∈ data, Shaped b.params m := fun m hm => shaped_of (hd.2 m hm)
  refine ⟨_, _, decompose_ok hb hk hch hd (fun _ => hden), decompose_ok hbs (by rw [hp']; exact hk) (by rw [hp']; exact hch)
    (by rw [hp']; exact hd) (fun _ => hden), ?_⟩
  rw [hp', show scaling k (fewer b.params s) = scaling k b.params from rfl]
  rintro d0 ⟨hl, hr⟩
  rw [List.length_map] at hl
  have hget : ∀ (ch : ℕ) (c0 : Channel R), d0[ch]? = some c0 → ∃ m, data[ch]? = some m ∧ Shaped b.params m ∧ ∃ e,
      c0 = chanP (fewer b.params s) (scaling k b.params) den m ++ e ∧ c0.length = subbandCount b.params := by
    intro ch c0 h0
    have hlt : ch < data.length := by rw [← hl]; exact (List.getElem?_eq_some_iff.1 h0).1
    obtain ⟨⟨e, h1⟩, h2⟩ := hr ch (chanP (fewer b.params s) (scaling k b.params) den data[ch]) c0 (by simp [hlt]) h0
    exact ⟨data[ch], by simp [hlt], hsh _ (List.getElem_mem hlt), e, h1.symm, h2⟩
  rw [continueImpl_ok hv hk (fun _ => hden) hs (by rw [hl]; exact hd.1) ?_ (fun ch => padOf b.params (data.getD ch default)) ?_ ?_]
  · congr 1
    apply List.ext_getElem
    · simp [hl]
    · intro i h1 h2
      have hi : i < d0.length := by simpa using h1
      obtain ⟨m, g1, g2, e, g3, g4⟩ := hget i d0[i] (by simp [hi])
      have g5 := (contP_chanP hs he (scaling k b.params) den m e).1
      rw [← g3] at g5
      obtain ⟨hi', rfl⟩ := List.getElem?_eq_some_iff.1 g1
      simp only [List.getElem_mapIdx, List.getElem_map, List.getD, g1, Option.getD_some]
      exact g5
  · intro c0 hc0
    obtain ⟨i, hi, rfl⟩ := List.getElem_of_mem hc0
    obtain ⟨m, _, _, e, _, g4⟩ := hget i _ (List.getElem?_eq_getElem hi)
    rw [g4, decompositionSize_eq]
  · intro ch hlt
    obtain ⟨m, g1, g2, _⟩ := hget ch _ (List.getElem?_eq_getElem hlt)
    simp only [List.getD, g1, Option.getD_some]
    exact fits_padOf hv g2
  · intro ch c0 h0
    obtain ⟨m, g1, g2, e, g3, g4⟩ := hget ch c0 h0
    simp only [List.getD, g1, Option.getD_some]
    rw [g3]
    exact (contP_chanP hs he (scaling k b.params) den m e).2

/-- C103, composition. Undoing the steps after the first `s` of a decomposition (orthonormal filter, no denoising) gives the decomposition
with `s` steps, if both pad the signal to the same size. -/
theorem C103_undo_partial (k : Kit R) (b bs : Buffer R) (hb : WellFormed b) (hbs : WellFormed bs) (hk : FilterPresent k b.params)
    (ho : b.params.wtype ≠ 0 → EvenShiftOrthonormal (scalingFilter k b.params)) (hch : 0 < b.params.signalNumber) (s : ℕ)
    (hs : s ≤ b.params.steps) (hp : bs.params = { b.params with steps := s })
    (hpad : ∀ n ∈ b.params.shape, paddedSide bs.params n = paddedSide b.params n) (data : List (Mat R)) (hd : IsSignal b.params data) :
    ∃ d ds, b.decompose k data nullDenoiser = .ok d true ∧ bs.decompose k data nullDenoiser = .ok ds true ∧
      partialCompose k (freshTrans k b.params) b.params d s 0 b.params.signalNumber = .ok ds := by
  have hv := hb.1
  have hok : OrthoKit k b.params := fun ht => ortho_of hk (ho ht) ht
  have hp' : bs.params = fewer b.params s := hp
  have he : paddedShape (fewer b.params s) = paddedShape b.params := fewer_padded hv hs (by rw [← hp']; exact hpad)
  have hsh : ∀ m ∈ data, Shaped b.params m := fun m hm => shaped_of (hd.2 m hm)
  refine ⟨_, _, decompose_ok hb hk hch hd (fun _ => nullDenoiser_sized), decompose_ok hbs (by rw [hp']; exact hk)
    (by rw [hp']; exact hch) (by rw [hp']; exact hd) (fun _ => nullDenoiser_sized), ?_⟩
  rw [partialCompose_ok hv hk hs (by simpa using hd.1), List.map_map, hp']
  · congr 1
    apply List.map_congr_left
    intro m hm
    exact shortened_chanP hv hk hok hs he (hsh m hm)
  · intro c hc
    obtain ⟨m, hm, rfl⟩ := List.mem_map.1 hc
    exact chanP_sized hv nullDenoiser_sized (hsh m hm)

/-- C103, there and back. For every buffer whose subbands have the prescribed sizes, whatever their values and whatever the padding: undo
the steps after the first `s`, put the result into lists with room for all steps, continue by the same number of steps; the buffer is what
it was. -/
theorem C103_there_and_back (k : Kit R) (b : Buffer R) (hb : WellFormed b) (hk : FilterPresent k b.params)
    (ho : b.params.wtype ≠ 0 → EvenShiftOrthonormal (scalingFilter k b.params)) (hc : ∀ c ∈ b.decs, PrescribedShapes b.params c) (s : ℕ)
    (hs : s ≤ b.params.steps) :
    ∃ ds, partialCompose k (freshTrans k b.params) b.params b.decs s 0 b.params.signalNumber = .ok ds ∧
      ∀ d0, HasRoomFor b.params ds d0 →
        continueImpl (freshStack k b.params) b.params d0 ((b.params.steps - s : ℕ) : ℤ) nullDenoiser = .ok b.decs () := by
  have hv := hb.1
  have hok : OrthoKit k b.params := fun ht => ortho_of hk (ho ht) ht
  have hc' : ∀ c ∈ b.decs, SizedChan b.params c := fun c h => (sized_iff hv c).2 (hc c h)
  refine ⟨_, partialCompose_ok hv hk hs hb.2.1 hc', ?_⟩
  rintro d0 ⟨hl, hr⟩
  rw [List.length_map] at hl
  have hget : ∀ (ch : ℕ) (c0 : Channel R), d0[ch]? = some c0 → ∃ c, b.decs[ch]? = some c ∧ SizedChan b.params c ∧ ∃ e,
      c0 = shortened c (s * subbandsPerWT b.params + 1) (reconP b.params (scaling k b.params) s c) ++ e ∧
      c0.length = subbandCount b.params := by
    intro ch c0 h0
    have hlt : ch < b.decs.length := by rw [← hl]; exact (List.getElem?_eq_some_iff.1 h0).1
    obtain ⟨⟨e, h1⟩, h2⟩ := hr ch (shortened b.decs[ch] (s * subbandsPerWT b.params + 1)
      (reconP b.params (scaling k b.params) s b.decs[ch])) c0 (by simp [hlt]) h0
    exact ⟨b.decs[ch], by simp [hlt], hc' _ (List.getElem_mem hlt), e, h1.symm, h2⟩
  rw [continueImpl_ok hv hk (fun _ => nullDenoiser_sized) hs (by rw [hl]; exact hb.2.1) ?_
    (fun ch => reconP b.params (scaling k b.params) 0 (b.decs.getD ch default)) ?_ ?_]
  · congr 1
    apply List.ext_getElem
    · simp [hl]
    · intro i h1 h2
      have hi : i < d0.length := by simpa using h1
      obtain ⟨c, g1, g2, e, g3, g4⟩ := hget i d0[i] (by simp [hi])
      have g5 := (contP_shortened hv hk hok hs g2 e).1
      rw [← g3] at g5
      obtain ⟨hi', rfl⟩ := List.getElem?_eq_some_iff.1 g1
      simp only [List.getElem_mapIdx, List.getD, g1, Option.getD_some]
      exact g5
  · intro c0 hc0
    obtain ⟨i, hi, rfl⟩ := List.getElem_of_mem hc0
    obtain ⟨m, _, _, e, _, g4⟩ := hget i _ (List.getElem?_eq_getElem hi)
    rw [g4, decompositionSize_eq]
  · intro ch hlt
    obtain ⟨c, g1, g2, _⟩ := hget ch _ (List.getElem?_eq_getElem hlt)
    simp only [List.getD, g1, Option.getD_some]
    exact reconP_fits hv g2 (Nat.zero_le _)
  · intro ch c0 h0
    obtain ⟨c, g1, g2, e, g3, g4⟩ := hget ch c0 h0
    simp only [List.getD, g1, Option.getD_some]
    rw [g3]
    exact (contP_shortened hv hk hok hs g2 e).2

/-- C103, same signal. The result of the partial composition, held by a buffer with `s` steps, has the prescribed sizes and composes, at
every scale up to `s`, to what the original buffer composes to. Neither the filter nor the values of the subbands matter; both must pad the
signal to the same size. -/
theorem C103_same_signal_partial (k : Kit R) (b : Buffer R) (hb : WellFormed b) (hk : FilterPresent k b.params)
    (hc : ∀ c ∈ b.decs, PrescribedShapes b.params c) (s : ℕ) (hs : s ≤ b.params.steps)
    (hpad : ∀ n ∈ b.params.shape, paddedSide { b.params with steps := s } n = paddedSide b.params n) :
    ∃ ds, partialCompose k (freshTrans k b.params) b.params b.decs s 0 b.params.signalNumber = .ok ds ∧
      WellFormed ⟨{ b.params with steps := s }, ds⟩ ∧ (∀ c ∈ ds, PrescribedShapes { b.params with steps := s } c) ∧
      ∀ t ≤ s, ∃ out, b.compose k t = .ok out ∧ Buffer.compose k ⟨{ b.params with steps := s }, ds⟩ t = .ok out := by
  have hv := hb.1
  have hc' : ∀ c ∈ b.decs, SizedChan b.params c := fun c h => (sized_iff hv c).2 (hc c h)
  have hv' : ValidParams (fewer b.params s) := fewer_valid hv hs
  have he : paddedShape (fewer b.params s) = paddedShape b.params := fewer_padded hv hs hpad
  have hsz : ∀ c ∈ b.decs.map (fun c => shortened c (s * subbandsPerWT b.params + 1) (reconP b.params (scaling k b.params) s c)),
      SizedChan (fewer b.params s) c := by
    intro c h
    obtain ⟨c, h1, rfl⟩ := List.mem_map.1 h
    exact sized_shortened hv hs he (hc' c h1)
  refine ⟨_, partialCompose_ok hv hk hs hb.2.1 hc', ⟨hv', by rw [List.length_map]; exact hb.2.1, ?_⟩, ?_, ?_⟩
  · intro c h
    exact (hsz c h).1.trans (decompositionSize_eq _)
  · intro c h
    exact (sized_iff hv' c).1 (hsz c h)
  · intro t ht
    refine ⟨_, compose_ok hv hb.2.1 hk hc' (le_trans ht hs), ?_⟩
    have h1 := compose_ok (b := Buffer.mk (fewer b.params s)
      (b.decs.map (fun c => shortened c (s * subbandsPerWT b.params + 1) (reconP b.params (scaling k b.params) s c)))) (k := k) (s := t)
      hv' (by rw [List.length_map]; exact hb.2.1) hk hsz ht
    refine h1.trans ?_
    congr 1
    simp only [List.map_map]
    apply List.map_congr_left
    intro c h
    exact outP_shortened k hs ht (hc' c h)

/-- C103, channels. The partial composition of `count` channels from `start` on gives those channels of the partial composition of all. -/
theorem C103_channels (k : Kit R) (b : Buffer R) (hb : WellFormed b) (hk : FilterPresent k b.params)
    (hc : ∀ c ∈ b.decs, PrescribedShapes b.params c) (s : ℕ) (hs : s ≤ b.params.steps) (start count : ℕ)
    (hr : start + count ≤ b.params.signalNumber) :
    ∃ ds, partialCompose k (freshTrans k b.params) b.params b.decs s 0 b.params.signalNumber = .ok ds ∧
      ds.length = b.params.signalNumber ∧
      partialCompose k (freshTrans k b.params) b.params b.decs s start count = .ok ((ds.drop start).take count) := by
  have hv := hb.1
  have hc' : ∀ c ∈ b.decs, SizedChan b.params c := fun c h => (sized_iff hv c).2 (hc c h)
  exact ⟨_, partialCompose_ok hv hk hs hb.2.1 hc', by rw [List.length_map]; exact hb.2.1,
    partialCompose_range hv hk hs (by rw [hb.2.1]; exact hr) hc'⟩

/-- If the paddings differ, continuing is wrong and nobody is told. Six samples: one Haar step needs no padding and leaves an approximation
of three, two steps pad to eight and expect four after the first. Continuing the former by one step ends normally, with a second detail and
an approximation that are both empty, for every signal and every filter. -/
theorem C103_padding_counterexample (k : Kit R) (hk : (k.dbwavf 1).length = 2) (data : List (Mat R)) :
    let p : Params := ⟨[6], 1, 2, 1⟩
    let p1 : Params := ⟨[6], 1, 1, 1⟩
    IsSignal p data → ∀ b b1 : Buffer R, WellFormed b → WellFormed b1 → b.params = p → b1.params = p1 →
      ∃ d d1 c, b.decompose k data nullDenoiser = .ok d true ∧ b1.decompose k data nullDenoiser = .ok d1 true ∧
        (∀ x, HasRoomFor p d1 (d1.map fun c => c ++ [x])) ∧
        (∀ x, continueImpl (freshStack k p) p (d1.map fun c => c ++ [x]) 1 nullDenoiser = .ok [[c, Mat.ofCol [], Mat.ofCol []]] ()) ∧
        d ≠ [[c, Mat.ofCol [], Mat.ofCol []]] := by
  intro p p1 hd b b1 hb hb1 hp hp1
  have hv : ValidParams p := hp ▸ hb.1
  have hkp : FilterPresent k p := fun _ => hk
  have hkp1 : FilterPresent k p1 := fun _ => hk
  obtain ⟨m, rfl⟩ : ∃ m, data = [m] := List.length_eq_one_iff.1 hd.1
  have hm : m.rows = 6 ∧ m.cols = 1 := hd.2 m (by simp)
  have hsh : Shaped p m := shaped_of (hd.2 m (by simp))
  have e0 := decompose_ok hb (by rw [hp]; exact hkp) (by rw [hp]; decide) (by rw [hp]; exact hd) (fun _ => nullDenoiser_sized)
  have e1 := decompose_ok hb1 (by rw [hp1]; exact hkp1) (by rw [hp1]; decide) (by rw [hp1]; exact hd) (fun _ => nullDenoiser_sized)
  rw [hp] at e0
  rw [hp1] at e1
  have hsh1 : Shaped p1 m := hsh
  have hs1 := chanP_sized (k := k) (hp1 ▸ hb1.1) nullDenoiser_sized hsh1
  obtain ⟨c, a, hca⟩ := List.length_eq_two.1 (hs1.1.trans (show decompositionSize p1 = 2 from rfl))
  have ha : a.rows = 3 ∧ a.cols = 1 := by
    have h1 := hs1.2.2
    rw [hca] at h1
    have e : matRows (paddedShape p1) / 2 ^ p1.steps = 3 := by decide
    exact ⟨h1.1.trans e, h1.2⟩
  refine ⟨_, _, c, e0, e1, ?_, ?_, ?_⟩
  · intro x
    refine ⟨by simp, ?_⟩
    intro n c1 c0 h1 h2
    simp only [List.map_cons, List.map_nil] at h1 h2
    match n, h1, h2 with
    | 0, h1, h2 =>
      simp only [List.getElem?_cons_zero, Option.some.injEq] at h1 h2
      rw [← h1, ← h2]
      exact ⟨List.prefix_append _ _, by rw [hca]; rfl⟩
    | n + 1, h1, h2 => simp at h1
  · intro x
    unfold continueImpl
    rw [freshStack_ok hv hkp, Run.lift_ok, Run.bind_ok, if_neg (by decide)]
    simp only [List.map_cons, List.map_nil, hca]
    have hst : rd (stackP p (scaling k p)) 1 = .ok [daubP (scaling k p) (qmf (scaling k p)) 4] := by
      unfold stackP
      rw [rd_ok (by simp [p])]
      have e : paddedShape p = [8] := by decide
      rw [List.getElem_map, List.getElem_range, e]
      rfl
    have hdw : dwtMat (a.col 0) (daubP (scaling k p) (qmf (scaling k p)) 4) = .ok ([], []) := by
      unfold dwtMat
      rw [if_neg (by have := daubP_rows (scaling k p) (qmf (scaling k p)) 2; simp only [Nat.reduceMul] at this; omega), if_neg (by
        show (a.col 0).length ≠ 4
        simp [ha.1])]
    show continueChannels p (stackP p (scaling k p)) nullDenoiser 1 1 [0] [[c, a, x]] = _
    have e2 : rd [[c, a, x]] 0 = .ok [c, a, x] := rfl
    have e3 : rd [c, a, x] (1 * subbandsPerWT p) = .ok a := rfl
    rw [continueChannels, e2, Outcome.bind_ok, e3, Run.lift_ok, Run.bind_ok, continueSteps]
    have e4 : column0 a = .ok (a.col 0) := by unfold column0; rw [if_neg (by omega)]
    have e5 : p.steps - (0 + 1) = 1 := rfl
    have e6 : rd [daubP (scaling k p) (qmf (scaling k p)) 4] 0 = .ok (daubP (scaling k p) (qmf (scaling k p)) 4) := rfl
    simp only [e5, hst, Run.lift_ok, Run.bind_ok]
    rw [if_pos (show p.dimension = 1 from rfl), oneSideStep1DMat, e4, Outcome.bind_ok, e6, Outcome.bind_ok, hdw]
    rfl
  · intro h
    have hs2 := chanP_sized (k := k) hv nullDenoiser_sized hsh
    rw [List.map_cons, List.map_nil] at h
    injection h with h _
    rw [h] at hs2
    have := hs2.2.2.1
    have e : matRows (paddedShape p) / 2 ^ p.steps = 2 := by decide
    rw [e] at this
    exact absurd this (by show ¬ (0 = 2); omega)

end Ring

/-- Non-vacuity: sixteen samples, three steps of Daubechies 1; two steps pad to the same size. The code's filter is orthonormal. -/
example : let p : Params := ⟨[16], 1, 3, 1⟩
    ValidParams p ∧ ValidParams { p with steps := 2 } ∧ (∀ n ∈ p.shape, paddedSide { p with steps := 2 } n = paddedSide p n) ∧
    FilterPresent codeKit p ∧ EvenShiftOrthonormal (scalingFilter codeKit p) := by
  refine ⟨⟨by simp, by simp, by simp⟩, ⟨by simp, by simp, by simp⟩, by simp [paddedSide], codeKit_present (by simp), ?_⟩
  exact haar_ortho _ rfl

/-- Non-vacuity: an image with padding that both step counts share (15 × 31 pads to 16 × 32 for two and for three steps). -/
example : let p : Params := ⟨[15, 31], 3, 3, 1⟩
    ValidParams p ∧ (∀ n ∈ p.shape, paddedSide { p with steps := 2 } n = paddedSide p n) := by
  refine ⟨⟨by simp, by simp, by simp⟩, by simp [paddedSide]⟩

end WB.Props
