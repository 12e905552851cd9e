import Verif.Proof.World
import Verif.Proof.Coarse

/-!
Properties of single calls: C16 (scales), C20 (wrong shapes), C23, C24, C26 (views), C56 (vector interface).
-/

set_option linter.unusedSectionVars false

namespace WB

theorem Outcome.pure_bind' {β γ : Type} (x : β) (f : β → Outcome γ) : ((pure x : Outcome β) >>= f) = f x := rfl

end WB

namespace WB.Props

open Spec

section Poly
variable {α : Type} [Zero α] [Add α] [Mul α] [Neg α] [Inhabited α]

theorem scaled_le_large {p : Params} (hv : ValidParams p) {s : ℕ} (hs : p.steps ≤ s) {m : Mat α} (hm : Fits p p.steps m) :
    matRows (p.shape.map (· / 2 ^ s)) ≤ m.rows ∧ matCols (p.shape.map (· / 2 ^ s)) ≤ m.cols := by
  obtain ⟨h1, h2⟩ := scaled_le hv hm
  have key : ∀ n : ℕ, n / 2 ^ s ≤ n / 2 ^ p.steps := fun n =>
    Nat.div_le_div_left (Nat.pow_le_pow_right (by omega) hs) (by positivity)
  rcases shape_cases hv with ⟨n, hsh, hd⟩ | ⟨w, hh, hsh, hd⟩
  · rw [hsh] at h1 h2 ⊢
    simp only [List.map_cons, List.map_nil, matRows, matCols] at h1 h2 ⊢
    exact ⟨(key n).trans h1, h2⟩
  · rw [hsh] at h1 h2 ⊢
    simp only [List.map_cons, List.map_nil, matRows, matCols] at h1 h2 ⊢
    exact ⟨(key hh).trans h1, (key w).trans h2⟩

/-- C16 is false of the code. `Compose` with a scale factor above the number of steps never reports a failure: for every
filled buffer and every such scale it returns `true` with some signal. -/
theorem C16_large_scales_accepted (k : Kit α) (b : Buffer α) (hb : WellFormed b) (hk : FilterPresent k b.params)
    (hfull : ∀ c ∈ b.decs, PrescribedShapes b.params c) (scale : ℕ) (hs : b.params.steps < scale) :
    ∃ out, b.compose k scale = .ok out ∧ out.length = b.params.signalNumber := by
  obtain ⟨hv, hl, _⟩ := hb
  unfold Buffer.compose composeImpl
  rw [if_neg (by omega)]
  have hst : ∃ st, (if b.params.dimension = 2 then freshTrans k b.params else pure []) = .ok st := by
    rcases shape_cases hv with ⟨n, hsh, hd⟩ | ⟨w, hh, hsh, hd⟩
    · exact ⟨[], by rw [if_neg (by omega)]; rfl⟩
    · exact ⟨_, by rw [if_pos hd]; unfold freshTrans; rw [freshStack_ok hv hk]; rfl⟩
  obtain ⟨st, hst⟩ := hst
  rw [hst, Outcome.bind_ok, if_neg (by omega), if_neg (by omega), Int.toNat_natCast]
  have hloop : loopChannels 0 (b.params.signalNumber : ℤ) = List.range' 0 b.params.signalNumber := by
    have := loopChannels_nat 0 b.params.signalNumber
    simpa using this
  rw [hloop]
  have hsized : ∀ ch < b.params.signalNumber, SizedChan b.params (b.decs.getD ch []) := by
    intro ch hch
    have : ch < b.decs.length := by omega
    have e : b.decs.getD ch [] = b.decs[ch] := by simp [List.getD, this]
    rw [e, sized_iff hv]
    exact hfull _ (List.getElem_mem this)
  rw [Outcome.mapM_ok (g := fun ch => (b.decs.getD ch []).getD (b.params.steps * subbandsPerWT b.params) default)]
  · rw [Outcome.bind_ok]
    have : ∀ m ∈ (List.range' 0 b.params.signalNumber).map (fun ch => (b.decs.getD ch []).getD
        (b.params.steps * subbandsPerWT b.params) default), finishChannel k b.params scale m = .ok (finishP k b.params scale m) := by
      intro m hm
      rw [List.mem_map] at hm
      obtain ⟨ch, hch, rfl⟩ := hm
      rw [List.mem_range'_1] at hch
      obtain ⟨h1, h2⟩ := scaled_le_large hv hs.le (hsized ch (by omega)).2.2
      unfold finishChannel cropPadding finishP cropOf
      simp only
      split_ifs with h3 h4 h5
      · unfold crop; rw [if_pos h4]; rfl
      · rw [crop_ok _ _ _ _ h1 h2 h4]; rfl
      · unfold crop; rw [if_pos h5]; rfl
      · rw [crop_ok _ _ _ _ h1 h2 h5]; rfl
    exact ⟨_, Outcome.mapM_ok this, by simp⟩
  · intro ch hch
    rw [List.mem_range'_1] at hch
    have hc := hsized ch (by omega)
    unfold composeChannel
    rw [rd_getD [] (by omega), Outcome.bind_ok, rd_getD default (by rw [hc.1]; unfold decompositionSize; omega), Outcome.bind_ok]
    have : b.params.steps - scale = 0 := by omega
    rw [this]; rfl

/-- C16, part that holds: a negative scale never yields a signal; an exception leaves the call, except for scale -1 in one
dimension. Missing: scales above the number of steps (`C16_large_scales_accepted`) and scale -1 in 1D, which is
undefined behaviour (`C16_minus_one_1D`). -/
theorem C16_negative_scales_partial (k : Kit α) (b : Buffer α) (hb : WellFormed b) (hk : FilterPresent k b.params)
    (hch : 0 < b.params.signalNumber) (scale : ℤ) (hs : scale < 0) (hex : ¬ (b.params.shape.length = 1 ∧ scale = -1)) :
    b.compose k scale = .throw := by
  obtain ⟨hv, hl, _⟩ := hb
  unfold Buffer.compose composeImpl
  rw [if_neg (by omega)]
  rcases shape_cases hv with ⟨n, hsh, hd⟩ | ⟨w, hh, hsh, hd⟩
  · rw [if_neg (by omega)]
    rw [hsh] at hex
    simp only [List.length_cons, List.length_nil, true_and] at hex
    rw [Outcome.pure_bind', if_neg (by omega), if_pos (by omega), if_neg (by tauto)]
  · rw [if_pos hd]
    unfold freshTrans
    rw [freshStack_ok hv hk, Outcome.bind_ok, Outcome.pure_bind', if_neg (by omega), if_pos (by omega), if_neg (by omega)]

/-- C16: scale -1 in one dimension indexes an empty list. -/
theorem C16_minus_one_1D (k : Kit α) (b : Buffer α) (hch : 0 < b.params.signalNumber)
    (h1 : b.params.shape.length = 1) : b.compose k (-1) = .ub := by
  have hd : b.params.dimension = 1 := h1
  unfold Buffer.compose composeImpl
  rw [if_neg (by omega), if_neg (by omega)]
  rw [Outcome.pure_bind', if_neg (by omega), if_pos (by omega), if_pos ⟨hd, rfl⟩]

/-- C20, part that holds: `Decompose` accepts every signal of the right shape, and when the number of channels (in 2D) or
the first channel is wrong it returns `false` and leaves all subbands as they are. Missing: wrong channels after the first
one, the number of channels in 1D (`C20_wrong_later_channels`), and empty data, which is undefined behaviour in 1D. -/
theorem C20_rejects_wrong_first_channel_partial (k : Kit α) (b : Buffer α) (hb : WellFormed b) (hk : FilterPresent k b.params)
    (data : List (Mat α)) (den : Denoiser α) :
    (0 < b.params.signalNumber → IsSignal b.params data → KeepsSizes den → ∃ d, b.decompose k data den = .ok d true) ∧
    (b.params.shape.length = 2 → data.length ≠ b.params.signalNumber → b.decompose k data den = .ok b.decs false) ∧
    (b.params.shape.length = 2 → data.length = b.params.signalNumber → ∀ m rest, data = m :: rest →
      ¬ HasShape b.params.shape m → b.decompose k data den = .ok b.decs false) ∧
    (∀ n, b.params.shape = [n] → ∀ m rest, data = m :: rest → m.rows ≠ n → b.decompose k data den = .ok b.decs false) := by
  have hv := hb.1
  refine ⟨fun h1 h2 h3 => ⟨_, decompose_ok hb hk h1 h2 (fun _ => h3)⟩, ?_, ?_, ?_⟩
  · intro hl hn
    have hd : b.params.dimension = 2 := hl
    unfold Buffer.decompose decomposeImpl shapeCheck
    rw [if_pos hd, if_pos (by omega)]
    rfl
  · intro hl hn m rest hdata hsh
    have hd : b.params.dimension = 2 := hl
    unfold Buffer.decompose decomposeImpl shapeCheck
    rw [if_pos hd, if_neg (by omega)]
    subst hdata
    obtain ⟨w, h, hs⟩ := List.length_eq_two.1 hl
    rw [hs] at hsh ⊢
    simp only [HasShape, not_and] at hsh
    have : ¬ (m.cols = w ∧ m.rows = h) := fun e => hsh e.2 e.1
    simp [rd, List.getD, this]
  · intro n hs m rest hdata hr
    have hd : b.params.dimension = 1 := by simp [Params.dimension, hs]
    unfold Buffer.decompose decomposeImpl shapeCheck
    rw [if_neg (by omega), if_pos hd]
    subst hdata
    rw [hs]
    simp [rd, List.getD, hr]

/-- C23. Decomposing a signal through a view of the channels `start, ..., start + count - 1` of a buffer succeeds, changes
only these channels, and gives each of them what decomposing that channel's data in a one-channel buffer of its own gives. -/
theorem C23_view_decomposition_local (k : Kit α) (b : Buffer α) (hb : WellFormed b) (hk : FilterPresent k b.params)
    (start count : ℕ) (hc : 0 < count) (hin : start + count ≤ b.params.signalNumber) (hint : start + count < 2 ^ 31)
    (data : List (Mat α)) (hd : IsSignal { b.params with signalNumber := count } data) (den : Denoiser α) (hden : KeepsSizes den) :
    ∃ d, (View.mk start count false).decompose k b data den = .ok d true ∧ d.length = b.decs.length ∧
      (∀ ch, ch < start ∨ start + count ≤ ch → d[ch]? = b.decs[ch]?) ∧
      ∀ i m own, data[i]? = some m → WellFormed own → own.params = { b.params with signalNumber := 1 } →
        ∃ c, d[start + i]? = some c ∧ own.decompose k [m] den = .ok [c] true := by
  obtain ⟨hlen, hshape⟩ := hd
  simp only at hlen hshape
  have hfit : start + data.length ≤ b.decs.length := by rw [hlen, hb.2.1]; exact hin
  have hrun := decomposeImpl_ok hb.1 hk (fun _ => hden) hb.2.2 (data := data) (by omega) (fun m hm => shaped_of (hshape m hm)) start hfit
  rw [hlen] at hrun
  refine ⟨splice b.decs start (data.map (chanP b.params (scaling k b.params) den)), ?_, ?_, ?_, ?_⟩
  · unfold View.decompose View.checkRange
    have e1 : -2 ^ 31 ≤ (start : ℤ) + (count : ℤ) ∧ (start : ℤ) + (count : ℤ) < 2 ^ 31 := by
      constructor <;> omega
    have e2 : (0 ≤ (start : ℤ) + (count : ℤ) ∧ (start : ℤ) + (count : ℤ) ≤ (b.params.signalNumber : ℤ)) := by
      constructor <;> omega
    simp only [if_pos e1, e2, and_self, decide_true, Run.lift_ok, Run.bind_ok, if_true]
    exact hrun
  · exact length_splice (by simpa using hfit)
  · intro ch hch
    apply getElem?_splice_out (by simpa using hfit)
    simpa [hlen] using hch
  · intro i m own hm hown hpar
    obtain ⟨hi, he⟩ := List.getElem?_eq_some_iff.1 hm
    have hmem : m ∈ data := by rw [← he]; exact List.getElem_mem hi
    refine ⟨chanP b.params (scaling k b.params) den m, ?_, ?_⟩
    · rw [getElem?_splice_in (by simpa using hfit) (by simpa using hi)]
      simp [hm]
    · have hk' : FilterPresent k own.params := by rw [hpar]; exact hk
      rw [decompose_ok hown hk' (by rw [hpar]; simp) (by rw [hpar]; exact ⟨rfl, by simpa using hshape m hmem⟩) (fun _ => hden)]
      simp only [List.map_cons, List.map_nil]
      congr 2
      rw [scaling_congr (q := b.params) (by rw [hpar]), chanP_congr (q := b.params) (by rw [hpar]) (by rw [hpar]) (by rw [hpar])]

/-- C24, part that holds: a view whose end is beyond the last channel is rejected by `Decompose` and `Compose` and nothing
changes. Missing: views with a negative start or count (`C24_negative_start_accepted`) and views whose end is not an
`int` (`C24_end_overflow`). -/
theorem C24_rejects_beyond_end_partial (k : Kit α) (b : Buffer α) (v : View) (h0 : 0 ≤ v.start + v.count)
    (hint : v.start + v.count < 2 ^ 31) (hout : (b.params.signalNumber : ℤ) < v.start + v.count) :
    (∀ data den, v.decompose k b data den = .ok b.decs false) ∧ ∀ scale, v.compose k b scale = .ok none := by
  have hr : v.checkRange b.params.signalNumber = .ok false := by
    unfold View.checkRange
    rw [if_pos ⟨by omega, hint⟩]
    have : ¬ (0 ≤ v.start + v.count ∧ v.start + v.count ≤ (b.params.signalNumber : ℤ)) := by omega
    simp [this]
  constructor
  · intro data den; unfold View.decompose; rw [hr]; rfl
  · intro scale; unfold View.compose; rw [hr]; rfl

/-- C24 is false for a negative start: a view of two channels starting at channel -1 of a two-channel image passes the range
check; `Decompose` returns `true` although it stored nothing, `Compose` is undefined behaviour. -/
theorem C24_negative_start_accepted (k : Kit α) (b : Buffer α) (hb : WellFormed b) (hk : FilterPresent k b.params)
    (h2 : b.params.shape.length = 2) (hn : b.params.signalNumber = 2) (data : List (Mat α)) (hd : IsSignal b.params data)
    (den : Denoiser α) :
    (View.mk (-1) 2 false).decompose k b data den = .ok b.decs true ∧ (View.mk (-1) 2 false).compose k b 0 = .ub := by
  have hr : (View.mk (-1) 2 false).checkRange b.params.signalNumber = .ok true := by
    unfold View.checkRange; simp [hn]
  have hdim : b.params.dimension = 2 := h2
  have hsc : shapeCheck b.params data 2 = .ok true := by
    have := shapeCheck_ok hb.1 (data := data) (by rw [hd.1]; omega) (fun m hm => shaped_of (hd.2 m hm))
    rw [hd.1, hn] at this; exact this
  constructor
  · unfold View.decompose
    rw [hr]
    simp only [Run.lift_ok, Run.bind_ok, if_true]
    unfold decomposeImpl
    rw [hsc]
    simp only [Run.lift_ok, Run.bind_ok, if_true, if_pos hdim]
    rw [freshStack_ok hb.1 hk]
    simp [loopChannels, decomposeChannels]
  · unfold View.compose
    rw [hr, Outcome.bind_ok]
    unfold composeImpl freshTrans
    rw [freshStack_ok hb.1 hk]
    simp [hdim]

/-- C24: when `start + count` exceeds the range of `int` the range check itself is undefined behaviour. -/
theorem C24_end_overflow (k : Kit α) (b : Buffer α) (v : View) (h : 2 ^ 31 ≤ v.start + v.count) (data : List (Mat α))
    (den : Denoiser α) (scale : ℤ) : v.decompose k b data den = .ub ∧ v.compose k b scale = .ub := by
  have hr : v.checkRange b.params.signalNumber = .ub := by
    unfold View.checkRange; rw [if_neg (by omega)]
  constructor
  · unfold View.decompose; rw [hr]; rfl
  · unfold View.compose; rw [hr]; rfl

theorem mapM_slice {β γ : Type} {f : β → Outcome γ} {l : List β} {r : List γ} (h : l.mapM f = .ok r) (s c : ℕ) :
    ((l.drop s).take c).mapM f = .ok ((r.drop s).take c) := by
  induction l generalizing r s c with
  | nil => cases h; simp
  | cons x l ih =>
    rw [List.mapM_cons] at h
    cases hx : f x with
    | throw => rw [hx] at h; cases h
    | ub => rw [hx] at h; cases h
    | ok y =>
      rw [hx, Outcome.bind_ok] at h
      cases hl : l.mapM f with
      | throw => rw [hl] at h; cases h
      | ub => rw [hl] at h; cases h
      | ok ys =>
        rw [hl] at h
        cases h
        cases s with
        | succ s => simpa using ih hl s c
        | zero =>
          cases c with
          | zero => rfl
          | succ c =>
            have := ih hl 0 c
            simp only [List.drop_zero] at this
            simp only [List.drop_zero, List.take_succ_cons, List.mapM_cons, hx, Outcome.bind_ok, this]
            rfl

/-- C26. Whenever composing the whole buffer at some scale returns a signal, composing through a view inside the buffer at
the same scale returns exactly the view's channels of that signal. -/
theorem C26_view_composition_is_slice (k : Kit α) (b : Buffer α) (c : Bool) (start count : ℕ)
    (hin : start + count ≤ b.params.signalNumber) (hint : start + count < 2 ^ 31) (scale : ℤ) (out : List (Mat α))
    (h : b.compose k scale = .ok out) :
    (View.mk start count c).compose k b scale = .ok (some ((out.drop start).take count)) := by
  unfold View.compose View.checkRange
  have e1 : -2 ^ 31 ≤ (start : ℤ) + (count : ℤ) ∧ (start : ℤ) + (count : ℤ) < 2 ^ 31 := by
    constructor <;> omega
  have e2 : (0 ≤ (start : ℤ) + (count : ℤ) ∧ (start : ℤ) + (count : ℤ) ≤ (b.params.signalNumber : ℤ)) := by
    constructor <;> omega
  simp only [if_pos e1, e2, and_self, decide_true, Outcome.bind_ok, if_true]
  unfold Buffer.compose composeImpl at h
  unfold composeImpl
  rw [if_neg (by omega)] at h ⊢
  cases hst : (if b.params.dimension = 2 then freshTrans k b.params else pure []) with
  | throw => rw [hst] at h; cases h
  | ub => rw [hst] at h; cases h
  | ok st =>
    rw [hst, Outcome.bind_ok] at h
    rw [Outcome.bind_ok]
    rw [if_neg (by omega)] at h ⊢
    by_cases hneg : scale < 0 ∧ 0 < (b.params.signalNumber : ℤ)
    · rw [if_pos hneg] at h
      split_ifs at h
    · rw [if_neg hneg] at h
      rw [if_neg (by omega), loopChannels_nat]
      have hloop : loopChannels 0 (b.params.signalNumber : ℤ) = List.range' 0 b.params.signalNumber := by
        have := loopChannels_nat 0 b.params.signalNumber
        simpa using this
      rw [hloop] at h
      have hsl : List.range' start count = ((List.range' 0 b.params.signalNumber).drop start).take count := by
        apply List.ext_getElem
        · simp; omega
        · intro i h1 h2; simp
      cases hm : (List.range' 0 b.params.signalNumber).mapM
          (composeChannel b.params st (filters1D k b.params) b.decs scale.toNat) with
      | throw => rw [hm] at h; cases h
      | ub => rw [hm] at h; cases h
      | ok ms =>
        rw [hm, Outcome.bind_ok] at h
        rw [hsl, mapM_slice hm, Outcome.bind_ok, mapM_slice h, Outcome.bind_ok]
        rfl

/-- C56. With one channel the vector interface equals the matrix interface; composing to a vector returns
the first column of the first composed matrix; with more channels, decomposing a vector leaves all channels but the first
untouched, whatever the outcome. -/
theorem C56_vector_interface (k : Kit α) (b : Buffer α) (hb : WellFormed b) :
    (∀ v den, b.params.signalNumber = 1 → b.decompose1 k v den = b.decompose k [Mat.ofCol v] den) ∧
    (∀ scale m rest, b.compose k scale = .ok (m :: rest) → m.cols ≠ 0 → b.compose1 k scale = .ok (m.col 0)) ∧
    (∀ v den, 0 < b.params.signalNumber → (b.decompose1 k v den).After (fun d =>
      d.length = b.decs.length ∧ ∀ ch, 0 < ch → d[ch]? = b.decs[ch]?)) := by
  refine ⟨?_, ?_, ?_⟩
  · intro v den h1
    unfold Buffer.decompose1 Buffer.decompose
    rw [h1]; rfl
  · intro scale m rest hc hm
    unfold Buffer.compose1
    rw [hc, Outcome.bind_ok]
    simp [rd, column0, hm]
  · intro v den hn
    have hl : 0 + 1 ≤ b.decs.length := by rw [hb.2.1]; omega
    have h := decomposeImpl_refines k b.params b.decs [Mat.ofCol v] den 0 1 hb.2.2 hl
    have hq : b.decompose1 k v den = decomposeImpl k (freshStack k b.params) b.params b.decs [Mat.ofCol v] den
        ((0 : ℕ) : ℤ) ((1 : ℕ) : ℤ) := rfl
    rw [← hq] at h
    generalize b.decompose1 k v den = r at h
    have key : ∀ cs : Decs α, cs.length = 1 → (splice b.decs 0 cs).length = b.decs.length ∧
        ∀ ch, 0 < ch → (splice b.decs 0 cs)[ch]? = b.decs[ch]? := fun cs hcs =>
      ⟨length_splice (by omega), fun ch hch => getElem?_splice_out (by omega) (.inr (by omega))⟩
    match ho : decO k b.params [Mat.ofCol v] den 1, h with
    | .ok none, h => have h' : r = .ok b.decs false := h; subst h'; exact ⟨rfl, fun _ _ => rfl⟩
    | .ok (some cs), h => obtain ⟨h1, _, h3⟩ := h; subst h3; exact key cs h1
    | .throw, h => obtain ⟨d', ⟨cs, h1, _, h3⟩, h4⟩ := h; subst h3; subst h4; exact key cs h1
    | .ub, h => have h' : r = .ub := h; subst h'; trivial

end Poly

/-! ### counterexamples and examples -/

/-- A kit for examples: Haar without normalisation on the integers. -/
private def exKit : Kit ℤ := ⟨fun o => if o = 1 then [1, 1] else [], id, fun _ _ x => x⟩

/-- A two-channel 2×2 image buffer without a wavelet. -/
private def exBuf : Buffer ℤ := ⟨⟨[2, 2], 2, 0, 0⟩, [[Mat.empty], [Mat.empty]]⟩

private def m22 : Mat ℤ := ⟨2, 2, [1, 2, 3, 4], rfl⟩

/-- C20 is false for channels after the first one and for the number of channels in 1D. In a buffer for two 2×2 channels, a
second channel of size 1×1 is accepted (and padded by replication); a second channel of size 2×3 makes the call throw after
the first channel has been overwritten; a 1D buffer with one channel accepts two; a 1D buffer with two channels
reads past the end of a one-channel signal. -/
theorem C20_wrong_later_channels :
    WellFormed exBuf ∧
    exBuf.decompose exKit [m22, ⟨1, 1, [7], rfl⟩] nullDenoiser = .ok [[m22], [⟨2, 2, [7, 7, 7, 7], rfl⟩]] true ∧
    exBuf.decompose exKit [m22, ⟨2, 3, [1, 2, 3, 4, 5, 6], rfl⟩] nullDenoiser = .throw [[m22], [Mat.empty]] ∧
    (Buffer.mk ⟨[2], 1, 0, 0⟩ [[Mat.empty]] : Buffer ℤ).decompose exKit [Mat.ofCol [1, 2], Mat.ofCol [3, 4, 5]] nullDenoiser =
      .ok [[Mat.ofCol [1, 2]]] true ∧
    (Buffer.mk ⟨[2], 2, 0, 0⟩ [[Mat.empty], [Mat.empty]] : Buffer ℤ).decompose exKit [Mat.ofCol [1, 2]] nullDenoiser = .ub := by
  refine ⟨⟨?_, rfl, ?_⟩, rfl, rfl, rfl, rfl⟩
  · simp [exBuf, ValidParams]
  · simp [exBuf, subbandCount, detailsPerStep]

/-- C16 on a concrete buffer: one step, scale 3. -/
example : let b : Buffer ℤ := ⟨⟨[4], 1, 1, 1⟩, [[Mat.ofCol [5, 6], Mat.ofCol [7, 8]]]⟩
    WellFormed b ∧ (∀ c ∈ b.decs, PrescribedShapes b.params c) ∧ FilterPresent exKit b.params ∧
    b.compose exKit 3 = .ok [Mat.ofCol [7, 8]] ∧ b.compose exKit (-2) = .throw ∧ b.compose exKit (-1) = .ub := by
  refine ⟨⟨?_, rfl, ?_⟩, ?_, ?_, rfl, rfl, rfl⟩
  · simp [ValidParams]
  · simp [subbandCount, detailsPerStep]
  · intro c hc
    simp only [List.mem_singleton] at hc
    subst hc
    refine ⟨rfl, ?_, ?_⟩
    · intro s hs j hj m hm
      have : s = 0 := by simp at hs; omega
      have : j = 0 := by simp [detailsPerStep] at hj; omega
      subst_vars
      simp [detailsPerStep] at hm
      subst hm
      simp [HasShape, paddedSide, Mat.ofCol]
    · intro m hm
      simp [detailsPerStep] at hm
      subst hm
      simp [HasShape, paddedSide, Mat.ofCol]
  · intro _; rfl

/-- C23/C26 on a concrete buffer: the second of three channels. -/
example : let b : Buffer ℤ := ⟨⟨[2], 3, 0, 0⟩, [[Mat.ofCol [1, 2]], [Mat.ofCol [3, 4]], [Mat.ofCol [5, 6]]]⟩
    WellFormed b ∧
    (View.mk 1 1 false).decompose exKit b [Mat.ofCol [8, 9]] nullDenoiser =
      .ok [[Mat.ofCol [1, 2]], [Mat.ofCol [8, 9]], [Mat.ofCol [5, 6]]] true ∧
    (View.mk 1 2 true).compose exKit b 0 = .ok (some [Mat.ofCol [3, 4], Mat.ofCol [5, 6]]) ∧
    (View.mk 2 2 false).compose exKit b 0 = .ok none := by
  refine ⟨⟨?_, rfl, ?_⟩, rfl, rfl, rfl⟩
  · simp [ValidParams]
  · simp [subbandCount, detailsPerStep]

end WB.Props
