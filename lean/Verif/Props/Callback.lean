import Verif.Proof.Callback

/-! C120: denoisers with a state of their own, and denoisers that throw. -/

set_option linter.unusedSectionVars false

namespace WB.Props

open Spec

section
variable {α σ : Type} [Zero α] [Add α] [Mul α] [Neg α] [Inhabited α]

/-- C120: for a denoiser without a state that does not throw, the call does what the other theorems say, for any buffer, view and data. -/
theorem C120_pure (k : Kit α) (b : Buffer α) (v : View) (s : σ) (data : List (Mat α)) (den : Denoiser α) :
    b.decomposeWith k s data (Callback.of den) = (match b.decompose k data den with
      | .ok d x => .ok (s, d) x
      | .throw d => .throw (s, d)
      | .ub => .ub) ∧
    v.decomposeWith k b s data (Callback.of den) = match v.decompose k b data den with
      | .ok d x => .ok (s, d) x
      | .throw d => .throw (s, d)
      | .ub => .ub := by
  have h1 : b.decomposeWith k s data (Callback.of den) = beside s (b.decompose k data den) := impl_pure ..
  have h2 : v.decomposeWith k b s data (Callback.of den) = beside s (v.decompose k b data den) := by
    unfold View.decomposeWith View.decompose
    rw [lift_beside]
    apply beside_bind
    intro d good
    cases good
    · rfl
    · simp only [if_true]
      by_cases h : v.isConst = true
      · rw [if_pos h, if_pos h]; rfl
      · rw [if_neg h, if_neg h]
        exact impl_pure ..
  rw [h1, h2]
  constructor
  · cases b.decompose k data den <;> rfl
  · cases v.decompose k b data den <;> rfl

/-- C120: `Decompose` with any denoiser is a conversation about the details of the decomposition without denoising, channel by channel and
step by step. When a call throws, the exception reaches the caller; the denoiser is in the state that call has left; the answers before it
are stored, nothing else is, and the buffer keeps its layout. -/
theorem C120_calls (k : Kit α) (b : Buffer α) (hb : WellFormed b) (hf : FilterPresent k b.params) (hch : 0 < b.params.signalNumber)
    (data : List (Mat α)) (hd : IsSignal b.params data) (cb : Callback σ α) (s : σ) :
    ∃ plain d', b.decompose k data nullDenoiser = .ok plain true ∧
      AfterAnswers b.params 0 b.decs plain (converse (answer b.params cb) s (detailCalls b.params plain)).2.1 d' ∧
      WellFormed ⟨b.params, d'⟩ ∧
      b.decomposeWith k s data cb = match converse (answer b.params cb) s (detailCalls b.params plain) with
        | (s', _, .ok _) => .ok (s', d') true
        | (s', _, .throw) => .throw (s', d')
        | (_, _, .ub) => .ub := by
  have hplain := decompose_ok hb hf hch hd (den := nullDenoiser) (fun _ => ⟨fun _ _ => rfl, fun _ _ => ⟨rfl, rfl⟩⟩)
  obtain ⟨hv, hl, hc⟩ := hb
  obtain ⟨hn, hs⟩ := hd
  have hfit : 0 + data.length ≤ b.decs.length := by omega
  have hafter := fun o => afterAnswers_store (p := b.params) hc (scaling k b.params) data 0 hfit o
  refine ⟨_, store (b.params.steps * subbandsPerWT b.params) (data.map fun m => sig b.params (scaling k b.params) (padOf b.params m)
    b.params.steps) 0 b.decs _, hplain, hafter _, ⟨hv, ?_, layout_afterAnswers hc (hafter _)⟩, ?_⟩
  · rw [length_store]; exact hl
  · have h := impl_with hv hf cb (by omega) (fun m hm => shaped_of (hs m hm)) 0 s b.decs hc hfit
    unfold Buffer.decomposeWith
    rw [← hn]
    rw [Nat.cast_zero] at h
    rw [h, calls_eq]
    rcases converse (answer b.params cb) s (detailCalls b.params (data.map (chanP b.params (scaling k b.params) nullDenoiser))) with ⟨s', o, r⟩
    cases r <;> rfl

/-- C120: the same for `Decompose` through a view; the channels outside of it are not touched. -/
theorem C120_view (k : Kit α) (b : Buffer α) (hb : WellFormed b) (hf : FilterPresent k b.params) (v : View) (start n : ℕ)
    (hvs : v.start = start) (hvn : v.count = n) (hw : v.isConst = false) (hn0 : 0 < n) (hfit : start + n ≤ b.params.signalNumber)
    (hint : start + n < 2 ^ 31) (data : List (Mat α)) (hlen : data.length = n) (hd : ∀ m ∈ data, HasShape b.params.shape m)
    (cb : Callback σ α) (s : σ) :
    ∃ plain whole d', v.decompose k b data nullDenoiser = .ok whole true ∧ plain = (whole.drop start).take n ∧
      AfterAnswers b.params start b.decs plain (converse (answer b.params cb) s (detailCalls b.params plain)).2.1 d' ∧
      WellFormed ⟨b.params, d'⟩ ∧
      v.decomposeWith k b s data cb = match converse (answer b.params cb) s (detailCalls b.params plain) with
        | (s', _, .ok _) => .ok (s', d') true
        | (s', _, .throw) => .throw (s', d')
        | (_, _, .ub) => .ub := by
  obtain ⟨hv, hl, hc⟩ := hb
  subst hlen
  have hfit' : start + data.length ≤ b.decs.length := by omega
  have hsh : ∀ m ∈ data, Shaped b.params m := fun m hm => shaped_of (hd m hm)
  have hrange : v.checkRange b.params.signalNumber = .ok true := by
    unfold View.checkRange
    rw [hvs, hvn, if_pos (by omega)]
    congr 1
    simp
    omega
  have hwhole : v.decompose k b data nullDenoiser =
      .ok (splice b.decs start (data.map (chanP b.params (scaling k b.params) nullDenoiser))) true := by
    unfold View.decompose
    rw [hrange, Run.lift_ok, Run.bind_ok, if_pos rfl, hw, hvs, hvn]
    exact decomposeImpl_ok hv hf (fun _ => ⟨fun _ _ => rfl, fun _ _ => ⟨rfl, rfl⟩⟩) hc hn0 hsh start hfit'
  have hafter := fun o => afterAnswers_store (p := b.params) hc (scaling k b.params) data start hfit' o
  refine ⟨data.map (chanP b.params (scaling k b.params) nullDenoiser), _, store (b.params.steps * subbandsPerWT b.params)
    (data.map fun m => sig b.params (scaling k b.params) (padOf b.params m) b.params.steps) start b.decs _, hwhole, ?_, hafter _,
    ⟨hv, ?_, layout_afterAnswers hc (hafter _)⟩, ?_⟩
  · unfold splice
    have h1 : (b.decs.take start).length = start := by rw [List.length_take]; omega
    rw [List.append_assoc, List.drop_append_of_le_length (by omega), List.drop_eq_nil_of_le (by omega), List.nil_append,
      List.take_append_of_le_length (by simp), List.take_of_length_le (by simp)]
  · rw [length_store]; exact hl
  · have h := impl_with hv hf cb hn0 hsh start s b.decs hc hfit'
    unfold View.decomposeWith
    rw [hrange, Run.lift_ok, Run.bind_ok, if_pos rfl, hw, hvs, hvn]
    simp only [Bool.false_eq_true, if_false]
    rw [h, calls_eq]
    rcases converse (answer b.params cb) s (detailCalls b.params (data.map (chanP b.params (scaling k b.params) nullDenoiser))) with ⟨s', o, r⟩
    cases r <;> rfl

/-- C120: a denoiser sees the details of the decomposition without denoising, each once, in order, whatever it answers: the notes of a
denoiser that takes notes are exactly these. The buffer gets what the denoiser without the notes gives. -/
theorem C120_notes (k : Kit α) (b : Buffer α) (hb : WellFormed b) (hf : FilterPresent k b.params) (hch : 0 < b.params.signalNumber)
    (data : List (Mat α)) (hd : IsSignal b.params data) (den : Denoiser α) (hden : KeepsSizes den) (s : List (Mat α × ℕ)) :
    ∃ plain d', b.decompose k data nullDenoiser = .ok plain true ∧ b.decompose k data den = .ok d' true ∧
      b.decomposeWith k s data (noting den) = .ok (s ++ detailCalls b.params plain, d') true ∧
      (detailCalls b.params plain).length = b.params.signalNumber * (b.params.steps * detailsPerStep b.params) := by
  obtain ⟨hv, hl, hc⟩ := hb
  have hplain := decompose_ok ⟨hv, hl, hc⟩ hf hch hd (den := nullDenoiser) (fun _ => ⟨fun _ _ => rfl, fun _ _ => ⟨rfl, rfl⟩⟩)
  have hden' := decompose_ok ⟨hv, hl, hc⟩ hf hch hd (den := den) (fun _ => hden)
  obtain ⟨hn, hs⟩ := hd
  have hfit : 0 + data.length ≤ b.decs.length := by omega
  have hsh : ∀ m ∈ data, Shaped b.params m := fun m hm => shaped_of (hs m hm)
  have hcols : ∀ x ∈ detailCalls b.params (data.map (chanP b.params (scaling k b.params) nullDenoiser)), b.params.dimension = 1 → x.1.cols = 1 := by
    intro x hx hd
    rw [← calls_eq, List.mem_flatMap] at hx
    obtain ⟨m, -, hx⟩ := hx
    exact asks_cols hd _ _ _ _ _ hx
  have e1 := impl_with hv hf (noting den) (by omega) hsh 0 s b.decs hc hfit
  have e2 := impl_with hv hf (Callback.of (σ := List (Mat α × ℕ)) den) (by omega) hsh 0 s b.decs hc hfit
  rw [calls_eq, converse_total _ (fun m k => if b.params.dimension = 1 then Mat.ofCol (den.d1 (m.col 0) k) else den.d2 m k) (fun s x => s ++ [x]) _
    (fun x hx s => answer_noting hden x (hcols x hx) s), foldl_notes] at e1
  rw [calls_eq, converse_total _ (fun m k => if b.params.dimension = 1 then Mat.ofCol (den.d1 (m.col 0) k) else den.d2 m k) (fun s _ => s) _
     (fun x hx s => answer_of hden x s), impl_pure] at e2
  rw [Nat.cast_zero, hn] at e1 e2
  have e3 : decomposeImpl k (freshStack k b.params) b.params b.decs data den 0 b.params.signalNumber = _ := hden'
  rw [e3] at e2
  refine ⟨_, _, hplain, hden', ?_, ?_⟩
  · unfold Buffer.decomposeWith
    rw [e1]
    simp only [told]
    simp only [told, beside, Run.ok.injEq, Prod.mk.injEq] at e2
    rw [← e2.1.2]
  · rw [← calls_eq, ← hn]
    simp [List.length_flatMap, length_asks, subbandsPerWT_eq]

/-- C120: a failed decomposition leaves nothing behind that a later one would notice. -/
theorem C120_again (k : Kit α) (b : Buffer α) (hb : WellFormed b) (hf : FilterPresent k b.params) (hch : 0 < b.params.signalNumber)
    (data data' : List (Mat α)) (hd : IsSignal b.params data) (hd' : IsSignal b.params data') (cb : Callback σ α) (s s' : σ) (d' : Decs α)
    (hthrow : b.decomposeWith k s data cb = .throw (s', d')) (den : Denoiser α) (hden : KeepsSizes den) :
    (Buffer.mk b.params d').decompose k data' den = b.decompose k data' den ∧
    ∃ d, b.decompose k data' den = .ok d true := by
  obtain ⟨plain, d, -, -, hwf, hrun⟩ := C120_calls k b hb hf hch data hd cb s
  rw [hthrow] at hrun
  have : d' = d := by
    split at hrun
    · exact absurd hrun (by simp)
    · simp only [Run.throw.injEq, Prod.mk.injEq] at hrun; exact hrun.2
    · exact absurd hrun (by simp)
  subst this
  have h1 := decompose_ok (b := b) hb hf hch hd' (fun _ => hden)
  have h2 := decompose_ok (b := ⟨b.params, d'⟩) hwf hf hch hd' (fun _ => hden)
  exact ⟨h2.trans h1.symm, _, h1⟩

end

/-- C120: a denoiser that counts its calls and throws in the second: the first detail of the first channel is stored, the first channel
is complete, the second is as before. -/
example : let p : Params := ⟨[2], 2, 1, 1⟩
    let k : Kit ℤ := ⟨fun _ => [1, 1], fun x => x, fun _ _ x => x⟩
    let old : Decs ℤ := List.replicate 2 (List.replicate 2 (Mat.ofCol [100]))
    let cb : Callback ℕ ℤ := ⟨fun s v _ => (s + 1, if s = 1 then .throw else .ok (v.map (10 * ·))), fun s m _ => (s, .ok m)⟩
    WellFormed (Buffer.mk p old) ∧ FilterPresent k p ∧ IsSignal p [Mat.ofCol [3, 5], Mat.ofCol [7, 1]] ∧
    (Buffer.mk p old).decomposeWith k 0 [Mat.ofCol [3, 5], Mat.ofCol [7, 1]] cb =
      .throw (2, [[Mat.ofCol [-20], Mat.ofCol [8]], [Mat.ofCol [100], Mat.ofCol [100]]]) := by
  refine ⟨⟨⟨by simp, by simp, by simp⟩, by simp, by simp [subbandCount, detailsPerStep]⟩, fun _ => rfl, ⟨by simp, by simp [HasShape]⟩, rfl⟩

/-- C120: the same through a view of the second channel, with a denoiser that does not throw. -/
example : let p : Params := ⟨[2], 2, 1, 1⟩
    let k : Kit ℤ := ⟨fun _ => [1, 1], fun x => x, fun _ _ x => x⟩
    let old : Decs ℤ := List.replicate 2 (List.replicate 2 (Mat.ofCol [100]))
    let cb : Callback ℕ ℤ := ⟨fun s v _ => (s + 1, .ok (v.map (10 * ·))), fun s m _ => (s, .ok m)⟩
    (View.mk 1 1 false).decomposeWith k (Buffer.mk p old) 0 [Mat.ofCol [7, 1]] cb =
      .ok (1, [[Mat.ofCol [100], Mat.ofCol [100]], [Mat.ofCol [60], Mat.ofCol [8]]]) true := by
  rfl

/-- C120: a denoiser that keeps sizes, and one that does not: in one dimension the latter makes `Decompose` throw. -/
example : KeepsSizes (nullDenoiser : Denoiser ℤ) ∧
    answer (σ := ℕ) (α := ℤ) ⟨[2], 2, 1, 1⟩ ⟨fun s v _ => (s + 1, .ok (v ++ v)), fun s m _ => (s, .ok m)⟩ 0 (Mat.ofCol [5]) 0 = (1, .throw) :=
  ⟨⟨fun _ _ => rfl, fun _ _ => ⟨rfl, rfl⟩⟩, rfl⟩

end WB.Props
