import Verif.Proof.Reentrant

/-! C139: denoisers that call the library. -/

set_option linter.unusedSectionVars false

namespace WB.Props

open WB WB.Spec

variable {α σ : Type} [Zero α] [Add α] [Mul α] [Neg α] [Inhabited α]

/-- C139. A denoiser may call the library in the middle of `Decompose`, on other buffers without restriction and on the buffer that is being decomposed as long as it does not
change it. Its calls do what they do at any other time; in particular none of them waits for a mutex that `Decompose` holds. It is asked about the same details in the same order
as any denoiser. A call that reads the buffer sees the answers given so far in their places, the approximations of the channels that are complete, and otherwise what was there
before. `Decompose` returns with all answers stored, or with the exception of the denoiser, or is undefined where a call of the denoiser is. -/
theorem C139_conversation (k : Kit α) (w : World α) (hr : Reached k w) (h : ℕ) (b : Buffer α) (hb : w.content h = some b) (hk : FilterPresent k b.params)
    (hch : 0 < b.params.signalNumber) (data : List (Mat α)) (hd : IsSignal b.params data) (nd : Nested σ α) (h1 : ∀ s v step, LeavesAlone h (nd.d1 s v step))
    (h2 : ∀ s m step, LeavesAlone h (nd.d2 s m step)) (s : σ) :
    ∃ w0 plain seen, w.step k (.decompose h data nullDenoiser) = some (w0, .bool true) ∧ w0.content h = some ⟨b.params, plain⟩ ∧
      (∀ o, AfterAnswers b.params 0 b.decs plain o (seen o)) ∧
      w.decomposeNested k h data nd s = talk (answerIn k b.params nd) h seen s { w with cache := w0.cache } [] (detailCalls b.params plain) := by
  have hw := Reached.inv hr
  obtain ⟨a, hf⟩ := World.content_some.1 hb
  have hwf := hw.wf _ (List.mem_of_getElem? (World.find_some hf).2)
  obtain ⟨c, hc, e1, e2⟩ := impl_in hw hf hwf hk hch hd nd s
  have hfit : 0 + data.length ≤ b.decs.length := by have := hwf.2.1; have := hd.1; omega
  refine ⟨_, _, fillIn b.decs (deeds b.params (scaling k b.params) 0 data), e1, World.content_some.2 ⟨a, find_heapset_same hf⟩, fun o => ?_, ?_⟩
  · rw [fill_store _ _ _ _ _ hwf.2.2 hfit]
    exact afterAnswers_store hwf.2.2 _ _ _ hfit o
  · rw [e2, ← calls_eq, ← questions_deeds b.params _ 0]
    exact follow_talk h1 h2 _ ⟨false, s, { w with cache := c }⟩ b rfl (inv_cache hw hc) hf hwf (fitting_deeds _ _ _ _ _ hfit)

/-- C139. With a denoiser that calls nothing this is `Decompose` as in all the other theorems. -/
theorem C139_quiet (k : Kit α) (w : World α) (hr : Reached k w) (h : ℕ) (b : Buffer α) (hb : w.content h = some b) (hk : FilterPresent k b.params)
    (hch : 0 < b.params.signalNumber) (data : List (Mat α)) (hd : IsSignal b.params data) (den : Denoiser α) (hden : KeepsSizes den) (s : σ) :
    w.decomposeNested k h data (quiet den) s = (w.step k (.decompose h data den)).map fun r => (s, r.1, r.2) := by
  have hw := Reached.inv hr
  obtain ⟨a, hf⟩ := World.content_some.1 hb
  have hwf := hw.wf _ (List.mem_of_getElem? (World.find_some hf).2)
  obtain ⟨c, hc, e1, e2⟩ := impl_in hw hf hwf hk hch hd (quiet den) s
  have hfit : 0 + data.length ≤ b.decs.length := by have := hwf.2.1; have := hd.1; omega
  have hsh : ∀ m ∈ data, Shaped b.params m := fun m hm => shaped_of (hd.2 m hm)
  have e3 := follow_talk (nd := quiet den) (h := h) (fun _ _ _ => trivial) (fun _ _ _ => trivial) (deeds b.params (scaling k b.params) 0 data)
    ⟨false, s, { w with cache := c }⟩ b rfl (inv_cache hw hc) hf hwf (fitting_deeds _ _ _ _ _ hfit)
  have hans : ∀ x ∈ questions (deeds b.params (scaling k b.params) 0 data), ∀ (s : σ) w, answerIn k b.params (quiet den) s w x.1 x.2 =
      some (s, w, .ok (if b.params.dimension = 1 then Mat.ofCol (den.d1 (x.1.col 0) x.2) else den.d2 x.1 x.2)) := by
    intro x hx s w
    unfold answerIn quiet scriptRun
    by_cases hd : b.params.dimension = 1
    · rw [if_pos hd, if_pos hd]
      dsimp only
      rw [if_pos (by rw [hden.1]; simp)]
    · rw [if_neg hd, if_neg hd]
  rw [e2, e3, talk_total (fun m step => if b.params.dimension = 1 then Mat.ofCol (den.d1 (m.col 0) step) else den.d2 m step) _ _ hans _ { w with cache := c } (a := a) (b := b) hf,
    List.nil_append, fill_store _ _ _ _ _ hwf.2.2 hfit]
  have e4 := impl_with hwf.1 hk (Callback.of (σ := Unit) den) (by have := hd.1; omega) hsh 0 () b.decs hwf.2.2 hfit
  rw [converse_total _ (fun m k => if b.params.dimension = 1 then Mat.ofCol (den.d1 (m.col 0) k) else den.d2 m k) (fun s _ => s) _
     (fun x hx s => answer_of hden x s), impl_pure, Nat.cast_zero, hd.1] at e4
  have hden' := decompose_ok hwf hk hch hd (den := den) (fun _ => hden)
  have e5 : decomposeImpl k (freshStack k b.params) b.params b.decs data den 0 b.params.signalNumber = _ := hden'
  rw [e5] at e4
  simp only [told, beside, Run.ok.injEq, Prod.mk.injEq] at e4
  have hcache : (decomposeCached k w.cache b.params b.decs data den 0 b.params.signalNumber).1 = c := by
    simp only [World.step, hf, World.update] at e1
    have : (decomposeCached k w.cache b.params b.decs data nullDenoiser 0 b.params.signalNumber).1 = c := by
      split at e1
      · simp only [Option.some.injEq, Prod.mk.injEq, World.mk.injEq] at e1; exact e1.1.1
      · simp at e1
      · simp at e1
    rw [← this]
    unfold decomposeCached
    split_ifs <;> rfl
  have hd2 := (decomposeCached_eq hw.cache b.params b.decs data den 0 b.params.signalNumber).1
  unfold Buffer.decompose at hden'
  rw [hden'] at hd2
  rw [questions_deeds, ← e4.1.2, showing_eq (w := { w with cache := c }) (a := a) (b := b) hf]
  simp only [World.step, hf, World.update, hd2, hcache, Option.map_some]

/-- C139. A denoiser that destroys the buffer makes the decomposition undefined. -/
theorem C139_destroyed (k : Kit α) (w : World α) (hr : Reached k w) (h : ℕ) (b : Buffer α) (hb : w.content h = some b) (hk : FilterPresent k b.params)
    (hch : 0 < b.params.signalNumber) (hst : 0 < b.params.steps) (data : List (Mat α)) (hd : IsSignal b.params data) (s : σ) :
    w.decomposeNested k h data (destroying h) s = none := by
  have hw := Reached.inv hr
  obtain ⟨a, hf⟩ := World.content_some.1 hb
  have hwf := hw.wf _ (List.mem_of_getElem? (World.find_some hf).2)
  obtain ⟨c, hc, e1, e2⟩ := impl_in hw hf hwf hk hch hd (destroying h) s
  rw [e2]
  obtain ⟨m, ms, rfl⟩ : ∃ m ms, data = m :: ms := by
    cases data with
    | nil => have := hd.1; simp at this; omega
    | cons m ms => exact ⟨m, ms, rfl⟩
  obtain ⟨x, l, hl⟩ : ∃ x l, asks b.params (scaling k b.params) (padOf b.params m) 0 b.params.steps = x :: l := by
    cases hq : asks b.params (scaling k b.params) (padOf b.params m) 0 b.params.steps with
    | nil =>
      have e := length_asks b.params (scaling k b.params) (padOf b.params m) 0 b.params.steps
      rw [hq] at e
      have : 0 < subbandsPerWT b.params := by unfold subbandsPerWT; split_ifs <;> omega
      have := Nat.mul_pos hst this
      simp at e; omega
    | cons x l => exact ⟨x, l, rfl⟩
  obtain ⟨f1, f2⟩ := World.find_some hf
  have hlt := (List.getElem?_eq_some_iff.1 f1).1
  rw [deeds, hl, label, List.cons_append, follow, askMat_eq rfl]
  have hans : answerIn k b.params (destroying h) s { w with cache := c } x.1 x.2 =
      some (s, { w with cache := c, handles := w.handles.set h .dead }, .ok (if b.params.dimension = 1 then Mat.ofCol (x.1.col 0) else x.1)) := by
    unfold answerIn destroying
    simp only [scriptRun, World.step, f1]
    by_cases hd : b.params.dimension = 1
    · rw [if_pos hd, if_pos hd]
      rw [if_pos (by simp)]
    · rw [if_neg hd, if_neg hd]
  rw [hans]
  dsimp only
  rw [Run.bind_ok]
  unfold Site.put
  rw [if_neg]
  · rfl
  · intro hm
    obtain ⟨g, hg⟩ := List.mem_iff_getElem?.1 hm
    rw [List.getElem?_set] at hg
    split_ifs at hg with e
    · simp at hg
    · exact e (hw.inj h g a f1 hg)

/-! ### examples -/

/-- A denoiser that decomposes what it is given with another buffer and copies the buffer that is being decomposed meets the conditions of `C139_conversation`. -/
example (h g : ℕ) (hne : g ≠ h) : (∀ s v step, LeavesAlone h ((curious h g : Nested σ α).d1 s v step)) ∧ ∀ s m step, LeavesAlone h ((curious h g : Nested σ α).d2 s m step) :=
  ⟨fun _ _ _ => ⟨hne, fun _ => ⟨fun e => e, fun _ => trivial⟩⟩, fun _ _ _ => ⟨hne, fun _ => ⟨fun e => e, fun _ => trivial⟩⟩⟩

/-- A small filter table. -/
private def exKit : Kit ℤ := ⟨fun o => if o = 1 then [1, 1] else [], id, fun _ _ x => x⟩

/-- Destroying a buffer for pictures of 4 by 4 from its denoiser. -/
example (w : World ℤ) (hr : Reached exKit w) (h : ℕ) (d : Decs ℤ) (hb : w.content h = some ⟨⟨[4, 4], 1, 1, 1⟩, d⟩) :
    w.decomposeNested exKit h [Mat.ofFn 4 4 fun i j => (i + 2 * j : ℤ)] (destroying h) () = none :=
  C139_destroyed exKit w hr h _ hb (by simp [FilterPresent, exKit]) (by simp) (by simp) _ ⟨rfl, by intro m hm; simp at hm; subst hm; exact ⟨rfl, rfl⟩⟩ ()

end WB.Props
