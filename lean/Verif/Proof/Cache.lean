import Verif.Proof.Bridge
import Verif.Model.World

/-!
The cached calls equal the uncached ones; decomposition over a channel range as a function of parameters, data and denoiser.
-/

set_option linter.unusedSectionVars false

namespace WB

open Spec

variable {α : Type}

theorem ltOp_none {a b : Params} (h1 : Params.ltOp a b = false) (h2 : Params.ltOp b a = false) : a = b := by
  have e1 := (not_congr (ltOp_iff a b)).1 (by simp [h1])
  have e2 := (not_congr (ltOp_iff b a)).1 (by simp [h2])
  rcases vecLt_total a.shape b.shape with h | h | h
  · exact absurd (.inl h) e1
  · have e1' : ¬ (a.signalNumber < b.signalNumber ∨ a.signalNumber = b.signalNumber ∧
        (a.steps < b.steps ∨ a.steps = b.steps ∧ a.wtype < b.wtype)) := fun hc => e1 (.inr ⟨h, hc⟩)
    have e2' : ¬ (b.signalNumber < a.signalNumber ∨ b.signalNumber = a.signalNumber ∧
        (b.steps < a.steps ∨ b.steps = a.steps ∧ b.wtype < a.wtype)) := fun hc => e2 (.inr ⟨h.symm, hc⟩)
    have : a.signalNumber = b.signalNumber ∧ a.steps = b.steps ∧ a.wtype = b.wtype := by omega
    cases a; cases b; simp_all
  · exact absurd (.inl h) e2

theorem mapFind_some {m : List (Params × Stack α)} {p : Params} {s : Stack α} (h : mapFind m p = some s) :
    (p, s) ∈ m := by
  unfold mapFind at h
  rw [Option.map_eq_some_iff] at h
  obtain ⟨e, he, rfl⟩ := h
  have h1 := List.find?_some he
  have h2 := List.mem_of_find?_eq_some he
  simp only [Bool.and_eq_true, Bool.not_eq_true'] at h1
  have := ltOp_none h1.1 h1.2
  rw [← this]
  exact h2

section
variable [Zero α] [Add α] [Mul α] [Neg α] [Inhabited α]

/-- Every cached entry is what a fresh computation gives. -/
def CacheOk (k : Kit α) (c : Cache α) : Prop :=
  (∀ e ∈ c.main, freshStack k e.1 = .ok e.2) ∧ ∀ e ∈ c.trans, freshTrans k e.1 = .ok e.2

theorem cacheOk_empty (k : Kit α) : CacheOk k ⟨[], []⟩ := ⟨by simp, by simp⟩

theorem genMatrices_ok {k : Kit α} {c : Cache α} (hc : CacheOk k c) (p : Params) :
    match freshStack k p with
    | .ok s => ∃ c', c.genMatrices k (paddedShape p) p = .ok (c', s) ∧ CacheOk k c'
    | .throw => c.genMatrices k (paddedShape p) p = .throw
    | .ub => c.genMatrices k (paddedShape p) p = .ub := by
  unfold Cache.genMatrices
  cases hm : mapFind c.main p with
  | some s =>
    have := hc.1 _ (mapFind_some hm)
    simp only at this
    rw [this]
    exact ⟨c, rfl, hc⟩
  | none =>
    show match freshStack k p with
      | .ok s => ∃ c', (freshStack k p >>= fun s => pure ({ c with main := c.main ++ [(p, s)] }, s)) = .ok (c', s) ∧ CacheOk k c'
      | .throw => (freshStack k p >>= fun s => pure ({ c with main := c.main ++ [(p, s)] }, s)) = .throw
      | .ub => (freshStack k p >>= fun s => pure ({ c with main := c.main ++ [(p, s)] }, s)) = .ub
    cases hf : freshStack k p with
    | ok s =>
      refine ⟨_, rfl, ?_, hc.2⟩
      intro e he
      rcases List.mem_append.1 he with h | h
      · exact hc.1 e h
      · rw [List.mem_singleton] at h; subst h; exact hf
    | throw => rfl
    | ub => rfl

theorem genTrans_ok {k : Kit α} {c : Cache α} (hc : CacheOk k c) (p : Params) :
    match freshTrans k p with
    | .ok s => ∃ c', c.genTrans k (paddedShape p) p = .ok (c', s) ∧ CacheOk k c'
    | .throw => c.genTrans k (paddedShape p) p = .throw
    | .ub => c.genTrans k (paddedShape p) p = .ub := by
  unfold Cache.genTrans
  cases hm : mapFind c.trans p with
  | some s =>
    have := hc.2 _ (mapFind_some hm)
    simp only at this
    rw [this]
    exact ⟨c, rfl, hc⟩
  | none =>
    have hg := genMatrices_ok hc p
    simp only
    have hft : freshTrans k p = freshStack k p >>= fun s => pure (transStack s) := rfl
    cases hf : freshStack k p with
    | ok s =>
      rw [hf] at hg hft
      obtain ⟨c', h1, h2⟩ := hg
      rw [hft, h1]
      refine ⟨_, rfl, h2.1, ?_⟩
      intro e he
      rcases List.mem_append.1 he with h | h
      · exact h2.2 e h
      · rw [List.mem_singleton] at h; subst h; exact hft
    | throw => rw [hf] at hg hft; simp only at hg; rw [hft, hg]; rfl
    | ub => rw [hf] at hg hft; simp only at hg; rw [hft, hg]; rfl

theorem cacheResult_main {k : Kit α} {c : Cache α} (hc : CacheOk k c) (p : Params) :
    (cacheResult c (c.genMatrices k (paddedShape p) p)).2 = freshStack k p ∧
      CacheOk k (cacheResult c (c.genMatrices k (paddedShape p) p)).1 := by
  have h := genMatrices_ok hc p
  cases hf : freshStack k p with
  | ok s => rw [hf] at h; obtain ⟨c', h1, h2⟩ := h; rw [h1]; exact ⟨rfl, h2⟩
  | throw => rw [hf] at h; simp only at h; rw [h]; exact ⟨rfl, hc⟩
  | ub => rw [hf] at h; simp only at h; rw [h]; exact ⟨rfl, hc⟩

theorem cacheResult_trans {k : Kit α} {c : Cache α} (hc : CacheOk k c) (p : Params) :
    (cacheResult c (c.genTrans k (paddedShape p) p)).2 = freshTrans k p ∧
      CacheOk k (cacheResult c (c.genTrans k (paddedShape p) p)).1 := by
  have h := genTrans_ok hc p
  cases hf : freshTrans k p with
  | ok s => rw [hf] at h; obtain ⟨c', h1, h2⟩ := h; rw [h1]; exact ⟨rfl, h2⟩
  | throw => rw [hf] at h; simp only at h; rw [h]; exact ⟨rfl, hc⟩
  | ub => rw [hf] at h; simp only at h; rw [h]; exact ⟨rfl, hc⟩

/-- Decomposition with the cache is decomposition with freshly computed matrices. -/
theorem decomposeCached_eq {k : Kit α} {c : Cache α} (hc : CacheOk k c) (p : Params) (d : Decs α) (data : List (Mat α))
    (den : Denoiser α) (start count : ℤ) :
    (decomposeCached k c p d data den start count).2 = decomposeImpl k (freshStack k p) p d data den start count ∧
      CacheOk k (decomposeCached k c p d data den start count).1 := by
  unfold decomposeCached
  split_ifs with h
  · obtain ⟨h1, h2⟩ := cacheResult_main hc p
    exact ⟨by simp only [h1], h2⟩
  · refine ⟨?_, hc⟩
    simp only
    unfold decomposeImpl
    by_cases hd : p.dimension = 2
    · cases hs : shapeCheck p data count with
      | ok g =>
        cases g with
        | true => exact absurd ⟨hd, by rw [hs]⟩ h
        | false => rfl
      | throw => rfl
      | ub => rfl
    · simp only [if_neg hd]

/-- Composition with the cache is composition with freshly computed matrices. -/
theorem composeCached_eq {k : Kit α} {c : Cache α} (hc : CacheOk k c) (p : Params) (d : Decs α) (scale start count : ℤ) :
    (composeCached k c p d scale start count).2 = composeImpl k (freshTrans k p) p d scale start count ∧
      CacheOk k (composeCached k c p d scale start count).1 := by
  unfold composeCached
  split_ifs with h
  · obtain ⟨h1, h2⟩ := cacheResult_trans hc p
    exact ⟨by simp only [h1], h2⟩
  · refine ⟨?_, hc⟩
    simp only
    unfold composeImpl
    by_cases hd : p.dimension = 2
    · have : count < 0 := by
        by_contra hcn
        exact h ⟨hd, hcn⟩
      simp [this]
    · simp only [if_neg hd]

/-! ### decomposition of a channel range as a function -/

/-- What `DecomposeImpl` computes for `n` channels, without the store: `none` is the return value `false`. -/
def decO (k : Kit α) (p : Params) (data : List (Mat α)) (den : Denoiser α) (n : ℕ) : Outcome (Option (Decs α)) :=
  shapeCheck p data n >>= fun good =>
  if good then
    (if p.dimension = 2 then freshStack k p else pure []) >>= fun stack =>
    (List.range' 0 n).mapM (fun j => rd data j >>= chanO p stack (filters1D k p) den) >>= fun cs => pure (some cs)
  else .ok none

/-- How the stateful run relates to `decO`. -/
def RefinesO (p : Params) (d : Decs α) (start n : ℕ) (r : Run (Decs α) Bool) (o : Outcome (Option (Decs α))) : Prop :=
  match o with
  | .ok none => r = .ok d false
  | .ok (some cs) => cs.length = n ∧ ChanLayout p cs ∧ r = .ok (splice d start cs) true
  | .throw => ∃ d', Framed p d start n d' ∧ r = .throw d'
  | .ub => r = .ub

theorem decomposeImpl_refines (k : Kit α) (p : Params) (d : Decs α) (data : List (Mat α)) (den : Denoiser α)
    (start n : ℕ) (hl : ChanLayout p d) (hn : start + n ≤ d.length) :
    RefinesO p d start n (decomposeImpl k (freshStack k p) p d data den start n) (decO k p data den n) := by
  unfold decomposeImpl decO
  cases hs : shapeCheck p data (n : ℤ) with
  | throw => exact ⟨d, framed_refl hl hn, rfl⟩
  | ub => rfl
  | ok good =>
    cases good with
    | false => rfl
    | true =>
      simp only [Run.lift_ok, Run.bind_ok, Outcome.bind_ok, if_true, loopChannels_nat, Int.toNat_natCast]
      cases hst : (if p.dimension = 2 then freshStack k p else pure []) with
      | throw => exact ⟨d, framed_refl hl hn, rfl⟩
      | ub => rfl
      | ok stack =>
        simp only [Run.lift_ok, Run.bind_ok, Outcome.bind_ok]
        have h := channels_refines p stack (filters1D k p) den data start 0 n d hl (by omega)
        rw [Nat.add_zero] at h
        cases hm : (List.range' 0 n).mapM (fun j => rd data j >>= chanO p stack (filters1D k p) den) with
        | ok cs => rw [hm] at h; exact h
        | throw => rw [hm] at h; exact h
        | ub => rw [hm] at h; exact h

theorem chanLayout_iff {p : Params} {d : Decs α} : ChanLayout p d ↔ ∀ c ∈ d, c.length = subbandCount p := Iff.rfl

theorem chanLayout_splice {p : Params} {d cs : Decs α} {start : ℕ} (h1 : ChanLayout p d) (h2 : ChanLayout p cs) :
    ChanLayout p (splice d start cs) := by
  intro c hc
  unfold splice at hc
  simp only [List.mem_append] at hc
  rcases hc with (h | h) | h
  · exact h1 c (List.mem_of_mem_take h)
  · exact h2 c h
  · exact h1 c (List.mem_of_mem_drop h)

/-- The subbands after a run satisfy `P`, whether it returned or threw. -/
def Run.After {σ β : Type} (P : σ → Prop) : Run σ β → Prop
  | .ok s _ => P s
  | .throw s => P s
  | .ub => True

/-- Every run of `DecomposeImpl` on natural-number arguments keeps the layout. -/
theorem refinesO_layout {p : Params} {d : Decs α} {start n : ℕ} {r : Run (Decs α) Bool} {o : Outcome (Option (Decs α))}
    (h : RefinesO p d start n r o) (hl : ChanLayout p d) (hn : start + n ≤ d.length) :
    r.After (fun d' => d'.length = d.length ∧ ChanLayout p d') := by
  match o, h with
  | .ok none, h =>
    have h' : r = .ok d false := h
    subst h'; exact ⟨rfl, hl⟩
  | .ok (some cs), h =>
    obtain ⟨h1, h2, h3⟩ := h
    subst h3
    exact ⟨length_splice (by omega), chanLayout_splice hl h2⟩
  | .throw, h =>
    obtain ⟨d', ⟨cs, h1, h2, h3⟩, h4⟩ := h
    subst h3; subst h4
    exact ⟨length_splice (by omega), chanLayout_splice hl h2⟩
  | .ub, h =>
    have h' : r = .ub := h
    subst h'; trivial

/-- No channel is visited when `start` or `count` is negative. -/
theorem decomposeImpl_neg (k : Kit α) (g : Outcome (Stack α)) (p : Params) (d : Decs α) (data : List (Mat α)) (den : Denoiser α)
    {start count : ℤ} (h : start < 0 ∨ count ≤ 0) :
    (∃ x, decomposeImpl k g p d data den start count = .ok d x) ∨
      decomposeImpl k g p d data den start count = .throw d ∨ decomposeImpl k g p d data den start count = .ub := by
  have hlc : loopChannels start count = [] := by
    unfold loopChannels
    rcases h with h | h
    · simp [h]
    · have : count.toNat = 0 := by omega
      simp [this]
  unfold decomposeImpl
  rw [hlc]
  cases hs : shapeCheck p data count with
  | throw => exact .inr (.inl rfl)
  | ub => exact .inr (.inr rfl)
  | ok good =>
    cases good with
    | false => exact .inl ⟨false, rfl⟩
    | true =>
      simp only [Run.lift_ok, Run.bind_ok, if_true]
      cases (if p.dimension = 2 then g else pure []) with
      | throw => exact .inr (.inl rfl)
      | ub => exact .inr (.inr rfl)
      | ok st => exact .inl ⟨true, rfl⟩

end

end WB
