import Verif.Model.Buffer
import Verif.Proof.Params

/-!
The stateful decomposition loops as functions of one channel: `decomposeSteps`/`decomposeChannels` write exactly the
channels they are given, and what they write is computed by `chanO`, which does not look at the old contents.
-/

set_option linter.unusedSectionVars false

namespace WB

variable {α : Type}

/-- Overwrite a stretch of a list. -/
def splice {β : Type} (c : List β) (pos : ℕ) (ds : List β) : List β := c.take pos ++ ds ++ c.drop (pos + ds.length)

section splice
variable {β : Type}

@[simp] theorem splice_nil (c : List β) (pos : ℕ) : splice c pos [] = c := by simp [splice]

theorem length_splice {c : List β} {pos : ℕ} {ds : List β} (h : pos + ds.length ≤ c.length) :
    (splice c pos ds).length = c.length := by
  simp [splice]; omega

theorem set_eq_splice {c : List β} {pos : ℕ} (m : β) (h : pos < c.length) : c.set pos m = splice c pos [m] := by
  rw [List.set_eq_take_append_cons_drop]
  simp [splice, h]

theorem splice_splice {c : List β} {pos : ℕ} {a b : List β} (h : pos + a.length + b.length ≤ c.length) :
    splice (splice c pos a) (pos + a.length) b = splice c pos (a ++ b) := by
  unfold splice
  have h1 : (c.take pos ++ a).length = pos + a.length := by simp; omega
  rw [List.append_assoc (c.take pos) a, ← List.append_assoc (c.take pos) a]
  rw [List.take_append_of_le_length (by omega), List.take_of_length_le (by omega)]
  rw [List.drop_append]
  have h2 : (c.take pos ++ a).drop (pos + a.length + b.length) = [] := List.drop_eq_nil_of_le (by omega)
  rw [h2, List.nil_append, List.drop_drop, h1]
  simp only [List.length_append, List.append_assoc]
  congr 4
  omega

theorem splice_zero_full {c ds : List β} (h : ds.length = c.length) : splice c 0 ds = ds := by
  simp [splice, h]

theorem getElem?_splice_in {c ds : List β} {pos i : ℕ} (h : pos + ds.length ≤ c.length) (hi : i < ds.length) :
    (splice c pos ds)[pos + i]? = ds[i]? := by
  unfold splice
  rw [List.append_assoc, List.getElem?_append_right (by simp), List.getElem?_append_left (by simp; omega)]
  simp only [List.length_take]
  congr 1; omega

theorem getElem?_splice_out {c ds : List β} {pos i : ℕ} (h : pos + ds.length ≤ c.length)
    (hi : i < pos ∨ pos + ds.length ≤ i) : (splice c pos ds)[i]? = c[i]? := by
  unfold splice
  rcases hi with hi | hi
  · rw [List.append_assoc, List.getElem?_append_left (by simp; omega), List.getElem?_take_of_lt hi]
  · rw [List.getElem?_append_right (by simp; omega), List.getElem?_drop]
    congr 1; simp; omega

end splice

theorem set_self_eq {β : Type} {d : List β} {i : ℕ} {c : β} (h : d[i]? = some c) : d.set i c = d := by
  apply List.ext_getElem?
  intro j
  by_cases hj : i = j
  · subst hj
    rw [List.getElem?_set_self (List.getElem?_eq_some_iff.1 h).1, h]
  · simp [List.getElem?_set_ne hj]

theorem set_set' {β : Type} (d : List β) (i : ℕ) (a b : β) : (d.set i a).set i b = d.set i b := by
  simp

section Poly
variable [Zero α] [Add α] [Mul α] [Inhabited α]

/-- One step of one channel without the store: details and next approximation. -/
def stepO (p : Params) (stack : Stack α) (f : Filters α) (den : Denoiser α) (step : ℕ) (signal : Mat α) :
    Outcome (List (Mat α) × Mat α) :=
  if p.dimension = 1 then do
    let x ← column0 signal
    let r ← dwt x f.loD.reverse f.hiD.reverse
    if (den.d1 r.2 step).length ≠ r.2.length then .throw
    else pure ([Mat.ofCol (den.d1 r.2 step)], Mat.ofCol r.1)
  else do
    let mats ← rd stack step
    let w ← rd mats 0
    let h ← rd mats 1
    let q ← dwt2 signal w h
    pure ([den.d2 q.lh step, den.d2 q.hl step, den.d2 q.hh step], q.ll)

/-- The remaining steps of one channel. -/
def stepsO (p : Params) (stack : Stack α) (f : Filters α) (den : Denoiser α) :
    ℕ → Mat α → Outcome (List (Mat α) × Mat α)
  | 0, s => .ok ([], s)
  | rem + 1, s => do
    let r ← stepO p stack f den (p.steps - (rem + 1)) s
    let q ← stepsO p stack f den rem r.2
    pure (r.1 ++ q.1, q.2)

/-- All subbands of one channel. -/
def chanO (p : Params) (stack : Stack α) (f : Filters α) (den : Denoiser α) (m : Mat α) : Outcome (Channel α) := do
  let padded ← addPadding m (paddedShape p)
  let r ← stepsO p stack f den p.steps padded
  pure (r.1 ++ [r.2])

/-- How the stateful run relates to the functional one. -/
def Refines (d : Decs α) (ch : ℕ) (c : Channel α) (pos n : ℕ) (r : Run (Decs α) (Mat α))
    (o : Outcome (List (Mat α) × Mat α)) : Prop :=
  match o with
  | .ok (ds, a) => ds.length = n ∧ r = .ok (d.set ch (splice c pos ds)) a
  | .throw => ∃ c' : Channel α, c'.length = c.length ∧ r = .throw (d.set ch c')
  | .ub => r = .ub

theorem setSub_ok {d : Decs α} {ch idx : ℕ} {c : Channel α} (m : Mat α) (hd : d[ch]? = some c) (hi : idx < c.length) :
    setSub d ch idx m = .ok (d.set ch (splice c idx [m])) () := by
  unfold setSub
  rw [hd]
  simp only [hi, if_true]
  rw [set_eq_splice m hi]

theorem getElem?_set_self' {d : Decs α} {ch : ℕ} {c : Channel α} (c' : Channel α) (hd : d[ch]? = some c) :
    (d.set ch c')[ch]? = some c' := by
  have : ch < d.length := (List.getElem?_eq_some_iff.1 hd).1
  simp [this]

theorem oneStep_refines (p : Params) (stack : Stack α) (f : Filters α) (den : Denoiser α) (step : ℕ)
    (signal : Mat α) (d : Decs α) (ch : ℕ) (c : Channel α) (hd : d[ch]? = some c)
    (hc : step * subbandsPerWT p + subbandsPerWT p ≤ c.length) :
    Refines d ch c (step * subbandsPerWT p) (subbandsPerWT p)
      (if p.dimension = 1 then oneSideStep1D d ch (step * subbandsPerWT p) den f.loD.reverse f.hiD.reverse signal step
       else (Run.lift d (rd stack step)).bind fun d mats =>
         oneSideStep2D d ch (step * subbandsPerWT p) den mats signal step)
      (stepO p stack f den step signal) := by
  unfold stepO
  by_cases h1 : p.dimension = 1
  · rw [if_pos h1, if_pos h1]
    have hk : subbandsPerWT p = 1 := by simp [subbandsPerWT, h1]
    unfold oneSideStep1D
    cases hx : column0 signal with
    | throw => exact ⟨c, rfl, by simp [set_self_eq hd, Run.lift]⟩
    | ub => simp [Refines]
    | ok x =>
      simp only [Outcome.bind_ok]
      cases hr : dwt x f.loD.reverse f.hiD.reverse with
      | throw => exact ⟨c, rfl, by simp [set_self_eq hd]⟩
      | ub => simp [Refines]
      | ok r =>
        simp only [Outcome.bind_ok, Run.lift_ok, Run.bind_ok]
        by_cases hl : (den.d1 r.2 step).length ≠ r.2.length
        · rw [if_pos hl, if_pos hl]
          exact ⟨c, rfl, by simp [set_self_eq hd]⟩
        · rw [if_neg hl, if_neg hl]
          refine ⟨by simp [hk], ?_⟩
          rw [Nat.add_zero, setSub_ok _ hd (by omega)]
          rfl
  · rw [if_neg h1, if_neg h1]
    have hk : subbandsPerWT p = 3 := by simp [subbandsPerWT, h1]
    cases hm : rd stack step with
    | throw => exact ⟨c, rfl, by simp [set_self_eq hd]⟩
    | ub => simp [Refines]
    | ok mats =>
      simp only [Outcome.bind_ok, Run.lift_ok, Run.bind_ok]
      unfold oneSideStep2D
      cases hw : rd mats 0 with
      | throw => exact ⟨c, rfl, by simp [set_self_eq hd]⟩
      | ub => simp [Refines]
      | ok w =>
        simp only [Outcome.bind_ok]
        cases hh : rd mats 1 with
        | throw => exact ⟨c, rfl, by simp [set_self_eq hd]⟩
        | ub => simp [Refines]
        | ok h =>
          simp only [Outcome.bind_ok]
          cases hq : dwt2 signal w h with
          | throw => exact ⟨c, rfl, by simp [set_self_eq hd]⟩
          | ub => simp [Refines]
          | ok q =>
            simp only [Outcome.bind_ok, Run.lift_ok, Run.bind_ok]
            refine ⟨by simp [hk], ?_⟩
            rw [hk] at hc ⊢
            rw [Nat.add_zero, setSub_ok _ hd (by omega), Run.bind_ok,
              setSub_ok _ (getElem?_set_self' _ hd) (by rw [length_splice (by simp; omega)]; omega), Run.bind_ok,
              set_set', setSub_ok _ (getElem?_set_self' _ hd)
                (by
                  have l1 : (splice c (step * 3) [den.d2 q.lh step]).length = c.length :=
                    length_splice (by simp; omega)
                  rw [length_splice (by rw [l1]; simp; omega), l1]; omega),
              Run.bind_ok, set_set']
            have e1 := splice_splice (c := c) (pos := step * 3) (a := [den.d2 q.lh step]) (b := [den.d2 q.hl step])
              (by simp; omega)
            simp only [List.length_cons, List.length_nil, Nat.zero_add, List.cons_append, List.nil_append] at e1
            have e2 := splice_splice (c := c) (pos := step * 3) (a := [den.d2 q.lh step, den.d2 q.hl step])
              (b := [den.d2 q.hh step]) (by simp; omega)
            simp only [List.length_cons, List.length_nil, Nat.zero_add, List.cons_append, List.nil_append] at e2
            rw [e1, e2]

theorem steps_refines (p : Params) (stack : Stack α) (f : Filters α) (den : Denoiser α) (ch rem : ℕ) (signal : Mat α)
    (d : Decs α) (c : Channel α) (hd : d[ch]? = some c) (hrem : rem ≤ p.steps)
    (hc : p.steps * subbandsPerWT p ≤ c.length) :
    Refines d ch c ((p.steps - rem) * subbandsPerWT p) (rem * subbandsPerWT p)
      (decomposeSteps p stack f den ch rem d signal) (stepsO p stack f den rem signal) := by
  induction rem generalizing signal d c with
  | zero => exact ⟨by simp, by simp [decomposeSteps, set_self_eq hd]⟩
  | succ rem ih =>
    have hfit : (p.steps - (rem + 1)) * subbandsPerWT p + subbandsPerWT p = (p.steps - rem) * subbandsPerWT p := by
      rw [← Nat.succ_mul]; congr 1; omega
    have hle : (p.steps - rem) * subbandsPerWT p + rem * subbandsPerWT p = p.steps * subbandsPerWT p := by
      rw [← Nat.add_mul]; congr 1; omega
    have h1 := oneStep_refines p stack f den (p.steps - (rem + 1)) signal d ch c hd (by omega)
    simp only [decomposeSteps, stepsO]
    cases ho : stepO p stack f den (p.steps - (rem + 1)) signal with
    | throw =>
      rw [ho] at h1
      obtain ⟨c', hc', hr⟩ := h1
      rw [hr]
      exact ⟨c', hc', rfl⟩
    | ub =>
      rw [ho] at h1
      have hr : _ = Run.ub := h1
      rw [hr]
      rfl
    | ok r =>
      rw [ho] at h1
      obtain ⟨hlen, hr⟩ := h1
      rw [hr, Run.bind_ok, Outcome.bind_ok]
      have hlen' : (splice c ((p.steps - (rem + 1)) * subbandsPerWT p) r.1).length = c.length :=
        length_splice (by omega)
      have h2 := ih r.2 (d.set ch (splice c ((p.steps - (rem + 1)) * subbandsPerWT p) r.1)) _
        (getElem?_set_self' _ hd) (by omega) (by omega)
      cases hs : stepsO p stack f den rem r.2 with
      | throw =>
        rw [hs] at h2
        obtain ⟨c', hc', hr'⟩ := h2
        exact ⟨c', by omega, by rw [hr', set_set']⟩
      | ub =>
        rw [hs] at h2
        exact h2
      | ok q =>
        rw [hs] at h2
        obtain ⟨hl2, hr'⟩ := h2
        refine ⟨by simp [hlen, hl2, Nat.succ_mul]; omega, ?_⟩
        rw [hr', set_set']
        congr 2
        have := splice_splice (c := c) (pos := (p.steps - (rem + 1)) * subbandsPerWT p) (a := r.1) (b := q.1)
          (by omega)
        rw [← this]
        congr 1
        omega

theorem stepO_length {p : Params} {stack : Stack α} {f : Filters α} {den : Denoiser α} {step : ℕ} {s : Mat α}
    {r : List (Mat α) × Mat α} (h : stepO p stack f den step s = .ok r) : r.1.length = subbandsPerWT p := by
  have h1 := oneStep_refines p stack f den step s [List.replicate (step * subbandsPerWT p + subbandsPerWT p) Mat.empty] 0
    _ rfl (by simp)
  rw [h] at h1
  exact h1.1

theorem stepsO_length {p : Params} {stack : Stack α} {f : Filters α} {den : Denoiser α} {rem : ℕ} {s : Mat α}
    {r : List (Mat α) × Mat α} (h : stepsO p stack f den rem s = .ok r) : r.1.length = rem * subbandsPerWT p := by
  induction rem generalizing s r with
  | zero => cases h; simp
  | succ rem ih =>
    simp only [stepsO] at h
    cases h1 : stepO p stack f den (p.steps - (rem + 1)) s with
    | throw => rw [h1] at h; cases h
    | ub => rw [h1] at h; cases h
    | ok q =>
      rw [h1, Outcome.bind_ok] at h
      cases h2 : stepsO p stack f den rem q.2 with
      | throw => rw [h2] at h; cases h
      | ub => rw [h2] at h; cases h
      | ok q' =>
        rw [h2, Outcome.bind_ok] at h
        cases h
        simp [stepO_length h1, ih h2, Nat.succ_mul]; omega

theorem chanO_length {p : Params} {stack : Stack α} {f : Filters α} {den : Denoiser α} {m : Mat α} {c : Channel α}
    (h : chanO p stack f den m = .ok c) : c.length = decompositionSize p := by
  unfold chanO at h
  cases h1 : addPadding m (paddedShape p) with
  | throw => rw [h1] at h; cases h
  | ub => rw [h1] at h; cases h
  | ok s =>
    rw [h1, Outcome.bind_ok] at h
    cases h2 : stepsO p stack f den p.steps s with
    | throw => rw [h2] at h; cases h
    | ub => rw [h2] at h; cases h
    | ok r =>
      rw [h2, Outcome.bind_ok] at h
      cases h
      simp [stepsO_length h2, decompositionSize]

/-- Every channel has the prescribed number of subbands. -/
def ChanLayout (p : Params) (d : Decs α) : Prop := ∀ c ∈ d, c.length = decompositionSize p

/-- Old and new store agree outside the channels `start, ..., start + n - 1` and have the same layout. -/
def Framed (p : Params) (d : Decs α) (start n : ℕ) (d' : Decs α) : Prop :=
  ∃ cs : Decs α, cs.length = n ∧ ChanLayout p cs ∧ d' = splice d start cs

/-- How the run over channels relates to the functional one. -/
def RefinesAll (p : Params) (d : Decs α) (start n : ℕ) (r : Run (Decs α) Bool) (o : Outcome (List (Channel α))) : Prop :=
  match o with
  | .ok cs => cs.length = n ∧ ChanLayout p cs ∧ r = .ok (splice d start cs) true
  | .throw => ∃ d', Framed p d start n d' ∧ r = .throw d'
  | .ub => r = .ub

theorem framed_refl {p : Params} {d : Decs α} {start n : ℕ} (hl : ChanLayout p d) (hn : start + n ≤ d.length) :
    Framed p d start n d := by
  refine ⟨(d.drop start).take n, by simp; omega, ?_, ?_⟩
  · intro c hc
    exact hl c (List.mem_of_mem_drop (List.mem_of_mem_take hc))
  · unfold splice
    have : ((d.drop start).take n).length = n := by simp; omega
    rw [this, List.append_assoc]
    conv_lhs => rw [← List.take_append_drop start d]
    congr 1
    conv_lhs => rw [← List.take_append_drop n (d.drop start)]
    rw [List.drop_drop]

theorem framed_set {p : Params} {d : Decs α} {start n : ℕ} {c : Channel α} (hl : ChanLayout p d)
    (hc : c.length = decompositionSize p) (hn : start + (n + 1) ≤ d.length) :
    Framed p d start (n + 1) (d.set start c) := by
  rw [set_eq_splice c (by omega)]
  refine ⟨c :: (d.drop (start + 1)).take n, by simp; omega, ?_, ?_⟩
  · intro c' hc'
    rcases List.mem_cons.1 hc' with rfl | h
    · exact hc
    · exact hl c' (List.mem_of_mem_drop (List.mem_of_mem_take h))
  · unfold splice
    have : (c :: (d.drop (start + 1)).take n).length = n + 1 := by simp; omega
    rw [this]
    have e : d.drop (start + 1) = (d.drop (start + 1)).take n ++ d.drop (start + (n + 1)) := by
      conv_lhs => rw [← List.take_append_drop n (d.drop (start + 1))]
      rw [List.drop_drop, Nat.add_assoc, Nat.add_comm 1 n]
    simp only [List.length_singleton, List.append_assoc, List.cons_append, List.nil_append]
    rw [← e]

theorem channels_refines (p : Params) (stack : Stack α) (f : Filters α) (den : Denoiser α) (data : List (Mat α))
    (start i n : ℕ) (d : Decs α) (hl : ChanLayout p d) (hn : start + i + n ≤ d.length) :
    RefinesAll p d (start + i) n
      (decomposeChannels p stack f den data start (List.range' (start + i) n) d)
      ((List.range' i n).mapM (fun j => rd data j >>= chanO p stack f den)) := by
  induction n generalizing i d with
  | zero =>
    show RefinesAll p d (start + i) 0 (.ok d true) (.ok [])
    refine ⟨rfl, (?_ : ChanLayout p []), (by simp : Run.ok d true = .ok (splice d (start + i) []) true)⟩
    intro c hc; cases hc
  | succ n ih =>
    rw [List.range'_succ, List.range'_succ, List.mapM_cons]
    simp only [decomposeChannels, Nat.add_sub_cancel_left]
    cases h0 : rd data i with
    | throw =>
      exact ⟨d, framed_refl hl hn, by simp⟩
    | ub => simp [RefinesAll]
    | ok m =>
      simp only [Outcome.bind_ok, chanO]
      cases h1 : addPadding m (paddedShape p) with
      | throw => exact ⟨d, framed_refl hl hn, by simp⟩
      | ub => simp [RefinesAll]
      | ok s =>
        simp only [Outcome.bind_ok, Run.lift_ok, Run.bind_ok]
        have hlt : start + i < d.length := by omega
        have hd : d[start + i]? = some d[start + i] := List.getElem?_eq_getElem hlt
        have hcl : (d[start + i]).length = decompositionSize p := hl _ (List.getElem_mem hlt)
        have href := steps_refines p stack f den (start + i) p.steps s d _ hd le_rfl (by rw [hcl]; unfold decompositionSize; omega)
        cases h2 : stepsO p stack f den p.steps s with
        | throw =>
          rw [h2] at href
          obtain ⟨c', hc', hr⟩ := href
          rw [hr]
          exact ⟨_, framed_set hl (by omega) (by omega), rfl⟩
        | ub =>
          rw [h2] at href
          have hr : _ = Run.ub := href
          rw [hr]; rfl
        | ok r =>
          rw [h2] at href
          obtain ⟨hlen, hr⟩ := href
          rw [hr, Run.bind_ok]
          simp only [Nat.sub_self, Nat.zero_mul]
          have hlen2 : (splice d[start + i] 0 r.1).length = decompositionSize p := by
            rw [length_splice (by rw [hcl, hlen]; unfold decompositionSize; omega), hcl]
          rw [setSub_ok _ (getElem?_set_self' _ hd) (by rw [hlen2]; unfold decompositionSize; omega), Run.bind_ok, set_set']
          have hfull : splice (splice d[start + i] 0 r.1) (p.steps * subbandsPerWT p) [r.2] = r.1 ++ [r.2] := by
            have := splice_splice (c := d[start + i]) (pos := 0) (a := r.1) (b := [r.2])
              (by rw [hcl, hlen]; simp [decompositionSize])
            rw [Nat.zero_add, hlen] at this
            rw [this, splice_zero_full]
            rw [hcl]; simp [hlen, decompositionSize]
          rw [hfull]
          have hcl' : (r.1 ++ [r.2]).length = decompositionSize p := by simp [hlen, decompositionSize]
          have hl' : ChanLayout p (d.set (start + i) (r.1 ++ [r.2])) := by
            intro c hc
            rcases List.mem_or_eq_of_mem_set hc with h | h
            · exact hl c h
            · rw [h]; exact hcl'
          have hrest := ih (i + 1) (d.set (start + i) (r.1 ++ [r.2])) hl' (by simp; omega)
          simp only [Outcome.bind_ok, Outcome.pure_eq]
          rw [← Nat.add_assoc] at hrest
          cases h3 : (List.range' (i + 1) n).mapM (fun j => rd data j >>= chanO p stack f den) with
          | throw =>
            rw [h3] at hrest
            obtain ⟨d', ⟨cs, hcs, hcl3, hd'⟩, hr'⟩ := hrest
            rw [hr']
            refine ⟨d', ⟨(r.1 ++ [r.2]) :: cs, by simp [hcs], ?_, ?_⟩, ?_⟩
            · intro c hc
              rcases List.mem_cons.1 hc with rfl | h
              · exact hcl'
              · exact hcl3 c h
            · rw [hd', set_eq_splice _ (by omega)]
              have := splice_splice (c := d) (pos := start + i) (a := [r.1 ++ [r.2]]) (b := cs) (by simp; omega)
              simpa using this
            · rfl
          | ub =>
            rw [h3] at hrest
            have hr' : _ = Run.ub := hrest
            rw [hr']; rfl
          | ok cs =>
            rw [h3] at hrest
            obtain ⟨hcs, hcl3, hr'⟩ := hrest
            rw [hr']
            refine ⟨by simp [hcs], ?_, ?_⟩
            · intro c hc
              rcases List.mem_cons.1 hc with rfl | h
              · exact hcl'
              · exact hcl3 c h
            · rw [set_eq_splice _ (by omega)]
              have := splice_splice (c := d) (pos := start + i) (a := [r.1 ++ [r.2]]) (b := cs) (by simp; omega)
              simp only [List.length_singleton, List.singleton_append] at this
              rw [this]

end Poly

end WB
