import Verif.Spec.Callback
import Verif.Proof.Bridge

/-! Decomposition with a denoiser that has a state. -/

set_option linter.unusedSectionVars false

namespace WB

open Spec

variable {α σ : Type}

/-- A run beside a state that it does not touch. -/
def beside {β : Type} (s : σ) (r : Run (Decs α) β) : Run (σ × Decs α) β :=
  match r with
  | .ok d x => .ok (s, d) x
  | .throw d => .throw (s, d)
  | .ub => .ub

theorem beside_bind {β γ : Type} (s : σ) (r : Run (Decs α) β) (f : Decs α → β → Run (Decs α) γ)
    (g : σ × Decs α → β → Run (σ × Decs α) γ) (h : ∀ d x, g (s, d) x = beside s (f d x)) :
    (beside s r).bind g = beside s (r.bind f) := by
  cases r with
  | ok d x => exact h d x
  | throw d => rfl
  | ub => rfl

theorem lift_beside {β : Type} (s : σ) (d : Decs α) (o : Outcome β) : Run.lift (s, d) o = beside s (Run.lift d o) := by
  cases o <;> rfl

theorem putSub_beside (s : σ) (d : Decs α) (ch idx : ℕ) (m : Mat α) : putSub (s, d) ch idx m = beside s (setSub d ch idx m) := by
  unfold putSub
  cases h : setSub d ch idx m <;> simp only [h] <;> rfl

section
variable [Zero α] [Add α] [Mul α] [Neg α] [Inhabited α]

theorem step1_pure (s : σ) (d : Decs α) (ch dest : ℕ) (den : Denoiser α) (lo hi : List α) (m : Mat α) (step : ℕ) :
    oneSideStep1DWith (s, d) ch dest (Callback.of den) lo hi m step = beside s (oneSideStep1D d ch dest den lo hi m step) := by
  unfold oneSideStep1DWith oneSideStep1D
  rw [lift_beside]
  apply beside_bind
  intro d r
  simp only [Callback.of, called, Run.bind_ok]
  by_cases h : (den.d1 r.2 step).length = r.2.length
  · rw [if_neg (by simpa using h), if_neg (by simpa using h), putSub_beside]
    exact beside_bind _ _ _ _ fun _ _ => rfl
  · rw [if_pos h, if_pos h]; rfl

theorem step2_pure (s : σ) (d : Decs α) (ch dest : ℕ) (den : Denoiser α) (mats : List (SpMat α)) (m : Mat α) (step : ℕ) :
    oneSideStep2DWith (s, d) ch dest (Callback.of den) mats m step = beside s (oneSideStep2D d ch dest den mats m step) := by
  unfold oneSideStep2DWith oneSideStep2D
  rw [lift_beside]
  apply beside_bind
  intro d r
  simp only [Callback.of, called, Run.bind_ok]
  rw [putSub_beside]
  apply beside_bind
  intro d _
  simp only [Run.bind_ok]
  rw [putSub_beside]
  apply beside_bind
  intro d _
  simp only [Run.bind_ok]
  rw [putSub_beside]
  exact beside_bind _ _ _ _ fun _ _ => rfl

theorem steps_pure (p : Params) (stack : Stack α) (f : Filters α) (den : Denoiser α) (ch rem : ℕ) (s : σ) (d : Decs α) (m : Mat α) :
    decomposeStepsWith p stack f (Callback.of den) ch rem (s, d) m = beside s (decomposeSteps p stack f den ch rem d m) := by
  induction rem generalizing d m with
  | zero => rfl
  | succ rem ih =>
    simp only [decomposeStepsWith, decomposeSteps]
    by_cases hd : p.dimension = 1
    · rw [if_pos hd, if_pos hd, step1_pure]
      exact beside_bind _ _ _ _ fun d x => ih d x
    · rw [if_neg hd, if_neg hd, lift_beside]
      rw [beside_bind _ _ _ _ fun d x => step2_pure s d ch _ den x m _]
      exact beside_bind _ _ _ _ fun d x => ih d x

theorem channels_pure (p : Params) (stack : Stack α) (f : Filters α) (den : Denoiser α) (data : List (Mat α)) (start : ℕ) (chs : List ℕ)
    (s : σ) (d : Decs α) :
    decomposeChannelsWith p stack f (Callback.of den) data start chs (s, d) = beside s (decomposeChannels p stack f den data start chs d) := by
  induction chs generalizing d with
  | nil => rfl
  | cons ch chs ih =>
    simp only [decomposeChannelsWith, decomposeChannels]
    rw [lift_beside]
    apply beside_bind
    intro d x
    rw [steps_pure]
    apply beside_bind
    intro d x
    rw [putSub_beside]
    exact beside_bind _ _ _ _ fun d _ => ih d

theorem impl_pure (k : Kit α) (gs : Outcome (Stack α)) (p : Params) (s : σ) (d : Decs α) (data : List (Mat α)) (den : Denoiser α)
    (start count : ℤ) :
    decomposeImplWith k gs p (s, d) data (Callback.of den) start count = beside s (decomposeImpl k gs p d data den start count) := by
  unfold decomposeImplWith decomposeImpl
  rw [lift_beside]
  apply beside_bind
  intro d good
  cases good
  · rfl
  · simp only [if_true]
    rw [lift_beside]
    exact beside_bind _ _ _ _ fun d x => channels_pure ..

/-! ### conversations -/

theorem converse_append (ask : σ → Mat α → ℕ → σ × Outcome (Mat α)) (s : σ) (a b : List (Mat α × ℕ)) :
    converse ask s (a ++ b) = match converse ask s a with
      | (s', o, .ok _) => ((converse ask s' b).1, o ++ (converse ask s' b).2.1, (converse ask s' b).2.2)
      | r => r := by
  induction a generalizing s with
  | nil => simp [converse]
  | cons x a ih =>
    obtain ⟨m, step⟩ := x
    simp only [List.cons_append, converse]
    rcases h : ask s m step with ⟨s', o⟩
    cases o with
    | throw => rfl
    | ub => rfl
    | ok m' =>
      simp only [ih]
      rcases h2 : converse ask s' a with ⟨s2, o2, r2⟩
      cases r2 <;> simp

theorem converse_length (ask : σ → Mat α → ℕ → σ × Outcome (Mat α)) (s : σ) (a : List (Mat α × ℕ)) :
    ((converse ask s a).2.2 = .ok () → (converse ask s a).2.1.length = a.length) ∧
    ((converse ask s a).2.2 ≠ .ok () → (converse ask s a).2.1.length < a.length) := by
  induction a generalizing s with
  | nil => simp [converse]
  | cons x a ih =>
    obtain ⟨m, step⟩ := x
    simp only [converse]
    rcases h : ask s m step with ⟨s', o⟩
    cases o with
    | throw => simp
    | ub => simp
    | ok m' => simpa using ih s'

/-- A run that has had a conversation, stored its answers and returned `x`. -/
def told {β : Type} (r : σ × List (Mat α) × Outcome Unit) (store : List (Mat α) → Decs α) (x : β) : Run (σ × Decs α) β :=
  match r.2.2 with
  | .ok _ => .ok (r.1, store r.2.1) x
  | .throw => .throw (r.1, store r.2.1)
  | .ub => .ub

/-- One conversation after the other. -/
theorem told_bind {β γ : Type} (ask : σ → Mat α → ℕ → σ × Outcome (Mat α)) (s : σ) (a b : List (Mat α × ℕ))
    (st1 st2 : List (Mat α) → Decs α) (x : β) (y : γ) (f : σ × Decs α → β → Run (σ × Decs α) γ)
    (h1 : ∀ o, o.length < a.length → st1 o = st2 o)
    (h2 : ∀ s' o, o.length = a.length → f (s', st1 o) x = told (converse ask s' b) (fun o' => st2 (o ++ o')) y) :
    (told (converse ask s a) st1 x).bind f = told (converse ask s (a ++ b)) st2 y := by
  rw [converse_append]
  have hl := converse_length ask s a
  rcases h : converse ask s a with ⟨s', o, r⟩
  rw [h] at hl
  cases r with
  | ok u => 
    have := h2 s' o (hl.1 rfl)
    simp only [told, Run.bind_ok]
    rw [this]
    rfl
  | throw =>
    have := h1 o (hl.2 (by simp))
    simp only [told, Run.bind_throw]
    rw [this]
  | ub => rfl

/-- One call in 2D and the store of its answer. -/
theorem ask2_put (p : Params) (cb : Callback σ α) (hd : p.dimension ≠ 1) (s : σ) (d : Decs α) (ch : ℕ) (c : Channel α) (pos : ℕ)
    (hc : d[ch]? = some c) (hpos : pos < c.length) (m : Mat α) (step : ℕ) :
    ((called (s, d) (cb.d2 s m step)).bind fun st m => putSub st ch pos m) =
      told (converse (answer p cb) s [(m, step)]) (fun o => d.set ch (splice c pos o)) () := by
  simp only [converse, answer, if_neg hd]
  rcases h : cb.d2 s m step with ⟨s', o⟩
  cases o with
  | ok m' =>
    simp only [called, Run.bind_ok, told, putSub]
    rw [setSub_ok _ hc hpos]
  | throw => simp [called, told, set_self_eq hc]
  | ub => rfl

theorem step_with {k : Kit α} {p : Params} (hv : ValidParams p) (hf : FilterLen k p) (ht : p.wtype ≠ 0) (cb : Callback σ α) {t : ℕ}
    (hs : t < p.steps) {m : Mat α} (hm : Fits p t m) (stack : Stack α) (hst : p.dimension ≠ 1 → stack = stackP p (scaling k p))
    (s : σ) (d : Decs α) (ch : ℕ) (c : Channel α) (hc : d[ch]? = some c) (hlen : t * subbandsPerWT p + subbandsPerWT p ≤ c.length) :
    (if p.dimension = 1 then
        oneSideStep1DWith (s, d) ch (t * subbandsPerWT p) cb (filters1D k p).loD.reverse (filters1D k p).hiD.reverse m t
      else
        (Run.lift (s, d) (rd stack t)).bind fun st mats => oneSideStep2DWith st ch (t * subbandsPerWT p) cb mats m t) =
      told (converse (answer p cb) s ((detailStep p (scaling k p) nullDenoiser t m).map fun x => (x, t)))
        (fun o => d.set ch (splice c (t * subbandsPerWT p) o)) (approxStep p (scaling k p) m) := by
  rcases fits_halves hv ht hs hm with ⟨hd, n2, h1, h2, h3, h4⟩ | ⟨hd, sh, sw, h1, h2, h3, h4, h5, h6, h7⟩
  · have hw : subbandsPerWT p = 1 := by
      unfold subbandsPerWT; rw [hd]; rfl
    rw [if_pos hd]
    unfold oneSideStep1DWith detailStep approxStep
    rw [if_pos hd, if_pos hd, filters1D_eq ht]
    simp only [List.reverse_reverse]
    unfold column0
    rw [if_neg (by omega), Outcome.bind_ok,
      dwt_ok (by simp [length_scaling hf ht, h1]; omega) (by simp [length_scaling hf ht, h1]; omega), Run.lift_ok, Run.bind_ok]
    simp only [List.map_cons, List.map_nil, converse, answer, if_pos hd, nullDenoiser]
    have e1 : ∀ v : List α, (Mat.ofCol v).col 0 = v := Mat.col_ofCol
    have e2 : ∀ v : List α, (Mat.ofCol v).rows = v.length := fun v => by simp
    rw [e1, e2]
    have e3 : (m.col 0).length = m.rows := by simp
    rw [e3]
    rcases hq : cb.d1 s ((List.range (m.rows / 2)).map (anaP (m.col 0) (qmf (scaling k p)))) t with ⟨s', o⟩
    cases o with
    | throw => simp [called, told, set_self_eq hc]
    | ub => rfl
    | ok v =>
      simp only [called, Run.bind_ok]
      by_cases hl : v.length = ((List.range (m.rows / 2)).map (anaP (m.col 0) (qmf (scaling k p)))).length
      · rw [if_neg (by simpa using hl), if_pos hl]
        simp only [told, putSub]
        rw [setSub_ok _ hc (by omega)]
        simp
      · rw [if_pos hl, if_neg hl]
        simp [told, set_self_eq hc]
  · have hd1 : p.dimension ≠ 1 := by omega
    have hw : subbandsPerWT p = 3 := by
      unfold subbandsPerWT; rw [hd]; rfl
    rw [if_neg hd1, hst hd1]
    have hst : rd (stackP p (scaling k p)) t =
        .ok [daubP (scaling k p) (qmf (scaling k p)) (2 * sw), daubP (scaling k p) (qmf (scaling k p)) (2 * sh)] := by
      unfold stackP
      rw [rd_ok (by simpa using hs)]
      congr 1
      simp only [List.getElem_map, List.getElem_range]
      have : (paddedShape p).map (fun n => daubP (scaling k p) (qmf (scaling k p)) (n / 2 ^ t)) =
          ((paddedShape p).map (fun n => n / 2 ^ t)).map (fun n => daubP (scaling k p) (qmf (scaling k p)) n) := by
        rw [List.map_map]; rfl
      rw [this, h7]; rfl
    rw [hst, Run.lift_ok, Run.bind_ok]
    unfold oneSideStep2DWith detailStep approxStep
    simp only [rd, List.getElem?_cons_zero, List.getElem?_cons_succ, Outcome.bind_ok]
    rw [dwt2_quadOf hf ht h1 h2 h3 h4, Run.lift_ok, Run.bind_ok, if_neg hd1, if_neg hd1]
    generalize quadOf (scaling k p) m = q
    simp only [nullDenoiser, List.map_cons, List.map_nil]
    rw [hw] at hlen ⊢
    have assoc : ∀ {β γ : Type} (r : Run (σ × Decs α) β) (g : σ × Decs α → β → Run (σ × Decs α) Unit) (f : σ × Decs α → Unit → Run (σ × Decs α) γ),
        (r.bind fun st x => (g st x).bind f) = (r.bind g).bind f := by
      intro β γ r g f; cases r <;> rfl
    rw [assoc, ask2_put p cb hd1 s d ch c _ hc (by omega)]
    refine told_bind (answer p cb) s [(q.lh, t)] [(q.hl, t), (q.hh, t)] _ _ () q.ll _ ?_ ?_
    · intro o ho
      rfl
    · intro s1 o1 ho1
      obtain ⟨m1, rfl⟩ := List.length_eq_one_iff.1 ho1
      rw [assoc, ask2_put p cb hd1 s1 _ ch (splice c (t * 3 + 0) [m1]) _ (getElem?_set_self' _ hc)
        (by rw [length_splice (by simp; omega)]; omega)]
      refine told_bind (answer p cb) s1 [(q.hl, t)] [(q.hh, t)] _ _ () q.ll _ ?_ ?_
      · intro o ho
        have : o = [] := by simpa using ho
        subst this
        simp
      · intro s2 o2 ho2
        obtain ⟨m2, rfl⟩ := List.length_eq_one_iff.1 ho2
        have l1 : (splice c (t * 3 + 0) [m1]).length = c.length := length_splice (by simp; omega)
        have e1 : splice (splice c (t * 3 + 0) [m1]) (t * 3 + 1) [m2] = splice c (t * 3) [m1, m2] :=
          splice_splice (c := c) (pos := t * 3) (a := [m1]) (b := [m2]) (by simp; omega)
        have l2 : (splice c (t * 3) [m1, m2]).length = c.length := length_splice (by simp; omega)
        rw [assoc, ask2_put p cb hd1 s2 _ ch _ _ (getElem?_set_self' _ (getElem?_set_self' _ hc)) (by rw [e1, l2]; omega), e1]
        simp only [List.set_set]
        have := told_bind (answer p cb) s2 [(q.hh, t)] [] (fun o => d.set ch (splice (splice c (t * 3) [m1, m2]) (t * 3 + 2) o))
          (fun o => d.set ch (splice c (t * 3) ([m1] ++ ([m2] ++ o)))) () q.ll (fun st _ => .ok st q.ll) ?_ ?_
        · rw [this]; rfl
        · intro o ho
          have : o = [] := by simpa using ho
          subst this
          simp
        · intro s3 o3 ho3
          obtain ⟨m3, rfl⟩ := List.length_eq_one_iff.1 ho3
          have e2 : splice (splice c (t * 3) [m1, m2]) (t * 3 + 2) [m3] = splice c (t * 3) [m1, m2, m3] :=
            splice_splice (c := c) (pos := t * 3) (a := [m1, m2]) (b := [m3]) (by simp; omega)
          simp [told, converse, e2]

theorem length_rawStep (p : Params) (h : List α) (den : Denoiser α) (t : ℕ) (m : Mat α) :
    (detailStep p h den t m).length = subbandsPerWT p := by
  unfold detailStep subbandsPerWT Params.dimension
  split_ifs <;> rfl

/-- The questions about the details of the steps from `t` on. -/
def asks (p : Params) (h : List α) (m : Mat α) (t n : ℕ) : List (Mat α × ℕ) :=
  (List.range' t n).flatMap fun s => (detailStep p h nullDenoiser s (sig p h m s)).map fun x => (x, s)

theorem steps_with {k : Kit α} {p : Params} (hv : ValidParams p) (hf : FilterLen k p) (cb : Callback σ α) {m : Mat α} (hm : Fits p 0 m)
    (stack : Stack α) (hst : p.dimension ≠ 1 → stack = stackP p (scaling k p)) (ch rem : ℕ) (hrem : rem ≤ p.steps)
    (s : σ) (d : Decs α) (c : Channel α) (hc : d[ch]? = some c) (hlen : p.steps * subbandsPerWT p ≤ c.length) :
    decomposeStepsWith p stack (filters1D k p) cb ch rem (s, d) (sig p (scaling k p) m (p.steps - rem)) =
      told (converse (answer p cb) s (asks p (scaling k p) m (p.steps - rem) rem))
        (fun o => d.set ch (splice c ((p.steps - rem) * subbandsPerWT p) o)) (sig p (scaling k p) m p.steps) := by
  induction rem generalizing s d c with
  | zero => simp [decomposeStepsWith, asks, converse, told, set_self_eq hc]
  | succ rem ih =>
    have ht : p.wtype ≠ 0 := by
      intro h0; have := hv.2.2; rw [if_pos h0] at this; omega
    have hlt : p.steps - (rem + 1) < p.steps := by omega
    have hmul := Nat.mul_le_mul_right (subbandsPerWT p) (Nat.succ_le_of_lt hlt)
    rw [Nat.succ_mul] at hmul
    simp only [decomposeStepsWith]
    rw [step_with hv hf ht cb hlt (fits_sig hv hm (by omega)) stack hst s d ch c hc (by omega)]
    have hn : p.steps - rem = (p.steps - (rem + 1)) + 1 := by omega
    have hask : asks p (scaling k p) m (p.steps - (rem + 1)) (rem + 1) =
        ((detailStep p (scaling k p) nullDenoiser (p.steps - (rem + 1)) (sig p (scaling k p) m (p.steps - (rem + 1)))).map
          fun x => (x, p.steps - (rem + 1))) ++ asks p (scaling k p) m (p.steps - rem) rem := by
      unfold asks; rw [List.range'_succ, List.flatMap_cons, hn]
    rw [hask]
    have hs : sig p (scaling k p) m (p.steps - rem) = approxStep p (scaling k p) (sig p (scaling k p) m (p.steps - (rem + 1))) := by
      rw [hn]; rfl
    rw [← hs]
    apply told_bind
    · intro o _; rfl
    · intro s' o ho
      rw [List.length_map, length_rawStep] at ho
      rw [ih (by omega) s' _ _ (getElem?_set_self' _ hc) (by rw [length_splice (by omega)]; omega)]
      have hal : (asks p (scaling k p) m (p.steps - rem) rem).length = rem * subbandsPerWT p := by
        simp [asks, List.length_flatMap, length_rawStep, Function.comp_def]
      have hcl := converse_length (answer p cb) s' (asks p (scaling k p) m (p.steps - rem) rem)
      have hle : (converse (answer p cb) s' (asks p (scaling k p) m (p.steps - rem) rem)).2.1.length ≤ rem * subbandsPerWT p := by
        by_cases h : (converse (answer p cb) s' (asks p (scaling k p) m (p.steps - rem) rem)).2.2 = .ok ()
        · exact (hcl.1 h).trans_le hal.le
        · exact ((hcl.2 h).trans_eq hal).le
      have htot : (p.steps - (rem + 1)) * subbandsPerWT p + subbandsPerWT p + rem * subbandsPerWT p = p.steps * subbandsPerWT p := by
        rw [← Nat.succ_mul, ← Nat.add_mul]; congr 1; omega
      have key := splice_splice (c := c) (pos := (p.steps - (rem + 1)) * subbandsPerWT p) (a := o)
        (b := (converse (answer p cb) s' (asks p (scaling k p) m (p.steps - rem) rem)).2.1) (by omega)
      rw [ho, ← Nat.succ_mul, Nat.succ_eq_add_one, ← hn] at key
      unfold told
      simp only [List.set_set, key]

/-- The subbands after the conversations about the channels from `ch` on. -/
def store (N : ℕ) : List (Mat α) → ℕ → Decs α → List (Mat α) → Decs α
  | [], _, d, _ => d
  | a :: as, ch, d, o => if N ≤ o.length then store N as (ch + 1) (d.set ch (o.take N ++ [a])) (o.drop N)
      else d.set ch (splice (d.getD ch []) 0 o)

theorem length_asks (p : Params) (h : List α) (m : Mat α) (t n : ℕ) : (asks p h m t n).length = n * subbandsPerWT p := by
  simp [asks, List.length_flatMap, length_rawStep, Function.comp_def]

theorem store_nil (N : ℕ) (as : List (Mat α)) (ch : ℕ) (d : Decs α) (hN : 0 < N) : store N as ch d [] = d := by
  cases as with
  | nil => rfl
  | cons a as =>
    have : ¬ N ≤ ([] : List (Mat α)).length := by simp; omega
    rw [store, if_neg this, splice_nil]
    apply List.ext_getElem?
    intro i
    rw [List.getElem?_set]
    split_ifs with h1 h2
    · subst h1; simp [List.getD, h2]
    · subst h1; simp; omega
    · rfl

theorem channels_with {k : Kit α} {p : Params} (hv : ValidParams p) (hf : FilterLen k p) (cb : Callback σ α) {data : List (Mat α)}
    (hs : ∀ m ∈ data, Shaped p m) (stack : Stack α) (hst : p.dimension ≠ 1 → stack = stackP p (scaling k p)) (start : ℕ)
    (n j : ℕ) (hj : j + n = data.length) (s : σ) (d : Decs α) (hl : ChanLayout p d) (hfit : start + data.length ≤ d.length) :
    decomposeChannelsWith p stack (filters1D k p) cb data start (List.range' (start + j) n) (s, d) =
      told (converse (answer p cb) s ((data.drop j).flatMap fun m => asks p (scaling k p) (padOf p m) 0 p.steps))
        (store (p.steps * subbandsPerWT p) ((data.drop j).map fun m => sig p (scaling k p) (padOf p m) p.steps) (start + j) d) true := by
  induction n generalizing j s d with
  | zero =>
    rw [List.drop_eq_nil_of_le (by omega)]
    rfl
  | succ n ih =>
    have hjl : j < data.length := by omega
    rw [List.drop_eq_getElem_cons hjl, List.range'_succ]
    simp only [decomposeChannelsWith, List.flatMap_cons, List.map_cons]
    have hsh := hs _ (List.getElem_mem hjl)
    rw [Nat.add_sub_cancel_left, rd_ok hjl, Outcome.bind_ok, addPadding_ok hv hsh, Run.lift_ok, Run.bind_ok]
    have hch : start + j < d.length := by omega
    have hc : d[start + j]? = some d[start + j] := List.getElem?_eq_getElem hch
    have hcl : d[start + j].length = p.steps * subbandsPerWT p + 1 := hl _ (List.getElem_mem hch)
    have h0 := steps_with hv hf cb (fits_padOf hv hsh) stack hst (start + j) p.steps le_rfl s d _ hc (by omega)
    rw [Nat.sub_self, Nat.zero_mul] at h0
    have e0 : sig p (scaling k p) (padOf p data[j]) 0 = padOf p data[j] := rfl
    rw [e0] at h0
    rw [h0]
    have hgd : d.getD (start + j) [] = d[start + j] := by simp [List.getD, hch]
    apply told_bind
    · intro o ho
      rw [length_asks] at ho
      rw [store, if_neg (by omega), hgd]
    · intro s' o ho
      rw [length_asks] at ho
      have e1 : splice d[start + j] 0 o = o ++ d[start + j].drop o.length := by simp [splice]
      simp only [putSub]
      rw [setSub_ok _ (getElem?_set_self' _ hc) (by rw [length_splice (by omega)]; omega)]
      simp only [Run.bind_ok, List.set_set]
      have e2 := splice_splice (c := d[start + j]) (pos := 0) (a := o) (b := [sig p (scaling k p) (padOf p data[j]) p.steps]) (by simp; omega)
      rw [Nat.zero_add, ho] at e2
      rw [e2, splice_zero_full (by simp; omega)]
      have hl' : ChanLayout p (d.set (start + j) (o ++ [sig p (scaling k p) (padOf p data[j]) p.steps])) := by
        intro c hc
        rcases List.mem_or_eq_of_mem_set hc with h | h
        · exact hl c h
        · subst h; rw [List.length_append, ho]; rfl
      have hi := ih (j + 1) (by omega) s' _ hl' (by rw [List.length_set]; exact hfit)
      rw [← Nat.add_assoc] at hi
      rw [hi]
      have e3 : ∀ o', store (p.steps * subbandsPerWT p) (sig p (scaling k p) (padOf p data[j]) p.steps ::
          (data.drop (j + 1)).map fun m => sig p (scaling k p) (padOf p m) p.steps) (start + j) d (o ++ o') =
          store (p.steps * subbandsPerWT p) ((data.drop (j + 1)).map fun m => sig p (scaling k p) (padOf p m) p.steps) (start + j + 1)
            (d.set (start + j) (o ++ [sig p (scaling k p) (padOf p data[j]) p.steps])) o' := by
        intro o'
        rw [store, if_pos (by rw [List.length_append]; omega)]
        congr 1
        · rw [List.take_append_of_le_length (by omega), List.take_of_length_le (by omega)]
        · rw [List.drop_append_of_le_length (by omega), List.drop_eq_nil_of_le (by omega), List.nil_append]
      simp only [told, e3]

theorem impl_with {k : Kit α} {p : Params} (hv : ValidParams p) (hf : FilterLen k p) (cb : Callback σ α) {data : List (Mat α)}
    (hlen : 0 < data.length) (hs : ∀ m ∈ data, Shaped p m) (start : ℕ) (s : σ) (d : Decs α) (hl : ChanLayout p d)
    (hfit : start + data.length ≤ d.length) :
    decomposeImplWith k (freshStack k p) p (s, d) data cb start data.length =
      told (converse (answer p cb) s (data.flatMap fun m => asks p (scaling k p) (padOf p m) 0 p.steps))
        (store (p.steps * subbandsPerWT p) (data.map fun m => sig p (scaling k p) (padOf p m) p.steps) start d) true := by
  unfold decomposeImplWith
  rw [shapeCheck_ok hv hlen hs, Run.lift_ok, Run.bind_ok, if_pos rfl]
  have hloop : loopChannels (start : ℤ) (data.length : ℤ) = List.range' start data.length := by
    unfold loopChannels; rw [if_neg (by omega)]; simp
  rw [hloop, Int.toNat_natCast]
  have key : ∀ stack, (p.dimension ≠ 1 → stack = stackP p (scaling k p)) → _ := fun stack hst =>
    channels_with hv hf cb hs stack hst start data.length 0 (by omega) s d hl hfit
  rw [Nat.add_zero, List.drop_zero] at key
  by_cases hd : p.dimension = 2
  · rw [if_pos hd, freshStack_ok hv hf, Run.lift_ok, Run.bind_ok]
    exact key _ fun _ => rfl
  · rw [if_neg hd]
    have : p.dimension = 1 := by
      rcases shape_cases hv with ⟨_, _, h⟩ | ⟨_, _, _, h⟩
      · exact h
      · exact absurd h hd
    exact key _ fun h => absurd this h

/-! ### reading the result -/

theorem length_store (N : ℕ) (as : List (Mat α)) (ch : ℕ) (d : Decs α) (o : List (Mat α)) : (store N as ch d o).length = d.length := by
  induction as generalizing ch d o with
  | nil => rfl
  | cons a as ih =>
    rw [store]
    split_ifs
    · rw [ih, List.length_set]
    · rw [List.length_set]

theorem store_out (N : ℕ) (as : List (Mat α)) (ch : ℕ) (d : Decs α) (o : List (Mat α)) (i : ℕ) (hi : i < ch ∨ ch + as.length ≤ i) :
    (store N as ch d o)[i]? = d[i]? := by
  induction as generalizing ch d o with
  | nil => rfl
  | cons a as ih =>
    simp only [List.length_cons] at hi
    rw [store]
    split_ifs
    · rw [ih _ _ _ (by omega), List.getElem?_set_ne (by omega)]
    · rw [List.getElem?_set_ne (by omega)]

theorem store_in (N : ℕ) (as : List (Mat α)) (ch : ℕ) (d : Decs α) (o : List (Mat α)) (hl : ∀ c ∈ d, c.length = N + 1)
    (hfit : ch + as.length ≤ d.length) (j : ℕ) (hj : j < as.length) :
    ∃ c c0, (store N as ch d o)[ch + j]? = some c ∧ d[ch + j]? = some c0 ∧ c.length = c0.length ∧
      (∀ t < N, c[t]? = if j * N + t < o.length then o[j * N + t]? else c0[t]?) ∧
      c[N]? = if (j + 1) * N ≤ o.length then as[j]? else c0[N]? := by
  induction as generalizing ch d o j with
  | nil => simp at hj
  | cons a as ih =>
    simp only [List.length_cons] at hfit hj
    have hch : ch < d.length := by omega
    rw [store]
    by_cases hN : N ≤ o.length
    · rw [if_pos hN]
      have hl' : ∀ c ∈ d.set ch (o.take N ++ [a]), c.length = N + 1 := by
        intro c hc
        rcases List.mem_or_eq_of_mem_set hc with h | h
        · exact hl c h
        · subst h; simp; omega
      cases j with
      | zero =>
        rw [store_out _ _ _ _ _ _ (by omega), Nat.add_zero, List.getElem?_set_self hch]
        refine ⟨_, d[ch], rfl, List.getElem?_eq_getElem hch, ?_, ?_, ?_⟩
        · rw [hl _ (List.getElem_mem hch)]; simp; omega
        · intro t ht
          rw [Nat.zero_mul, Nat.zero_add, if_pos (by omega), List.getElem?_append_left (by simp; omega), List.getElem?_take_of_lt ht]
        · rw [if_pos (by omega), List.getElem?_append_right (by simp), List.length_take, Nat.min_eq_left hN]
          simp
      | succ j =>
        obtain ⟨c, c0, h1, h2, h3, h4, h5⟩ := ih (ch + 1) (d.set ch (o.take N ++ [a])) (o.drop N) hl'
          (by rw [List.length_set]; omega) j (by omega)
        rw [List.getElem?_set_ne (by omega)] at h2
        have e : ch + 1 + j = ch + (j + 1) := by omega
        rw [e] at h1 h2
        refine ⟨c, c0, h1, h2, h3, ?_, ?_⟩
        · intro t ht
          rw [h4 t ht, List.length_drop, List.getElem?_drop]
          have e1 : (j + 1) * N + t = N + (j * N + t) := by ring
          rw [e1]
          by_cases h : j * N + t < o.length - N
          · rw [if_pos h, if_pos (by omega)]
          · rw [if_neg h, if_neg (by omega)]
        · rw [h5, List.length_drop]
          have e1 : (j + 1 + 1) * N = N + (j + 1) * N := by ring
          rw [e1]
          by_cases h : (j + 1) * N ≤ o.length - N
          · rw [if_pos h, if_pos (by omega)]; rfl
          · rw [if_neg h, if_neg (by omega)]
    · rw [if_neg hN]
      have hgd : d.getD ch [] = d[ch] := by simp [List.getD, hch]
      have hcl := hl _ (List.getElem_mem hch)
      rw [hgd]
      cases j with
      | zero =>
        rw [Nat.add_zero, List.getElem?_set_self hch]
        refine ⟨_, d[ch], rfl, List.getElem?_eq_getElem hch, ?_, ?_, ?_⟩
        · rw [length_splice (by omega)]
        · intro t ht
          rw [Nat.zero_mul, Nat.zero_add]
          split_ifs with h
          · have := getElem?_splice_in (c := d[ch]) (ds := o) (pos := 0) (i := t) (by omega) h
            rwa [Nat.zero_add] at this
          · exact getElem?_splice_out (by omega) (.inr (by omega))
        · rw [if_neg (by omega)]
          exact getElem?_splice_out (by omega) (.inr (by omega))
      | succ j =>
        have hj' : ch + (j + 1) < d.length := by omega
        rw [List.getElem?_set_ne (by omega)]
        refine ⟨_, _, List.getElem?_eq_getElem hj', List.getElem?_eq_getElem hj', rfl, ?_, ?_⟩
        · intro t ht
          have : N ≤ (j + 1) * N := Nat.le_mul_of_pos_left _ (by omega)
          rw [if_neg (by omega)]
        · have : N ≤ (j + 1 + 1) * N := Nat.le_mul_of_pos_left _ (by omega)
          rw [if_neg (by omega)]

/-- The questions about a channel are about its details. -/
theorem asks_eq (p : Params) (h : List α) (m : Mat α) :
    asks p h (padOf p m) 0 p.steps = (List.range (p.steps * detailsPerStep p)).map fun t =>
      ((chanP p h nullDenoiser m).getD t default, t / detailsPerStep p) := by
  have hdp : 0 < detailsPerStep p := by unfold detailsPerStep; split_ifs <;> omega
  have gen : ∀ n, (List.range' 0 n).flatMap (fun s => (detailStep p h nullDenoiser s (sig p h (padOf p m) s)).map fun x => (x, s)) =
      (List.range (n * detailsPerStep p)).map fun t =>
        (((List.range n).flatMap fun s => detailStep p h nullDenoiser s (sig p h (padOf p m) s)).getD t default, t / detailsPerStep p) := by
    intro n
    rw [← List.range_eq_range']
    induction n with
    | zero => simp
    | succ n ih =>
      have hL : ∀ n, ((List.range n).flatMap fun s => detailStep p h nullDenoiser s (sig p h (padOf p m) s)).length = n * detailsPerStep p := by
        intro n
        simp [List.length_flatMap, length_rawStep, Function.comp_def, subbandsPerWT_eq]
      rw [List.range_succ, List.flatMap_append, List.flatMap_append, ih, Nat.succ_mul, List.range_add, List.map_append]
      congr 1
      · apply List.map_congr_left
        intro t ht
        rw [List.mem_range] at ht
        simp only [List.getD]
        rw [List.getElem?_append_left (by rw [hL]; exact ht)]
      · rw [List.flatMap_cons, List.flatMap_nil, List.append_nil, List.map_map]
        have hD : (detailStep p h nullDenoiser n (sig p h (padOf p m) n)).length = detailsPerStep p := length_rawStep ..
        apply List.ext_getElem
        · simp [hD]
        · intro i h1 h2
          have hi : i < detailsPerStep p := by simpa using h2
          simp only [List.getElem_map, List.getElem_range, Function.comp_apply, List.flatMap_cons, List.flatMap_nil, List.append_nil,
            List.getD]
          rw [List.getElem?_append_right (by rw [hL]; omega), hL, Nat.add_sub_cancel_left, List.getElem?_eq_getElem (by omega),
            Nat.mul_comm, Nat.mul_add_div hdp, Nat.div_eq_of_lt hi]
          rfl
  unfold asks
  rw [gen]
  apply List.map_congr_left
  intro t ht
  rw [List.mem_range] at ht
  unfold chanP
  simp only [List.getD]
  rw [List.getElem?_append_left]
  simpa [List.length_flatMap, length_rawStep, Function.comp_def, subbandsPerWT_eq] using ht

theorem chanP_plainLast (p : Params) (h : List α) (m : Mat α) :
    (chanP p h nullDenoiser m)[p.steps * detailsPerStep p]? = some (sig p h (padOf p m) p.steps) := by
  unfold chanP
  have : ((List.range p.steps).flatMap fun s => detailStep p h nullDenoiser s (sig p h (padOf p m) s)).length =
      p.steps * detailsPerStep p := by
    simp [List.length_flatMap, length_rawStep, Function.comp_def, subbandsPerWT_eq]
  rw [List.getElem?_append_right (by omega), this]
  simp

theorem calls_eq (p : Params) (h : List α) (data : List (Mat α)) :
    (data.flatMap fun m => asks p h (padOf p m) 0 p.steps) = detailCalls p (data.map (chanP p h nullDenoiser)) := by
  unfold detailCalls
  rw [List.flatMap_map]
  congr 1
  funext m
  exact asks_eq p h m

theorem afterAnswers_store {p : Params} {d : Decs α} (hl : ChanLayout p d) (h : List α) (data : List (Mat α)) (start : ℕ)
    (hfit : start + data.length ≤ d.length) (o : List (Mat α)) :
    AfterAnswers p start d (data.map (chanP p h nullDenoiser)) o
      (store (p.steps * subbandsPerWT p) (data.map fun m => sig p h (padOf p m) p.steps) start d o) := by
  refine ⟨length_store .., ?_, ?_⟩
  · intro ch hch
    rw [List.length_map] at hch
    exact store_out _ _ _ _ _ _ (by simpa using hch)
  · intro ch hch
    rw [List.length_map] at hch
    obtain ⟨c, c0, h1, h2, h3, h4, h5⟩ := store_in (p.steps * subbandsPerWT p) (data.map fun m => sig p h (padOf p m) p.steps) start d o
      hl (by simpa using hfit) ch (by simpa using hch)
    refine ⟨c, c0, chanP p h nullDenoiser data[ch], h1, h2, by simp [hch], h3, h4, ?_⟩
    rw [subbandsPerWT_eq] at h5
    rw [h5, chanP_plainLast]
    simp [hch]

theorem layout_afterAnswers {p : Params} {start : ℕ} {old new d : Decs α} {o : List (Mat α)} (hl : ∀ c ∈ old, c.length = subbandCount p)
    (h : AfterAnswers p start old new o d) : ∀ c ∈ d, c.length = subbandCount p := by
  intro c hc
  obtain ⟨i, hi, rfl⟩ := List.getElem_of_mem hc
  obtain ⟨h1, h2, h3⟩ := h
  by_cases hin : start ≤ i ∧ i < start + new.length
  · obtain ⟨c, o, n, e1, e2, -, e4, -⟩ := h3 (i - start) (by omega)
    rw [Nat.add_sub_cancel' hin.1] at e1 e2
    have : c = d[i] := by
      rw [List.getElem?_eq_getElem hi] at e1; exact (Option.some.inj e1).symm
    rw [← this, e4]
    exact hl _ (List.mem_of_getElem? e2)
  · have := h2 i (by omega)
    rw [List.getElem?_eq_getElem hi] at this
    exact hl _ (List.mem_of_getElem? this.symm)

/-- A denoiser that always answers. -/
theorem converse_total (ask : σ → Mat α → ℕ → σ × Outcome (Mat α)) (f : Mat α → ℕ → Mat α) (g : σ → Mat α × ℕ → σ) (a : List (Mat α × ℕ))
    (h : ∀ x ∈ a, ∀ s, ask s x.1 x.2 = (g s x, .ok (f x.1 x.2))) (s : σ) :
    converse ask s a = (a.foldl g s, a.map fun x => f x.1 x.2, .ok ()) := by
  induction a generalizing s with
  | nil => rfl
  | cons x a ih =>
    obtain ⟨m, k⟩ := x
    have := h (m, k) (by simp) s
    simp only [converse, this, ih (fun x hx => h x (by simp [hx])), List.foldl_cons, List.map_cons]

theorem answer_noting {p : Params} {den : Denoiser α} (hden : KeepsSizes den) (x : Mat α × ℕ) (hx : p.dimension = 1 → x.1.cols = 1)
    (s : List (Mat α × ℕ)) : answer p (noting den) s x.1 x.2 =
      (s ++ [x], .ok (if p.dimension = 1 then Mat.ofCol (den.d1 (x.1.col 0) x.2) else den.d2 x.1 x.2)) := by
  unfold answer noting
  by_cases hd : p.dimension = 1
  · have h1 : (den.d1 (x.1.col 0) x.2).length = x.1.rows := by rw [hden.1]; simp
    simp only [hd, h1, if_true]
    rw [Mat.ofCol_col _ (hx hd)]
  · simp only [hd, if_false]

theorem answer_of {p : Params} {den : Denoiser α} (hden : KeepsSizes den) (x : Mat α × ℕ) (s : σ) :
    answer p (Callback.of den) s x.1 x.2 =
      (s, .ok (if p.dimension = 1 then Mat.ofCol (den.d1 (x.1.col 0) x.2) else den.d2 x.1 x.2)) := by
  unfold answer Callback.of
  by_cases hd : p.dimension = 1
  · have h1 : (den.d1 (x.1.col 0) x.2).length = x.1.rows := by rw [hden.1]; simp
    simp only [hd, h1, if_true]
  · simp only [hd, if_false]

theorem asks_cols {p : Params} (hd : p.dimension = 1) (h : List α) (m : Mat α) (t n : ℕ) (x : Mat α × ℕ) (hx : x ∈ asks p h m t n) :
    x.1.cols = 1 := by
  unfold asks at hx
  rw [List.mem_flatMap] at hx
  obtain ⟨s, -, hx⟩ := hx
  rw [List.mem_map] at hx
  obtain ⟨y, hy, rfl⟩ := hx
  unfold detailStep at hy
  rw [if_pos hd, List.mem_singleton] at hy
  subst hy
  rfl

theorem foldl_notes {β : Type} (a s : List β) : a.foldl (fun s x => s ++ [x]) s = s ++ a := by
  induction a generalizing s with
  | nil => simp
  | cons x a ih => simp [ih]

end

end WB
