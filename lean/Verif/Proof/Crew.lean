import Verif.Spec.Crew
import Verif.Proof.Clients

/-!
Calls as sequences of accesses, and the invariant of threads on one buffer.
-/

set_option linter.unusedSectionVars false

namespace WB

open Spec

variable {α β γ : Type} {n : ℕ} [Zero α] [Add α] [Mul α] [Neg α] [Inhabited α]

/-! ### A call is the sequence of its accesses -/

/-- The accesses one after the other, without other threads and with fresh answers of the cache. -/
def runAcc (k : Kit α) : Acc α β → Decs α → Run (Decs α) β
  | .done x, d => .ok d x
  | .fail, d => .throw d
  | .bad, _ => .ub
  | .ask q rest, d => runAcc k (rest (freshAnswer k q)) d
  | .read ch rest, d =>
    match d[ch]? with
    | some c => runAcc k (rest c) d
    | none => .ub
  | .write ch idx m rest, d =>
    match setSub d ch idx m with
    | .ok d' _ => runAcc k rest d'
    | _ => .ub

theorem setSub_cases (d : Decs α) (ch idx : ℕ) (m : Mat α) :
    setSub d ch idx m = .ub ∨ ∃ d', setSub d ch idx m = .ok d' () := by
  unfold setSub
  split
  · exact .inl rfl
  · split
    · exact .inr ⟨_, rfl⟩
    · exact .inl rfl

theorem run_write (k : Kit α) (ch idx : ℕ) (m : Mat α) (rest : Acc α β) (d : Decs α) :
    runAcc k (.write ch idx m rest) d = (setSub d ch idx m).bind fun d _ => runAcc k rest d := by
  show (match setSub d ch idx m with | .ok d' _ => runAcc k rest d' | _ => Run.ub) = _
  rcases setSub_cases d ch idx m with h | ⟨d', h⟩ <;> rw [h] <;> rfl

theorem run_read (k : Kit α) (ch : ℕ) (rest : Channel α → Acc α β) (d : Decs α) :
    runAcc k (.read ch rest) d = match d[ch]? with
      | some c => runAcc k (rest c) d
      | none => .ub := by
  rw [runAcc]

theorem run_read_some (k : Kit α) {ch : ℕ} (rest : Channel α → Acc α β) {d : Decs α} {c : Channel α} (h : d[ch]? = some c) :
    runAcc k (.read ch rest) d = runAcc k (rest c) d := by
  rw [run_read, h]

theorem run_read_none (k : Kit α) {ch : ℕ} (rest : Channel α → Acc α β) {d : Decs α} (h : d[ch]? = none) :
    runAcc k (.read ch rest) d = .ub := by
  rw [run_read, h]

theorem run_calc (k : Kit α) (x : Outcome γ) (rest : γ → Acc α β) (d : Decs α) :
    runAcc k (.calc x rest) d = (Run.lift d x).bind fun d a => runAcc k (rest a) d := by
  cases x <;> rfl

theorem run_bind_assoc {σ a b c : Type} (x : Run σ a) (f : σ → a → Run σ b) (g : σ → b → Run σ c) :
    (x.bind f).bind g = x.bind fun s y => (f s y).bind g := by
  cases x <;> rfl

theorem run_step1D (k : Kit α) (ch dest : ℕ) (den : Denoiser α) (lo hi : List α) (signal : Mat α) (step : ℕ)
    (rest : Mat α → Acc α β) (d : Decs α) :
    runAcc k (accStep1D ch dest den lo hi signal step rest) d =
      (oneSideStep1D d ch dest den lo hi signal step).bind fun d m => runAcc k (rest m) d := by
  unfold accStep1D oneSideStep1D
  rw [run_calc, run_bind_assoc]
  congr 1
  funext d r
  dsimp only
  split
  · rfl
  · rw [run_write, run_bind_assoc]; rfl

theorem run_step2D (k : Kit α) (ch dest : ℕ) (den : Denoiser α) (mats : List (SpMat α)) (signal : Mat α) (step : ℕ)
    (rest : Mat α → Acc α β) (d : Decs α) :
    runAcc k (accStep2D ch dest den mats signal step rest) d =
      (oneSideStep2D d ch dest den mats signal step).bind fun d m => runAcc k (rest m) d := by
  unfold accStep2D oneSideStep2D
  rw [run_calc, run_bind_assoc]
  congr 1
  funext d r
  simp only [run_write, run_bind_assoc, Run.bind_ok]

theorem run_steps (k : Kit α) (p : Params) (stack : Stack α) (f : Filters α) (den : Denoiser α) (ch : ℕ)
    (rest : Mat α → Acc α β) (rem : ℕ) (m : Mat α) (d : Decs α) :
    runAcc k (accSteps p stack f den ch rest rem m) d =
      (decomposeSteps p stack f den ch rem d m).bind fun d m => runAcc k (rest m) d := by
  induction rem generalizing m d with
  | zero => rfl
  | succ rem ih =>
    unfold accSteps decomposeSteps
    dsimp only
    split
    · rw [run_step1D, run_bind_assoc]
      congr 1
      funext d m
      exact ih m d
    · rw [run_calc, run_bind_assoc, run_bind_assoc]
      congr 1
      funext d mats
      rw [run_step2D]
      congr 1
      funext d m
      exact ih m d

theorem run_channels (k : Kit α) (p : Params) (stack : Stack α) (f : Filters α) (den : Denoiser α) (data : List (Mat α))
    (start : ℕ) (rest : Bool → Acc α β) (chs : List ℕ) (d : Decs α) :
    runAcc k (accChannels p stack f den data start (rest true) chs) d =
      (decomposeChannels p stack f den data start chs d).bind fun d x => runAcc k (rest x) d := by
  induction chs generalizing d with
  | nil => rfl
  | cons ch chs ih =>
    unfold accChannels decomposeChannels
    rw [run_calc, run_bind_assoc]
    congr 1
    funext d channel
    rw [run_steps, run_bind_assoc]
    congr 1
    funext d last
    rw [run_write, run_bind_assoc]
    congr 1
    funext d _
    exact ih d

theorem run_decompose (k : Kit α) (p : Params) (data : List (Mat α)) (den : Denoiser α) (start count : ℤ)
    (rest : Bool → Acc α β) (d : Decs α) :
    runAcc k (accDecompose k p data den start count rest) d =
      (decomposeImpl k (freshStack k p) p d data den start count).bind fun d x => runAcc k (rest x) d := by
  unfold accDecompose decomposeImpl
  rw [run_calc, run_bind_assoc]
  congr 1
  funext d good
  cases good with
  | false => rfl
  | true =>
    simp only [if_true]
    by_cases hd : p.dimension = 2
    · rw [if_pos hd, if_pos hd]
      show runAcc k (Acc.calc (freshStack k p) _) d = _
      rw [run_calc, run_bind_assoc]
      congr 1
      funext d stack
      exact run_channels _ _ _ _ _ _ _ _ _ _
    · rw [if_neg hd, if_neg hd]
      exact run_channels _ _ _ _ _ _ _ _ _ _

/-- A call that only looks: as a computation on the content of the buffer. -/
theorem run_composeSteps (k : Kit α) (p : Params) (tstack : Stack α) (f : Filters α) (ch : ℕ) (rest : Mat α → Acc α β)
    (d : Decs α) (c : Channel α) (hc : d[ch]? = some c) (m i : ℕ) (x : Mat α) :
    runAcc k (accComposeSteps p tstack f ch rest m i x) d =
      (Run.lift d (composeSteps p tstack f c m i x)).bind fun d x => runAcc k (rest x) d := by
  induction m generalizing i x with
  | zero => rfl
  | succ m ih =>
    unfold accComposeSteps composeSteps
    rw [run_read_some k _ hc, run_calc]
    cases stepMats p tstack (i - 1) with
    | throw => rfl
    | ub => rfl
    | ok mats =>
      simp only [Outcome.bind_ok]
      cases composeStep p.dimension f mats x c (i * subbandsPerWT p) with
      | throw => rfl
      | ub => rfl
      | ok y => exact ih _ _

theorem run_composeChannels (k : Kit α) (p : Params) (tstack : Stack α) (f : Filters α) (scale : ℕ)
    (rest : List (Mat α) → Acc α β) (d : Decs α) (chs : List ℕ) (out : List (Mat α)) :
    runAcc k (accComposeChannels p tstack f scale rest chs out) d =
      (Run.lift d (chs.mapM (composeChannel p tstack f d scale))).bind fun d ms => runAcc k (rest (out ++ ms)) d := by
  induction chs generalizing out with
  | nil => simp [accComposeChannels]
  | cons ch chs ih =>
    unfold accComposeChannels
    rw [List.mapM_cons]
    cases hc : d[ch]? with
    | none =>
      rw [run_read_none k _ hc]
      have : composeChannel p tstack f d scale ch = .ub := by simp [composeChannel, rd, hc]
      rw [this]
      rfl
    | some c =>
      rw [run_read_some k _ hc, run_read_some k _ hc, run_calc]
      have : composeChannel p tstack f d scale ch =
          rd c (p.steps * subbandsPerWT p) >>= composeSteps p tstack f c (p.steps - scale) p.steps := by
        simp [composeChannel, rd, hc]
      rw [this]
      cases rd c (p.steps * subbandsPerWT p) with
      | throw => rfl
      | ub => rfl
      | ok m =>
        simp only [Run.lift_ok, Run.bind_ok, Outcome.bind_ok]
        rw [run_composeSteps k p tstack f ch _ d c hc]
        cases composeSteps p tstack f c (p.steps - scale) p.steps m with
        | throw => rfl
        | ub => rfl
        | ok y =>
          simp only [Run.lift_ok, Run.bind_ok, Outcome.bind_ok]
          rw [ih]
          cases List.mapM (composeChannel p tstack f d scale) chs with
          | throw => rfl
          | ub => rfl
          | ok ms => simp

theorem run_compose (k : Kit α) (p : Params) (scale start count : ℤ) (rest : List (Mat α) → Acc α β) (d : Decs α) :
    runAcc k (accCompose k p scale start count rest) d =
      (Run.lift d (composeImpl k (freshTrans k p) p d scale start count)).bind fun d ms => runAcc k (rest ms) d := by
  have hrest : ∀ tstack, runAcc k (accComposeRest k p scale start count rest tstack) d =
      (Run.lift d (if start < 0 ∧ 0 < count then .ub
        else if scale < 0 ∧ 0 < count then (if p.dimension = 1 ∧ scale = -1 then .ub else .throw)
        else (loopChannels start count).mapM (composeChannel p tstack (filters1D k p) d scale.toNat) >>= fun ms =>
          ms.mapM (finishChannel k p scale.toNat))).bind fun d ms => runAcc k (rest ms) d := by
    intro tstack
    unfold accComposeRest
    split
    · rfl
    · split
      · split <;> rfl
      · rw [run_composeChannels]
        cases List.mapM (composeChannel p tstack (filters1D k p) d scale.toNat) (loopChannels start count) with
        | throw => rfl
        | ub => rfl
        | ok ms => exact run_calc _ _ _ _
  unfold accCompose composeImpl
  split
  · rfl
  · by_cases hd : p.dimension = 2
    · rw [if_pos hd, if_pos hd]
      show runAcc k (Acc.calc (freshTrans k p) _) d = _
      rw [run_calc]
      cases freshTrans k p with
      | throw => rfl
      | ub => rfl
      | ok t => exact hrest t
    · rw [if_neg hd, if_neg hd]
      exact hrest []

theorem run_cast (k : Kit α) (start : ℤ) (rest : Decs α → Acc α β) (d : Decs α) (chs : List ℕ) (out : Decs α) :
    runAcc k (accCast start rest chs out) d =
      (Run.lift d (chs.mapM (fun (ch : ℕ) => if 0 ≤ (ch : ℤ) + start then rd d ((ch : ℤ) + start).toNat else .ub))).bind
        fun d cs => runAcc k (rest (out ++ cs)) d := by
  induction chs generalizing out with
  | nil => simp [accCast]
  | cons ch chs ih =>
    unfold accCast
    rw [List.mapM_cons]
    split
    · cases hc : d[((ch : ℤ) + start).toNat]? with
      | none =>
        rw [run_read_none k _ hc]
        simp [rd, hc]
      | some c =>
        rw [run_read_some k _ hc, ih]
        have e : rd d ((ch : ℤ) + start).toNat = .ok c := by simp [rd, hc]
        rw [e, Outcome.bind_ok]
        cases List.mapM (fun (ch : ℕ) => if 0 ≤ (ch : ℤ) + start then rd d ((ch : ℤ) + start).toNat else .ub) chs with
        | throw => rfl
        | ub => rfl
        | ok cs => simp
    · rfl

/-- What a call leaves and replies; an exception is a reply. -/
def Run.told : Run (Decs α) (CrewReply α) → Option (Decs α × CrewReply α)
  | .ok d x => some (d, x)
  | .throw d => some (d, .threw)
  | .ub => none

/-- The accesses of a call, one after the other, are the call. -/
theorem run_call (k : Kit α) (p : Params) (d : Decs α) (op : CrewOp α) :
    (runAcc k (op.acc k p) d).told = CrewOp.call k ⟨p, d⟩ op := by
  cases op with
  | decompose data den =>
    unfold CrewOp.acc CrewOp.call Buffer.decompose
    rw [run_decompose]
    dsimp only
    cases decomposeImpl k (freshStack k p) p d data den 0 p.signalNumber <;> rfl
  | compose scale =>
    unfold CrewOp.acc CrewOp.call Buffer.compose
    rw [run_compose]
    dsimp only
    cases composeImpl k (freshTrans k p) p d scale 0 p.signalNumber <;> rfl
  | viewDecompose v data den =>
    unfold CrewOp.acc CrewOp.call View.decompose
    rw [run_calc]
    dsimp only
    rcases v.checkRange p.signalNumber with (_ | _) | _ | _
    · rfl
    · simp only [Run.lift_ok, Run.bind_ok, if_true]
      cases v.isConst with
      | true => rfl
      | false =>
        simp only [Bool.false_eq_true, if_false]
        rw [run_decompose]
        cases decomposeImpl k (freshStack k p) p d data den v.start v.count <;> rfl
    · rfl
    · rfl
  | viewCompose v scale =>
    unfold CrewOp.acc CrewOp.call View.compose
    rw [run_calc]
    dsimp only
    rcases v.checkRange p.signalNumber with (_ | _) | _ | _
    · rfl
    · simp only [Run.lift_ok, Run.bind_ok, if_true, Outcome.bind_ok]
      rw [run_compose]
      cases composeImpl k (freshTrans k p) p d scale v.start v.count <;> rfl
    · rfl
    · rfl
  | cast v =>
    unfold CrewOp.acc CrewOp.call View.cast
    dsimp only
    split
    · rfl
    · rw [run_calc]
      cases (ctor { p with signalNumber := v.count.toNat } : Outcome (Buffer α)) with
      | throw => rfl
      | ub => rfl
      | ok nb =>
        simp only [Run.lift_ok, Run.bind_ok, Outcome.bind_ok]
        rw [run_cast]
        cases List.mapM (fun (ch : ℕ) => if 0 ≤ (ch : ℤ) + v.start then rd d ((ch : ℤ) + v.start).toNat else .ub)
          (List.range v.count.toNat) <;> rfl
  | write ch idx m =>
    unfold CrewOp.acc CrewOp.call
    rw [run_write]
    rcases setSub_cases d ch idx m with h | ⟨d', h⟩ <;> dsimp only <;> rw [h] <;> rfl
  | read ch =>
    unfold CrewOp.acc CrewOp.call
    rw [run_read]
    dsimp only
    cases d[ch]? <;> rfl

/-! ### Where a call looks and assigns -/

/-- All accesses of the call, whatever it is told: assignments in `A`, looks in `L`. -/
def Acc.Within (A L : ℕ → Prop) : Acc α β → Prop
  | .done _ => True
  | .fail => True
  | .bad => True
  | .ask _ rest => ∀ x, (rest x).Within A L
  | .read ch rest => L ch ∧ ∀ c, (rest c).Within A L
  | .write ch _ _ rest => A ch ∧ rest.Within A L

theorem Acc.Within.mono {A L A' L' : ℕ → Prop} (hA : ∀ ch, A ch → A' ch) (hL : ∀ ch, L ch → L' ch) :
    ∀ {a : Acc α β}, a.Within A L → a.Within A' L'
  | .done _, _ => trivial
  | .fail, _ => trivial
  | .bad, _ => trivial
  | .ask _ _, h => fun x => Within.mono hA hL (h x)
  | .read _ _, h => ⟨hL _ h.1, fun c => Within.mono hA hL (h.2 c)⟩
  | .write _ _ _ _, h => ⟨hA _ h.1, Within.mono hA hL h.2⟩

theorem within_calc {A L : ℕ → Prop} {x : Outcome γ} {rest : γ → Acc α β} (h : ∀ a, (rest a).Within A L) :
    (Acc.calc x rest).Within A L := by
  cases x with
  | ok a => exact h a
  | throw => trivial
  | ub => trivial

theorem within_steps {A L : ℕ → Prop} (p : Params) (stack : Stack α) (f : Filters α) (den : Denoiser α) {ch : ℕ}
    {rest : Mat α → Acc α β} (hch : A ch) (h : ∀ m, (rest m).Within A L) (rem : ℕ) (m : Mat α) :
    (accSteps p stack f den ch rest rem m).Within A L := by
  induction rem generalizing m with
  | zero => exact h m
  | succ rem ih =>
    unfold accSteps
    dsimp only
    split
    · refine within_calc fun r => ?_
      split
      · trivial
      · exact ⟨hch, ih _⟩
    · exact within_calc fun mats => within_calc fun q => ⟨hch, hch, hch, ih _⟩

theorem within_channels {A L : ℕ → Prop} (p : Params) (stack : Stack α) (f : Filters α) (den : Denoiser α) (data : List (Mat α))
    (start : ℕ) {rest : Acc α β} (h : rest.Within A L) (chs : List ℕ) (hchs : ∀ ch ∈ chs, A ch) :
    (accChannels p stack f den data start rest chs).Within A L := by
  induction chs with
  | nil => exact h
  | cons ch chs ih =>
    unfold accChannels
    have hch := hchs ch (by simp)
    refine within_calc fun channel => within_steps _ _ _ _ hch (fun last => ?_) _ _
    exact ⟨hch, ih fun c hc => hchs c (by simp [hc])⟩

theorem mem_loopChannels {start count : ℤ} {ch : ℕ} (h : ch ∈ loopChannels start count) :
    start ≤ (ch : ℤ) ∧ (ch : ℤ) < start + count := by
  unfold loopChannels at h
  split at h
  · simp at h
  · rw [List.mem_range'_1] at h
    omega

theorem within_decompose {A L : ℕ → Prop} (k : Kit α) (p : Params) (data : List (Mat α)) (den : Denoiser α) {start count : ℤ}
    {rest : Bool → Acc α β} (hA : ∀ ch : ℕ, start ≤ (ch : ℤ) → (ch : ℤ) < start + count → A ch)
    (h : ∀ x, (rest x).Within A L) : (accDecompose k p data den start count rest).Within A L := by
  unfold accDecompose
  have hl : ∀ ch ∈ loopChannels start count, A ch := fun ch hch => hA ch (mem_loopChannels hch).1 (mem_loopChannels hch).2
  refine within_calc fun good => ?_
  split
  · split
    · exact fun x => within_calc fun stack => within_channels _ _ _ _ _ _ (h true) _ hl
    · exact within_channels _ _ _ _ _ _ (h true) _ hl
  · exact h false

theorem within_composeSteps {A L : ℕ → Prop} (p : Params) (tstack : Stack α) (f : Filters α) {ch : ℕ} (hch : L ch)
    {rest : Mat α → Acc α β} (h : ∀ m, (rest m).Within A L) (m i : ℕ) (x : Mat α) :
    (accComposeSteps p tstack f ch rest m i x).Within A L := by
  induction m generalizing i x with
  | zero => exact h x
  | succ m ih => exact ⟨hch, fun c => within_calc fun y => ih _ _⟩

theorem within_composeChannels {A L : ℕ → Prop} (p : Params) (tstack : Stack α) (f : Filters α) (scale : ℕ)
    {rest : List (Mat α) → Acc α β} (h : ∀ m, (rest m).Within A L) (chs : List ℕ) (hchs : ∀ ch ∈ chs, L ch) (out : List (Mat α)) :
    (accComposeChannels p tstack f scale rest chs out).Within A L := by
  induction chs generalizing out with
  | nil => exact h out
  | cons ch chs ih =>
    have hch := hchs ch (by simp)
    exact ⟨hch, fun _ => ⟨hch, fun c => within_calc fun m => within_composeSteps _ _ _ hch
      (fun y => ih (fun c hc => hchs c (by simp [hc])) _) _ _ _⟩⟩

theorem within_compose {A L : ℕ → Prop} (k : Kit α) (p : Params) (scale : ℤ) {start count : ℤ}
    {rest : List (Mat α) → Acc α β} (hL : ∀ ch : ℕ, start ≤ (ch : ℤ) → (ch : ℤ) < start + count → L ch)
    (h : ∀ x, (rest x).Within A L) : (accCompose k p scale start count rest).Within A L := by
  have hl : ∀ ch ∈ loopChannels start count, L ch := fun ch hch => hL ch (mem_loopChannels hch).1 (mem_loopChannels hch).2
  have hr : ∀ tstack, (accComposeRest k p scale start count rest tstack).Within A L := by
    intro tstack
    unfold accComposeRest
    split
    · trivial
    · split
      · split <;> trivial
      · exact within_composeChannels _ _ _ _ (fun ms => within_calc h) _ hl _
  unfold accCompose
  split
  · trivial
  · split
    · exact fun x => within_calc hr
    · exact hr []

theorem within_cast {A L : ℕ → Prop} (start : ℤ) {rest : Decs α → Acc α β} (h : ∀ x, (rest x).Within A L) (chs : List ℕ)
    (hchs : ∀ ch ∈ chs, 0 ≤ (ch : ℤ) + start → L ((ch : ℤ) + start).toNat) (out : Decs α) :
    (accCast start rest chs out).Within A L := by
  induction chs generalizing out with
  | nil => exact h out
  | cons ch chs ih =>
    unfold accCast
    split
    · rename_i h0
      exact ⟨hchs ch (by simp) h0, fun c => ih (fun c hc => hchs c (by simp [hc])) _⟩
    · trivial

/-- A call assigns only to the channels it is said to assign to and looks only at those it is said to look at. -/
theorem within_call (k : Kit α) (p : Params) (op : CrewOp α) : (op.acc k p).Within (Assigns op) (LooksAt op) := by
  cases op with
  | decompose data den =>
    unfold CrewOp.acc
    exact within_decompose _ _ _ _ (fun _ _ _ => trivial) fun _ => trivial
  | compose scale =>
    unfold CrewOp.acc
    exact within_compose _ _ _ (fun _ _ _ => trivial) fun _ => trivial
  | viewDecompose v data den =>
    refine within_calc fun good => ?_
    split
    · split
      · trivial
      · exact within_decompose _ _ _ _ (fun _ h1 h2 => ⟨h1, h2⟩) fun _ => trivial
    · trivial
  | viewCompose v scale =>
    refine within_calc fun good => ?_
    split
    · exact within_compose _ _ _ (fun _ h1 h2 => ⟨h1, h2⟩) fun _ => trivial
    · trivial
  | cast v =>
    unfold CrewOp.acc
    dsimp only
    split
    · trivial
    · refine within_calc fun nb => ?_
      refine within_cast _ (fun _ => ?_) _ (fun ch hch h0 => ?_) _
      · trivial
      rw [List.mem_range] at hch
      show InView v _
      unfold InView
      omega
  | write ch idx m => exact ⟨rfl, trivial⟩
  | read ch => exact ⟨rfl, fun _ => trivial⟩

/-! ### Alone, with the number of steps -/

/-- Steps of the rest of a call when no other thread is there, with 15 for the cache. -/
def costAcc (k : Kit α) : Acc α β → Decs α → ℕ
  | .done _, _ => 1
  | .fail, _ => 1
  | .bad, _ => 1
  | .ask q rest, d => 15 + costAcc k (rest (freshAnswer k q)) d
  | .read ch rest, d =>
    1 + match d[ch]? with
      | some c => costAcc k (rest c) d
      | none => 0
  | .write ch idx m rest, d =>
    1 + match setSub d ch idx m with
      | .ok d' _ => costAcc k rest d'
      | _ => 0

/-- Steps of a call. -/
def callCost (k : Kit α) (p : Params) (d : Decs α) (op : CrewOp α) : ℕ := 1 + costAcc k (op.acc k p) d

/-- As `CrewAlone`, with the number of steps. -/
inductive CrewCost (k : Kit α) (p : Params) (d0 : Decs α) (prog : CrewProg α) : Decs α → List (CrewReply α) → ℕ → Prop where
  | start : CrewCost k p d0 prog d0 [] 0
  | call {d d' rs op r c} : CrewCost k p d0 prog d rs c → prog rs = some op → CrewOp.call k ⟨p, d⟩ op = some (d', r) →
      CrewCost k p d0 prog d' (rs ++ [r]) (c + callCost k p d op)

/-- From one state between two calls to a later one. -/
inductive CrewAhead (k : Kit α) (p : Params) (prog : CrewProg α) : Decs α → List (CrewReply α) → ℕ → Decs α → List (CrewReply α) → ℕ → Prop where
  | refl (d rs c) : CrewAhead k p prog d rs c d rs c
  | step {d d' rs op r c d2 rs2 c2} : prog rs = some op → CrewOp.call k ⟨p, d⟩ op = some (d', r) →
      CrewAhead k p prog d' (rs ++ [r]) (c + callCost k p d op) d2 rs2 c2 → CrewAhead k p prog d rs c d2 rs2 c2

theorem crewAhead_le {k : Kit α} {p : Params} {prog : CrewProg α} {d d2 : Decs α} {rs rs2 : List (CrewReply α)} {c c2 : ℕ}
    (h : CrewAhead k p prog d rs c d2 rs2 c2) : c ≤ c2 := by
  induction h with
  | refl => exact le_rfl
  | step _ _ _ ih => omega

theorem crewAhead_snoc {k : Kit α} {p : Params} {prog : CrewProg α} {d d2 d3 : Decs α} {rs rs2 : List (CrewReply α)} {c c2 : ℕ}
    (h : CrewAhead k p prog d rs c d2 rs2 c2) {op : CrewOp α} {r : CrewReply α} (hop : prog rs2 = some op)
    (hc : CrewOp.call k ⟨p, d2⟩ op = some (d3, r)) :
    CrewAhead k p prog d rs c d3 (rs2 ++ [r]) (c2 + callCost k p d2 op) := by
  induction h with
  | refl => exact .step hop hc (.refl _ _ _)
  | step h1 h2 _ ih => exact .step h1 h2 (ih hop hc)

theorem crewCost_alone {k : Kit α} {p : Params} {d0 : Decs α} {prog : CrewProg α} {d : Decs α} {rs : List (CrewReply α)} {c : ℕ}
    (h : CrewCost k p d0 prog d rs c) : CrewAlone k p d0 prog d rs := by
  induction h with
  | start => exact .start
  | call _ h2 h3 ih => exact .call ih h2 h3

theorem crewAlone_cost {k : Kit α} {p : Params} {d0 : Decs α} {prog : CrewProg α} {d : Decs α} {rs : List (CrewReply α)}
    (h : CrewAlone k p d0 prog d rs) : ∃ c, CrewCost k p d0 prog d rs c := by
  induction h with
  | start => exact ⟨0, .start⟩
  | call _ h2 h3 ih =>
    obtain ⟨c, hc⟩ := ih
    exact ⟨_, .call hc h2 h3⟩

theorem crewCost_ahead {k : Kit α} {p : Params} {d0 : Decs α} {prog : CrewProg α} {d : Decs α} {rs : List (CrewReply α)} {c : ℕ}
    (h : CrewCost k p d0 prog d rs c) : CrewAhead k p prog d0 [] 0 d rs c := by
  induction h with
  | start => exact .refl _ _ _
  | call _ h2 h3 ih => exact crewAhead_snoc ih h2 h3

/-- A program that ends when it is alone has only states on the way to that end. -/
theorem crewCost_final {k : Kit α} {p : Params} {d0 : Decs α} {prog : CrewProg α} {d d' : Decs α} {rs rs' : List (CrewReply α)}
    {c c' : ℕ} (h : CrewCost k p d0 prog d rs c) (hend : prog rs = none) (h' : CrewCost k p d0 prog d' rs' c') :
    CrewAhead k p prog d' rs' c' d rs c := by
  induction h' with
  | start => exact crewCost_ahead h
  | call _ h2 h3 ih =>
    cases ih with
    | refl => rw [hend] at h2; cases h2
    | step g1 g2 g3 =>
      rw [h2] at g1
      cases g1
      rw [h3] at g2
      cases g2
      exact g3

/-! ### The invariant -/

/-- The two contents are the same on the channels in `P`. -/
def Agree (P : ℕ → Prop) (d d' : Decs α) : Prop := ∀ ch, P ch → d[ch]? = d'[ch]?

theorem setSub_get {d d' : Decs α} {ch idx : ℕ} {m : Mat α} (h : setSub d ch idx m = .ok d' ()) :
    ∃ c, d[ch]? = some c ∧ idx < c.length ∧ d' = d.set ch (c.set idx m) := by
  unfold setSub at h
  split at h
  · cases h
  · rename_i c hc
    split at h
    · rename_i hi
      cases h
      exact ⟨c, hc, hi, rfl⟩
    · cases h

theorem setSub_other {d d' : Decs α} {ch idx : ℕ} {m : Mat α} (h : setSub d ch idx m = .ok d' ()) {c : ℕ} (hc : c ≠ ch) :
    d'[c]? = d[c]? := by
  obtain ⟨x, _, _, rfl⟩ := setSub_get h
  rw [List.getElem?_set_ne (Ne.symm hc)]

theorem setSub_length {d d' : Decs α} {ch idx : ℕ} {m : Mat α} (h : setSub d ch idx m = .ok d' ()) : d'.length = d.length := by
  obtain ⟨x, _, _, rfl⟩ := setSub_get h
  simp

theorem setSub_agree {P : ℕ → Prop} {d e : Decs α} (h : Agree P d e) {ch idx : ℕ} {m : Mat α} (hch : P ch) :
    (setSub d ch idx m = .ub ∧ setSub e ch idx m = .ub) ∨
      ∃ d' e', setSub d ch idx m = .ok d' () ∧ setSub e ch idx m = .ok e' () ∧ Agree P d' e' := by
  have he := h ch hch
  rcases setSub_cases d ch idx m with hd | ⟨d', hd⟩
  · refine .inl ⟨hd, ?_⟩
    unfold setSub at hd ⊢
    rw [← he]
    cases hx : d[ch]? with
    | none => rfl
    | some c =>
      rw [hx] at hd
      dsimp only at hd ⊢
      split at hd
      · cases hd
      · rename_i hn; rw [if_neg hn]
  · obtain ⟨c, h1, h2, rfl⟩ := setSub_get hd
    refine .inr ⟨_, e.set ch (c.set idx m), hd, ?_, ?_⟩
    · unfold setSub
      rw [← he, h1]
      dsimp only
      rw [if_pos h2]
    · intro x hx
      by_cases hxc : x = ch
      · subst hxc
        have l1 : x < d.length := (List.getElem?_eq_some_iff.1 h1).1
        have l2 : x < e.length := (List.getElem?_eq_some_iff.1 (he ▸ h1)).1
        rw [List.getElem?_set_self l1, List.getElem?_set_self l2]
      · rw [List.getElem?_set_ne (Ne.symm hxc), List.getElem?_set_ne (Ne.symm hxc)]
        exact h x hx

/-- The thread has nothing to do in the cache. -/
def Rests (t : Thread α) : Prop := t.pc = .idle ∧ t.todo = []

/-- Where a thread is, seen from the state `d` its program alone was in before the call; `x` bounds the steps taken. -/
def DoingOk (k : Kit α) (p : Params) (prog : CrewProg α) (W R : ℕ → Prop) (reqs : List Req) (t : Thread α) (decs : Decs α)
    (rs : List (CrewReply α)) (d : Decs α) (c x : ℕ) : CrewDoing α → Prop
  | .free => Rests t ∧ Agree (fun ch => W ch ∨ R ch) decs d ∧ x ≤ c
  | .inCall a => Rests t ∧ ∃ op e, prog rs = some op ∧ Agree (fun ch => W ch ∨ R ch) decs e ∧
      a.Within W (fun ch => W ch ∨ R ch) ∧ (runAcc k a e).told = CrewOp.call k ⟨p, d⟩ op ∧
      x + costAcc k a e ≤ c + callCost k p d op
  | .asking rest => ∃ op e q pre, prog rs = some op ∧ Agree (fun ch => W ch ∨ R ch) decs e ∧
      (∀ y, (rest y).Within W (fun ch => W ch ∨ R ch)) ∧ (runAcc k (rest (freshAnswer k q)) e).told = CrewOp.call k ⟨p, d⟩ op ∧
      reqs = pre ++ [q] ∧ x + t.cost + 1 + costAcc k (rest (freshAnswer k q)) e ≤ c + callCost k p d op
  | .crashed => Rests t ∧ ∃ op, prog rs = some op ∧ CrewOp.call k ⟨p, d⟩ op = none ∧ x ≤ c + callCost k p d op

/-- The invariant of one thread. -/
def HandOk (k : Kit α) (p : Params) (d0 : Decs α) (prog : CrewProg α) (W R : ℕ → Prop) (reqs : List Req) (t : Thread α)
    (decs : Decs α) (x : ℕ) (h : Hand α) : Prop :=
  ∃ d c, CrewCost k p d0 prog d h.replies c ∧ DoingOk k p prog W R reqs t decs h.replies d c x h.doing

/-- The invariant; `x i` is the number of steps thread `i` has taken. -/
structure CrewInv (k : Kit α) (p : Params) (d0 : Decs α) (progs : Fin n → CrewProg α) (W R : Fin n → ℕ → Prop)
    (reqs : Fin n → List Req) (x : Fin n → ℕ) (s : Crew α n) : Prop where
  shared : Inv k reqs s.shared
  hand : ∀ i, HandOk k p d0 (progs i) (W i) (R i) (reqs i) (s.shared.threads i) s.decs (x i) (s.hands i)
  rest : ∀ ch, (∀ i, ¬ W i ch) → s.decs[ch]? = d0[ch]?
  size : s.decs.length = d0.length

theorem crewInv_start (k : Kit α) {c : Cache α} (hc : CacheOk k c) (p : Params) (d0 : Decs α) (progs : Fin n → CrewProg α)
    (W R : Fin n → ℕ → Prop) : CrewInv k p d0 progs W R (fun _ => []) (fun _ => 0) (Crew.start c d0) := by
  refine ⟨⟨hc.1, hc.2, fun i => ?_, fun i => ?_, fun i => trivial, fun i => ⟨[], rfl, rfl⟩⟩,
    fun i => ⟨d0, 0, .start, ⟨rfl, rfl⟩, fun _ _ => rfl, le_rfl⟩, fun _ _ => rfl, rfl⟩
  · simp [Crew.start, Pc.inMain]
  · simp [Crew.start, Pc.inTrans]

/-- Another thread's assignment does not matter. -/
theorem doingOk_other {k : Kit α} {p : Params} {prog : CrewProg α} {W R : ℕ → Prop} {reqs : List Req} {t : Thread α}
    {decs decs' : Decs α} {rs : List (CrewReply α)} {d : Decs α} {c x : ℕ} {a : CrewDoing α}
    (h : DoingOk k p prog W R reqs t decs rs d c x a) (hd : Agree (fun ch => W ch ∨ R ch) decs' decs) :
    DoingOk k p prog W R reqs t decs' rs d c x a := by
  have tr : ∀ e, Agree (fun ch => W ch ∨ R ch) decs e → Agree (fun ch => W ch ∨ R ch) decs' e :=
    fun e he ch hch => (hd ch hch).trans (he ch hch)
  cases a with
  | free => exact ⟨h.1, tr _ h.2.1, h.2.2⟩
  | inCall a =>
    obtain ⟨h1, op, e, h2, h3, h4⟩ := h
    exact ⟨h1, op, e, h2, tr _ h3, h4⟩
  | asking rest =>
    obtain ⟨op, e, q, pre, h2, h3, h4⟩ := h
    exact ⟨op, e, q, pre, h2, tr _ h3, h4⟩
  | crashed => exact h

/-- A step of thread `i` that stays out of the cache and assigns at most to its own channels. -/
theorem crewInv_local {k : Kit α} {p : Params} {d0 : Decs α} {progs : Fin n → CrewProg α} {W R : Fin n → ℕ → Prop}
    {reqs : Fin n → List Req} {x : Fin n → ℕ} {s : Crew α n} (h : CrewInv k p d0 progs W R reqs x s) (hap : Apart W R)
    {i : Fin n} {decs : Decs α} {hd : Hand α} (hdecs : ∀ ch, ¬ W i ch → decs[ch]? = s.decs[ch]?)
    (hlen : decs.length = s.decs.length)
    (hh : HandOk k p d0 (progs i) (W i) (R i) (reqs i) (s.shared.threads i) decs (x i + 1) hd) :
    CrewInv k p d0 progs W R reqs (Function.update x i (x i + 1))
      ⟨s.shared, decs, Function.update s.hands i hd⟩ := by
  refine ⟨h.shared, fun j => ?_, fun ch hch => (hdecs ch (hch i)).trans (h.rest ch hch), hlen.trans h.size⟩
  by_cases hj : j = i
  · subst hj
    simp only [Function.update_self]
    exact hh
  · simp only [Function.update_of_ne hj]
    obtain ⟨d, c, h1, h2⟩ := h.hand j
    refine ⟨d, c, h1, doingOk_other h2 fun ch hch => hdecs ch fun hw => ?_⟩
    have := hap i j (Ne.symm hj) ch hw
    rcases hch with hch | hch
    · exact this.1 hch
    · exact this.2 hch

theorem crewInv_step {k : Kit α} {p : Params} {d0 : Decs α} {progs : Fin n → CrewProg α} {W R : Fin n → ℕ → Prop}
    {reqs : Fin n → List Req} {x : Fin n → ℕ} {s s' : Crew α n} (h : CrewInv k p d0 progs W R reqs x s) (hap : Apart W R)
    (hk : ∀ i, KeepsTo (W i) (R i) (progs i)) {i : Fin n} (hs : s.step k p progs i = some s') :
    ∃ reqs', CrewInv k p d0 progs W R reqs' (Function.update x i (x i + 1)) s' := by
  obtain ⟨d, c, hc, hdo⟩ := h.hand i
  unfold Crew.step at hs
  cases hd : (s.hands i).doing with
  | crashed => rw [hd] at hs; cases hs
  | free =>
    rw [hd] at hs hdo
    dsimp only at hs
    obtain ⟨ht, hag, hx⟩ := hdo
    cases hop : progs i (s.hands i).replies with
    | none => rw [hop] at hs; cases hs
    | some op =>
      rw [hop] at hs
      cases hs
      refine ⟨reqs, crewInv_local h hap (fun _ _ => rfl) rfl ⟨d, c, hc, ht, op, d, hop, hag, ?_, run_call k p d op, ?_⟩⟩
      · exact (within_call k p op).mono (fun ch => (hk i _ op hop ch).1) (fun ch => (hk i _ op hop ch).2)
      · unfold callCost; omega
  | inCall a =>
    rw [hd] at hs hdo
    obtain ⟨ht, op, e, hop, hag, hw, hrun, hx⟩ := hdo
    cases a with
    | done y =>
      cases hs
      have hr : CrewOp.call k ⟨p, d⟩ op = some (e, y) := hrun.symm
      exact ⟨reqs, crewInv_local h hap (fun _ _ => rfl) rfl ⟨e, _, .call hc hop hr, ht, hag, hx⟩⟩
    | fail =>
      cases hs
      have hr : CrewOp.call k ⟨p, d⟩ op = some (e, .threw) := hrun.symm
      exact ⟨reqs, crewInv_local h hap (fun _ _ => rfl) rfl ⟨e, _, .call hc hop hr, ht, hag, hx⟩⟩
    | bad =>
      cases hs
      exact ⟨reqs, crewInv_local h hap (fun _ _ => rfl) rfl ⟨d, c, hc, ht, op, hop, hrun.symm, hx⟩⟩
    | ask q rest =>
      cases hs
      refine ⟨Function.update reqs i (reqs i ++ [q]), inv_push h.shared ht q, fun j => ?_, h.rest, h.size⟩
      show HandOk k p d0 (progs j) (W j) (R j) _ (Function.update s.shared.threads i _ j) s.decs _ (Function.update s.hands i _ j)
      by_cases hj : j = i
      · subst hj
        simp only [Function.update_self]
        refine ⟨d, c, hc, op, e, q, reqs j, hop, hag, hw, hrun, rfl, ?_⟩
        have hcost : ((s.shared.threads j).push q).cost = 13 := by simp [Thread.cost, Thread.push, ht.1, ht.2]
        have : costAcc k (Acc.ask q rest) e = 15 + costAcc k (rest (freshAnswer k q)) e := rfl
        omega
      · simp only [Function.update_of_ne hj]
        exact h.hand j
    | read ch rest =>
      dsimp only at hs
      have hch : s.decs[ch]? = e[ch]? := hag ch hw.1
      cases hy : e[ch]? with
      | none =>
        rw [hch, hy] at hs
        cases hs
        rw [run_read_none k rest hy] at hrun
        refine ⟨reqs, crewInv_local h hap (fun _ _ => rfl) rfl ⟨d, c, hc, ht, op, hop, hrun.symm, ?_⟩⟩
        have : 1 ≤ costAcc k (Acc.read ch rest) e := by rw [costAcc]; omega
        omega
      | some y =>
        rw [hch, hy] at hs
        cases hs
        rw [run_read_some k rest hy] at hrun
        refine ⟨reqs, crewInv_local h hap (fun _ _ => rfl) rfl ⟨d, c, hc, ht, op, e, hop, hag, hw.2 y, hrun, ?_⟩⟩
        have : costAcc k (Acc.read ch rest) e = 1 + costAcc k (rest y) e := by rw [costAcc, hy]
        omega
    | write ch idx m rest =>
      dsimp only at hs
      rcases setSub_agree (idx := idx) (m := m) hag (ch := ch) (.inl hw.1) with ⟨h1, h2⟩ | ⟨d', e', h1, h2, h3⟩
      · rw [h1] at hs
        cases hs
        rw [run_write, h2] at hrun
        refine ⟨reqs, crewInv_local h hap (fun _ _ => rfl) rfl ⟨d, c, hc, ht, op, hop, hrun.symm, ?_⟩⟩
        have : 1 ≤ costAcc k (Acc.write ch idx m rest) e := by rw [costAcc]; omega
        omega
      · rw [h1] at hs
        cases hs
        rw [run_write, h2] at hrun
        refine ⟨reqs, crewInv_local h hap (fun c hcw => setSub_other h1 fun he => hcw (he ▸ hw.1)) (setSub_length h1)
          ⟨d, c, hc, ht, op, e', hop, h3, hw.2, hrun, ?_⟩⟩
        have : costAcc k (Acc.write ch idx m rest) e = 1 + costAcc k rest e' := by rw [costAcc, h2]
        omega
  | asking rest =>
    rw [hd] at hs hdo
    dsimp only at hs
    obtain ⟨op, e, q, pre, hop, hag, hw, hrun, hq, hx⟩ := hdo
    split at hs
    · rename_i hpc htodo
      rw [last_answer (h.shared.served i) htodo hq] at hs
      cases hs
      refine ⟨reqs, crewInv_local h hap (fun _ _ => rfl) rfl ⟨d, c, hc, ⟨hpc, htodo⟩, op, e, hop, hag, hw _, hrun, ?_⟩⟩
      omega
    · cases hss : s.shared.step k i with
      | none => rw [hss] at hs; cases hs
      | some sh =>
        rw [hss] at hs
        cases hs
        obtain ⟨t, h1, h2⟩ := step_cost hss
        refine ⟨reqs, inv_step h.shared hss, fun j => ?_, h.rest, h.size⟩
        show HandOk k p d0 (progs j) (W j) (R j) (reqs j) (sh.threads j) s.decs _ (s.hands j)
        rw [h1]
        by_cases hj : j = i
        · subst hj
          simp only [Function.update_self]
          unfold HandOk
          rw [hd]
          exact ⟨d, c, hc, op, e, q, pre, hop, hag, hw, hrun, hq, by omega⟩
        · simp only [Function.update_of_ne hj]
          exact h.hand j

theorem crewInv_serves {k : Kit α} {p : Params} {d0 : Decs α} {progs : Fin n → CrewProg α} {W R : Fin n → ℕ → Prop}
    {reqs : Fin n → List Req} {x : Fin n → ℕ} {s s' : Crew α n} {l : List (Fin n)} (h : CrewInv k p d0 progs W R reqs x s)
    (hap : Apart W R) (hk : ∀ i, KeepsTo (W i) (R i) (progs i)) (hs : CrewServes k p progs s l s') :
    ∃ reqs' x', CrewInv k p d0 progs W R reqs' x' s' ∧ ∑ i, x i + l.length = ∑ i, x' i := by
  induction hs generalizing reqs x with
  | nil => exact ⟨reqs, x, h, rfl⟩
  | @cons s s1 s2 i l h1 _ ih =>
    obtain ⟨r, hr⟩ := crewInv_step h hap hk h1
    obtain ⟨r', x', h2, h3⟩ := ih hr
    refine ⟨r', x', h2, ?_⟩
    rw [← h3, Finset.sum_update_of_mem (Finset.mem_univ i), List.length_cons,
      ← Finset.add_sum_erase _ x (Finset.mem_univ i), Finset.sdiff_singleton_eq_erase]
    omega

/-- When no thread can do anything, each has crashed or has no other call to make. -/
theorem crew_progress {k : Kit α} {p : Params} {d0 : Decs α} {progs : Fin n → CrewProg α} {W R : Fin n → ℕ → Prop}
    {reqs : Fin n → List Req} {x : Fin n → ℕ} {s : Crew α n} (h : CrewInv k p d0 progs W R reqs x s)
    (hs : ∀ i, s.step k p progs i = none) (i : Fin n) :
    (s.hands i).doing = .crashed ∨ ((s.hands i).doing = .free ∧ progs i (s.hands i).replies = none) := by
  have hstep : ∀ j s', s.shared.step k j = some s' → False := by
    intro j s' hj
    have hnot : ¬ Rests (s.shared.threads j) := by
      rintro ⟨h1, h2⟩
      unfold Shared.step at hj
      rw [h1, h2] at hj
      cases hj
    obtain ⟨d, c, hc, hdo⟩ := h.hand j
    cases hd : (s.hands j).doing with
    | free => rw [hd] at hdo; exact hnot hdo.1
    | crashed => rw [hd] at hdo; exact hnot hdo.1
    | inCall a => rw [hd] at hdo; exact hnot hdo.1
    | asking rest =>
      have := hs j
      unfold Crew.step at this
      rw [hd] at this
      dsimp only at this
      split at this
      · rename_i h1 h2; exact hnot ⟨h1, h2⟩
      · rw [hj] at this; cases this
  obtain ⟨d, c, hc, hdo⟩ := h.hand i
  have hsi := hs i
  unfold Crew.step at hsi
  cases hd : (s.hands i).doing with
  | crashed => exact .inl rfl
  | free =>
    refine .inr ⟨rfl, ?_⟩
    rw [hd] at hsi
    dsimp only at hsi
    cases hop : progs i (s.hands i).replies with
    | none => rfl
    | some op => rw [hop] at hsi; cases hsi
  | inCall a =>
    exfalso
    rw [hd] at hsi
    cases a with
    | read ch rest => dsimp only at hsi; split at hsi <;> cases hsi
    | write ch idx m rest => dsimp only at hsi; split at hsi <;> cases hsi
    | _ => cases hsi
  | asking rest =>
    exfalso
    rw [hd] at hsi hdo
    obtain ⟨op, e, q, pre, hop, hag, hw, hrun, hq, hx⟩ := hdo
    by_cases hidle : Rests (s.shared.threads i)
    · rw [hidle.1, hidle.2] at hsi
      dsimp only at hsi
      rw [last_answer (h.shared.served i) hidle.2 hq] at hsi
      cases hsi
    · have hor : (s.shared.threads i).pc ≠ .idle ∨ (s.shared.threads i).todo ≠ [] := by
        by_contra hcon
        push Not at hcon
        exact hidle hcon
      obtain ⟨j, s', hj⟩ := progress h.shared ⟨i, hor⟩
      exact hstep j s' hj

/-- Steps of a thread whose program ends alone. -/
theorem crew_spent {k : Kit α} {p : Params} {d0 : Decs α} {progs : Fin n → CrewProg α} {W R : Fin n → ℕ → Prop}
    {reqs : Fin n → List Req} {x : Fin n → ℕ} {s : Crew α n} (h : CrewInv k p d0 progs W R reqs x s) {i : Fin n} {d : Decs α}
    {rs : List (CrewReply α)} {c : ℕ} (hc : CrewCost k p d0 (progs i) d rs c) (hend : progs i rs = none) :
    x i ≤ c ∧ (s.hands i).doing ≠ .crashed ∧ (progs i (s.hands i).replies = none → (s.hands i).doing = .free →
      (s.hands i).replies = rs ∧ Agree (fun ch => W i ch ∨ R i ch) s.decs d) := by
  obtain ⟨d', c', hc', hdo⟩ := h.hand i
  have ha := crewCost_final hc hend hc'
  have key : ∀ op, progs i (s.hands i).replies = some op → CrewOp.call k ⟨p, d'⟩ op ≠ none ∧ c' + callCost k p d' op ≤ c := by
    intro op hop
    cases ha with
    | refl => rw [hend] at hop; cases hop
    | step g1 g2 g3 =>
      rw [hop] at g1
      cases g1
      exact ⟨by rw [g2]; simp, crewAhead_le g3⟩
  cases hd : (s.hands i).doing with
  | free =>
    rw [hd] at hdo
    refine ⟨hdo.2.2.trans (crewAhead_le ha), by simp, fun hn _ => ?_⟩
    cases ha with
    | refl => exact ⟨rfl, hdo.2.1⟩
    | step g1 _ _ => rw [hn] at g1; cases g1
  | inCall a =>
    rw [hd] at hdo
    obtain ⟨ht, op, e, hop, hag, hw, hrun, hx⟩ := hdo
    have := (key op hop).2
    exact ⟨by omega, by simp, fun _ h => (by cases h)⟩
  | asking rest =>
    rw [hd] at hdo
    obtain ⟨op, e, q, pre, hop, hag, hw, hrun, hq, hx⟩ := hdo
    have := (key op hop).2
    exact ⟨by omega, by simp, fun _ h => (by cases h)⟩
  | crashed =>
    rw [hd] at hdo
    obtain ⟨ht, op, hop, hn, hx⟩ := hdo
    exact absurd hn (key op hop).1

end WB
