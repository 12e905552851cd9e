import Verif.Spec.Clients
import Verif.Proof.Threads
import Verif.Proof.World

/-!
Invariant of threads that call the interface on buffers of their own.
-/

set_option linter.unusedSectionVars false

namespace WB

open Spec

variable {α : Type} {n : ℕ} [Zero α] [Add α] [Mul α] [Neg α] [Inhabited α]

/-! ### A call is its start, the fresh answer, and the rest -/

/-- What becomes of a call when the cache answers freshly. -/
def Begun.fresh (k : Kit α) : Begun α → Option (Own α × Reply α)
  | .ends r => r
  | .asks q rest => rest (freshAnswer k q)

theorem own_update (w : World α) (a : ℕ) (b : Buffer α) (c c' : Cache α) (r : Run (Decs α) Bool) :
    ownEffect (w.update a b (c, r)) = ownEffect (w.own.world.update a b (c', r)) := by
  cases r <;> rfl

theorem own_query (w : World α) (c c' : Cache α) (r : Outcome (Reply α)) :
    ownEffect (w.query (c, r)) = ownEffect (w.own.world.query (c', r)) := by
  cases r <;> rfl

theorem own_build (w : World α) (r : Outcome (Buffer α)) : ownEffect (w.build r) = ownEffect (w.own.world.build r) := by
  cases r <;> rfl

theorem find_own (w : World α) (h : ℕ) : w.own.world.find h = w.find h := rfl

theorem beginDecompose_eq {k : Kit α} {w : World α} (hc : CacheOk k w.cache) (a : ℕ) (b : Buffer α) (data : List (Mat α))
    (den : Denoiser α) (start count : ℤ) :
    ownEffect (w.update a b (decomposeCached k w.cache b.params b.decs data den start count)) =
      (w.own.beginDecompose k a b data den start count).fresh k := by
  unfold decomposeCached Own.beginDecompose
  dsimp only
  have hneg : ∀ q : Prop, ¬ q → ¬ (b.params.dimension = 2 ∧ q) := fun q hq h => hq h.2
  rcases shapeCheck b.params data count with (_ | _) | _ | _
  · rw [if_neg (hneg _ Bool.false_ne_true), if_neg (hneg _ Bool.false_ne_true)]
    exact own_update _ _ _ _ _ _
  · by_cases hd : b.params.dimension = 2
    · rw [if_pos ⟨hd, rfl⟩, if_pos ⟨hd, rfl⟩, (cacheResult_main hc b.params).1]
      exact own_update _ _ _ _ _ _
    · rw [if_neg (fun h => hd h.1), if_neg (fun h => hd h.1)]
      exact own_update _ _ _ _ _ _
  · rw [if_neg (hneg _ Bool.false_ne_true), if_neg (hneg _ Bool.false_ne_true)]
    exact own_update _ _ _ _ _ _
  · rw [if_neg (hneg _ Bool.false_ne_true), if_neg (hneg _ Bool.false_ne_true)]
    exact own_update _ _ _ _ _ _

theorem beginCompose_eq {k : Kit α} {w : World α} (hc : CacheOk k w.cache) (b : Buffer α) (scale start count : ℤ)
    (f : List (Mat α) → Outcome (Reply α)) :
    ownEffect (w.query ((composeCached k w.cache b.params b.decs scale start count).1,
      (composeCached k w.cache b.params b.decs scale start count).2 >>= f)) =
      (w.own.beginCompose k b scale start count f).fresh k := by
  unfold composeCached Own.beginCompose
  dsimp only
  by_cases hif : b.params.dimension = 2 ∧ ¬ count < 0
  · rw [if_pos hif, if_pos hif]
    dsimp only
    rw [(cacheResult_trans hc b.params).1]
    exact own_query _ _ _ _
  · rw [if_neg hif, if_neg hif]
    exact own_query _ _ _ _

/-- A call in a process with a sound cache does to the buffers what its start and a fresh answer make of it. -/
theorem start_eq {k : Kit α} {w : World α} (hc : CacheOk k w.cache) (op : Op α) :
    ownEffect (w.step k op) = (w.own.start k op).fresh k := by
  cases op with
  | construct p => exact own_build _ _
  | constructWith p d => exact own_build _ _
  | decompose h data den =>
    simp only [World.step, Own.start, find_own]
    cases w.find h with
    | none => rfl
    | some x => exact beginDecompose_eq hc _ _ _ _ _ _
  | decompose1 h data den =>
    simp only [World.step, Own.start, find_own]
    cases w.find h with
    | none => rfl
    | some x => exact beginDecompose_eq hc _ _ _ _ _ _
  | compose h scale =>
    simp only [World.step, Own.start, find_own]
    cases w.find h with
    | none => rfl
    | some x => exact beginCompose_eq hc _ _ _ _ _
  | compose1 h scale =>
    simp only [World.step, Own.start, find_own]
    cases w.find h with
    | none => rfl
    | some x => exact beginCompose_eq hc _ _ _ _ _
  | viewDecompose h v data den =>
    simp only [World.step, Own.start, find_own]
    cases w.find h with
    | none => rfl
    | some x =>
      dsimp only
      rcases v.checkRange x.2.params.signalNumber with (_ | _) | _ | _
      · rfl
      · dsimp only
        cases v.isConst
        · exact beginDecompose_eq hc _ _ _ _ _ _
        · rfl
      · rfl
      · rfl
  | viewCompose h v scale =>
    simp only [World.step, Own.start, find_own]
    cases w.find h with
    | none => rfl
    | some x =>
      dsimp only
      rcases v.checkRange x.2.params.signalNumber with (_ | _) | _ | _
      · rfl
      · exact beginCompose_eq hc _ _ _ _ _
      · rfl
      · rfl
  | cast h v =>
    simp only [World.step, Own.start, find_own]
    cases w.find h with
    | none => rfl
    | some x => exact own_build _ _
  | write h ch idx m =>
    simp only [World.step, Own.start, find_own]
    cases w.find h with
    | none => rfl
    | some x => dsimp only; split <;> rfl
  | copy h =>
    simp only [World.step, Own.start, find_own]
    cases w.find h with
    | none => rfl
    | some x => rfl
  | move h =>
    show ownEffect (match w.handles[h]? with | none => none | some .dead => none | some s => _) =
      ownEffect (match w.handles[h]? with | none => none | some .dead => none | some s => _)
    rcases w.handles[h]? with _ | (_ | _ | _) <;> rfl
  | assign h g =>
    simp only [World.step, Own.start, find_own]
    show ownEffect (match w.handles[h]?, w.find g with | some .dead, _ => none | some _, some (_, b) => _ | _, _ => none) =
      ownEffect (match w.handles[h]?, w.find g with | some .dead, _ => none | some _, some (_, b) => _ | _, _ => none)
    rcases w.handles[h]? with _ | (_ | _ | _) <;> rcases w.find g with _ | ⟨_, _⟩ <;> rfl
  | moveAssign h g =>
    simp only [World.step, Own.start]
    show ownEffect (match w.handles[h]?, w.handles[g]? with
        | some .dead, _ => none | _, some .dead => none | some _, some s => _ | _, _ => none) =
      ownEffect (match w.handles[h]?, w.handles[g]? with
        | some .dead, _ => none | _, some .dead => none | some _, some s => _ | _, _ => none)
    rcases w.handles[h]? with _ | (_ | _ | _) <;> rcases w.handles[g]? with _ | (_ | _ | _) <;>
      first | rfl | (dsimp only; split <;> rfl)
  | destroy h =>
    simp only [World.step, Own.start]
    show ownEffect (match w.handles[h]? with | none => none | some .dead => none | some _ => _) =
      ownEffect (match w.handles[h]? with | none => none | some .dead => none | some _ => _)
    rcases w.handles[h]? with _ | (_ | _ | _) <;> rfl

/-! ### Running alone -/

theorem alone_inv {k : Kit α} {w0 : World α} (h0 : w0.Inv k) {prog : Prog α} {w : World α} {rs : List (Reply α)}
    (h : AloneFrom k w0 prog w rs) : w.Inv k := by
  induction h with
  | start => exact h0
  | call _ _ hs ih => exact World.inv_step ih _ hs

/-- The call is over: what the thread has now is what the program alone has after one more call. -/
theorem alone_reply {k : Kit α} {w0 : World α} (h0 : w0.Inv k) {prog : Prog α} {w : World α} {rs : List (Reply α)} (h : AloneFrom k w0 prog w rs) {op : Op α}
    (hop : prog w.own rs = some op) {o : Own α} {r : Reply α} (hr : (w.own.start k op).fresh k = some (o, r)) :
    ∃ w', AloneFrom k w0 prog w' (rs ++ [r]) ∧ w'.own = o := by
  rw [← start_eq (alone_inv h0 h).cache] at hr
  unfold ownEffect at hr
  rw [Option.map_eq_some_iff] at hr
  obtain ⟨⟨w', r'⟩, h1, h2⟩ := hr
  cases h2
  exact ⟨w', .call h hop h1, rfl⟩

theorem alone_crash {k : Kit α} {w0 : World α} (h0 : w0.Inv k) {prog : Prog α} {w : World α} {rs : List (Reply α)} (h : AloneFrom k w0 prog w rs) {op : Op α}
    (hr : (w.own.start k op).fresh k = none) : w.step k op = none := by
  rw [← start_eq (alone_inv h0 h).cache] at hr
  unfold ownEffect at hr
  exact Option.map_eq_none_iff.1 hr

/-- Alone, a program has one run: its states are ordered by the number of replies. -/
theorem alone_det {k : Kit α} {w0 : World α} {prog : Prog α} {w w' : World α} {rs rs' : List (Reply α)} (h : AloneFrom k w0 prog w rs)
    (h' : AloneFrom k w0 prog w' rs') (hl : rs.length = rs'.length) : w = w' ∧ rs = rs' := by
  induction h generalizing w' rs' with
  | start =>
    cases h' with
    | start => exact ⟨rfl, rfl⟩
    | call _ _ _ => simp at hl
  | call h1 h2 h3 ih =>
    cases h' with
    | start => simp at hl
    | call g1 g2 g3 =>
      obtain ⟨rfl, rfl⟩ := ih g1 (by simpa using hl)
      rw [h2] at g2
      cases g2
      rw [h3] at g3
      cases g3
      exact ⟨rfl, rfl⟩

theorem alone_before {k : Kit α} {w0 : World α} {prog : Prog α} {w : World α} {rs : List (Reply α)} (h : AloneFrom k w0 prog w rs) {m : ℕ}
    (hm : m < rs.length) : ∃ w' op w'' r, AloneFrom k w0 prog w' (rs.take m) ∧ prog w'.own (rs.take m) = some op ∧
      w'.step k op = some (w'', r) := by
  induction h with
  | start => simp at hm
  | @call w w' rs op r h1 h2 h3 ih =>
    by_cases hlt : m < rs.length
    · obtain ⟨w1, op1, w2, r1, a, b, c⟩ := ih hlt
      rw [List.take_append_of_le_length hlt.le]
      exact ⟨w1, op1, w2, r1, a, b, c⟩
    · have : m = rs.length := by simp at hm; omega
      subst this
      rw [List.take_left']
      · exact ⟨w, op, w', r, h1, h2, h3⟩
      · rfl

/-! ### The invariant -/

/-- What holds for a thread: its buffers and replies are those of the program alone, and where it is. -/
structure ClientOk (k : Kit α) (w0 : World α) (prog : Prog α) (reqs : List Req) (t : Thread α) (c : Client α) : Prop where
  alone : ∃ w, AloneFrom k w0 prog w c.replies ∧ w.own = c.own
  free : c.doing = .free → t.pc = .idle ∧ t.todo = []
  crashed : c.doing = .crashed → (t.pc = .idle ∧ t.todo = []) ∧
    ∃ op, prog c.own c.replies = some op ∧ (c.own.start k op).fresh k = none
  waiting : ∀ rest, c.doing = .waiting rest → t.cost ≤ 13 ∧
    ∃ op q pre, prog c.own c.replies = some op ∧ c.own.start k op = .asks q rest ∧ reqs = pre ++ [q]

/-- The invariant. -/
structure PInv (k : Kit α) (w0 : Fin n → World α) (progs : Fin n → Prog α) (reqs : Fin n → List Req) (s : Process α n) : Prop where
  start : ∀ i, (w0 i).Inv k
  shared : Inv k reqs s.shared
  client : ∀ i, ClientOk k (w0 i) (progs i) (reqs i) (s.shared.threads i) (s.clients i)

theorem pinv_start (k : Kit α) {c : Cache α} (hc : CacheOk k c) {w0 : Fin n → World α} (h0 : ∀ i, (w0 i).Inv k)
    (progs : Fin n → Prog α) : PInv k w0 progs (fun _ => []) (Process.start c fun i => (w0 i).own) := by
  refine ⟨h0, ⟨hc.1, hc.2, fun i => ?_, fun i => ?_, fun i => trivial, fun i => ⟨[], rfl, rfl⟩⟩,
    fun i => ⟨⟨_, .start, rfl⟩, fun _ => ⟨rfl, rfl⟩, fun h => ?_, fun _ h => ?_⟩⟩
  · simp [Process.start, Pc.inMain]
  · simp [Process.start, Pc.inTrans]
  · cases h
  · cases h

theorem pinv_init (k : Kit α) (progs : Fin n → Prog α) :
    PInv k (fun _ => World.init) progs (fun _ => []) (Process.init : Process α n) :=
  pinv_start k (cacheOk_empty k) (fun _ => World.inv_init k) progs

theorem pinv_reply {k : Kit α} {w0 : Fin n → World α} {progs : Fin n → Prog α} {reqs : Fin n → List Req} {s : Process α n} (h : PInv k w0 progs reqs s)
    {i : Fin n} (ht : (s.shared.threads i).pc = .idle ∧ (s.shared.threads i).todo = []) {op : Op α}
    (hop : progs i (s.clients i).own (s.clients i).replies = some op) {r : Option (Own α × Reply α)}
    (hr : ((s.clients i).own.start k op).fresh k = r) : PInv k w0 progs reqs (s.reply i r) := by
  obtain ⟨w, hw, ho⟩ := (h.client i).alone
  cases r with
  | none =>
    refine ⟨h.start, h.shared, fun j => ?_⟩
    show ClientOk k (w0 j) (progs j) (reqs j) (s.shared.threads j)
      (Function.update s.clients i { s.clients i with doing := .crashed } j)
    by_cases hj : j = i
    · subst hj
      rw [Function.update_self]
      exact ⟨⟨w, hw, ho⟩, fun h => (by cases h), fun _ => ⟨ht, op, hop, hr⟩, fun _ h => (by cases h)⟩
    · rw [Function.update_of_ne hj]; exact h.client j
  | some x =>
    obtain ⟨o, x⟩ := x
    refine ⟨h.start, h.shared, fun j => ?_⟩
    show ClientOk k (w0 j) (progs j) (reqs j) (s.shared.threads j)
      (Function.update s.clients i ⟨o, (s.clients i).replies ++ [x], .free⟩ j)
    by_cases hj : j = i
    · subst hj
      rw [Function.update_self]
      rw [← ho] at hop hr
      exact ⟨alone_reply (h.start j) hw hop hr, fun _ => ht, fun h => (by cases h), fun _ h => (by cases h)⟩
    · rw [Function.update_of_ne hj]; exact h.client j

theorem inv_push {k : Kit α} {reqs : Fin n → List Req} {s : Shared α n} (hs : Inv k reqs s) {i : Fin n}
    (ht : (s.threads i).pc = .idle ∧ (s.threads i).todo = []) (q : Req) :
    Inv k (Function.update reqs i (reqs i ++ [q])) (s.setThread i ((s.threads i).push q)) := by
  refine ⟨hs.main_ok, hs.trans_ok, fun j => ?_, fun j => ?_, fun j => ?_, fun j => ?_⟩
  all_goals
    show _
    unfold Shared.setThread
    dsimp only
    by_cases hj : j = i
    · subst hj
      simp only [Function.update_self]
      first
        | exact hs.mutex j
        | exact hs.transMutex j
        | (show PcOk k s.main s.trans _ (s.threads j).pc
           rw [ht.1]; trivial)
        | (obtain ⟨l, h1, h2⟩ := hs.served j
           exact ⟨l, by rw [h1]; simp [Thread.push], h2⟩)
    · simp only [Function.update_of_ne hj]
      first
        | exact hs.mutex j
        | exact hs.transMutex j
        | exact hs.pc j
        | exact hs.served j

/-- The answer to the last request is fresh. -/
theorem last_answer {k : Kit α} {reqs : List Req} {t : Thread α} (h : Served k reqs t) (ht : t.todo = []) {pre : List Req} {q : Req}
    (hq : reqs = pre ++ [q]) : t.results.getLast? = some (freshAnswer k q) := by
  obtain ⟨l, h1, h2⟩ := h
  rw [ht, List.append_nil] at h1
  rw [h2, ← h1, hq]
  simp

theorem pinv_step {k : Kit α} {w0 : Fin n → World α} {progs : Fin n → Prog α} {reqs : Fin n → List Req} {s s' : Process α n} (h : PInv k w0 progs reqs s)
    {i : Fin n} (hs : s.step k progs i = some s') : ∃ reqs', PInv k w0 progs reqs' s' := by
  unfold Process.step at hs
  cases hd : (s.clients i).doing with
  | crashed => rw [hd] at hs; cases hs
  | free =>
    rw [hd] at hs
    dsimp only at hs
    have ht := (h.client i).free hd
    cases hop : progs i (s.clients i).own (s.clients i).replies with
    | none => rw [hop] at hs; cases hs
    | some op =>
      rw [hop] at hs
      dsimp only at hs
      cases hb : (s.clients i).own.start k op with
      | ends r =>
        rw [hb] at hs
        cases hs
        exact ⟨reqs, pinv_reply h ht hop (by rw [hb]; rfl)⟩
      | asks q rest =>
        rw [hb] at hs
        cases hs
        refine ⟨_, h.start, inv_push h.shared ht q, fun j => ?_⟩
        show ClientOk k (w0 j) (progs j) _ (Function.update s.shared.threads i _ j) (Function.update s.clients i _ j)
        by_cases hj : j = i
        · subst hj
          simp only [Function.update_self]
          refine ⟨(h.client j).alone, fun h => (by cases h), fun h => (by cases h), fun rest' h => ?_⟩
          cases h
          refine ⟨?_, op, q, reqs j, hop, hb, rfl⟩
          simp [Thread.cost, Thread.push, ht.1, ht.2]
        · simp only [Function.update_of_ne hj]; exact h.client j
  | waiting rest =>
    rw [hd] at hs
    dsimp only at hs
    obtain ⟨hcost, op, q, pre, hop, hb, hq⟩ := (h.client i).waiting rest hd
    split at hs
    · rename_i hpc htodo
      rw [last_answer (h.shared.served i) htodo hq] at hs
      cases hs
      exact ⟨reqs, pinv_reply h ⟨hpc, htodo⟩ hop (by rw [hb]; rfl)⟩
    · cases hss : s.shared.step k i with
      | none => rw [hss] at hs; cases hs
      | some sh =>
        rw [hss] at hs
        cases hs
        refine ⟨reqs, h.start, inv_step h.shared hss, fun j => ?_⟩
        obtain ⟨t, h1, h2⟩ := step_cost hss
        show ClientOk k (w0 j) (progs j) (reqs j) (sh.threads j) (s.clients j)
        rw [h1]
        by_cases hj : j = i
        · subst hj
          rw [Function.update_self]
          refine ⟨(h.client j).alone, fun h => (by rw [hd] at h; cases h), fun h => (by rw [hd] at h; cases h), fun rest' h => ?_⟩
          rw [hd] at h
          cases h
          exact ⟨by omega, op, q, pre, hop, hb, hq⟩
        · rw [Function.update_of_ne hj]; exact h.client j

theorem pinv_serves {k : Kit α} {w0 : Fin n → World α} {progs : Fin n → Prog α} {reqs : Fin n → List Req} {s s' : Process α n} {l : List (Fin n)}
    (h : PInv k w0 progs reqs s) (hs : Serves k progs s l s') : ∃ reqs', PInv k w0 progs reqs' s' := by
  induction hs generalizing reqs with
  | nil => exact ⟨reqs, h⟩
  | cons h1 _ ih =>
    obtain ⟨r, hr⟩ := pinv_step h h1
    exact ih hr

/-! ### Progress -/

theorem process_progress {k : Kit α} {w0 : Fin n → World α} {progs : Fin n → Prog α} {reqs : Fin n → List Req} {s : Process α n} (h : PInv k w0 progs reqs s)
    (hs : Stuck k progs s) (i : Fin n) : (s.clients i).doing = .crashed ∨
      ((s.clients i).doing = .free ∧ progs i (s.clients i).own (s.clients i).replies = none) := by
  have hstep : ∀ j s', s.shared.step k j = some s' → False := by
    intro j s' hj
    have hnot : ¬ ((s.shared.threads j).pc = .idle ∧ (s.shared.threads j).todo = []) := by
      rintro ⟨h1, h2⟩
      unfold Shared.step at hj
      rw [h1, h2] at hj
      cases hj
    cases hd : (s.clients j).doing with
    | free => exact hnot ((h.client j).free hd)
    | crashed => exact hnot ((h.client j).crashed hd).1
    | waiting rest =>
      have := hs j
      unfold Process.step at this
      rw [hd] at this
      dsimp only at this
      split at this
      · rename_i h1 h2; exact hnot ⟨h1, h2⟩
      · rw [hj] at this; cases this
  cases hd : (s.clients i).doing with
  | crashed => exact .inl rfl
  | free =>
    refine .inr ⟨rfl, ?_⟩
    have := hs i
    unfold Process.step at this
    rw [hd] at this
    dsimp only at this
    cases hop : progs i (s.clients i).own (s.clients i).replies with
    | none => rfl
    | some op =>
      rw [hop] at this
      dsimp only at this
      split at this <;> cases this
  | waiting rest =>
    exfalso
    obtain ⟨_, op, q, pre, hop, hb, hq⟩ := (h.client i).waiting rest hd
    by_cases hidle : (s.shared.threads i).pc = .idle ∧ (s.shared.threads i).todo = []
    · have := hs i
      unfold Process.step at this
      rw [hd, hidle.1, hidle.2] at this
      dsimp only at this
      rw [last_answer (h.shared.served i) hidle.2 hq] at this
      cases this
    · have hor : (s.shared.threads i).pc ≠ .idle ∨ (s.shared.threads i).todo ≠ [] := by
        by_contra hcon
        push Not at hcon
        exact hidle hcon
      obtain ⟨j, s', hj⟩ := progress h.shared ⟨i, hor⟩
      exact hstep j s' hj

/-! ### Number of steps -/

/-- Steps a thread has taken at most. -/
def spentBy (t : Thread α) (c : Client α) : ℕ :=
  match c.doing with
  | .free => 15 * c.replies.length
  | .waiting _ => 15 * c.replies.length + (14 - t.cost)
  | .crashed => 15 * c.replies.length + 15

theorem spentBy_le (t : Thread α) (c : Client α) : spentBy t c ≤ 15 * (c.replies.length + 1) := by
  unfold spentBy
  split <;> omega

theorem sum_spent_lt {f g : Fin n → ℕ} {i : Fin n} (hi : f i < g i) (hj : ∀ j ≠ i, f j = g j) : ∑ j, f j < ∑ j, g j := by
  apply Finset.sum_lt_sum
  · intro j _
    by_cases h : j = i
    · subst h; exact hi.le
    · exact (hj j h).le
  · exact ⟨i, Finset.mem_univ i, hi⟩

theorem step_spent {k : Kit α} {w0 : Fin n → World α} {progs : Fin n → Prog α} {reqs : Fin n → List Req} {s s' : Process α n} (h : PInv k w0 progs reqs s)
    {i : Fin n} (hs : s.step k progs i = some s') :
    ∑ j, spentBy (s.shared.threads j) (s.clients j) < ∑ j, spentBy (s'.shared.threads j) (s'.clients j) := by
  have hreply : ∀ r, spentBy (s.shared.threads i) (s.clients i) < 15 * (s.clients i).replies.length + 15 →
      ∑ j, spentBy (s.shared.threads j) (s.clients j) <
        ∑ j, spentBy ((s.reply i r).shared.threads j) ((s.reply i r).clients j) := by
    intro r hr
    refine sum_spent_lt (i := i) ?_ fun j hj => ?_
    · rcases r with _ | ⟨o, x⟩
      · show _ < spentBy _ (Function.update s.clients i _ i)
        rw [Function.update_self]
        exact hr
      · show _ < spentBy _ (Function.update s.clients i _ i)
        rw [Function.update_self]
        refine lt_of_lt_of_le hr ?_
        simp [spentBy]; omega
    · rcases r with _ | ⟨o, x⟩
      · show _ = spentBy _ (Function.update s.clients i _ j)
        rw [Function.update_of_ne hj]; rfl
      · show _ = spentBy _ (Function.update s.clients i _ j)
        rw [Function.update_of_ne hj]; rfl
  unfold Process.step at hs
  cases hd : (s.clients i).doing with
  | crashed => rw [hd] at hs; cases hs
  | free =>
    rw [hd] at hs
    dsimp only at hs
    have ht := (h.client i).free hd
    have hsp : spentBy (s.shared.threads i) (s.clients i) = 15 * (s.clients i).replies.length := by
      unfold spentBy; rw [hd]
    cases hop : progs i (s.clients i).own (s.clients i).replies with
    | none => rw [hop] at hs; cases hs
    | some op =>
      rw [hop] at hs
      dsimp only at hs
      cases hb : (s.clients i).own.start k op with
      | ends r =>
        rw [hb] at hs
        cases hs
        exact hreply r (by omega)
      | asks q rest =>
        rw [hb] at hs
        cases hs
        refine sum_spent_lt (i := i) ?_ fun j hj => ?_
        · rw [hsp]
          show _ < spentBy (Function.update s.shared.threads i _ i) (Function.update s.clients i _ i)
          simp [spentBy, Thread.cost, Thread.push, ht.1, ht.2]
        · show _ = spentBy (Function.update s.shared.threads i _ j) (Function.update s.clients i _ j)
          simp only [Function.update_of_ne hj]
  | waiting rest =>
    rw [hd] at hs
    dsimp only at hs
    obtain ⟨hcost, op, q, pre, hop, hb, hq⟩ := (h.client i).waiting rest hd
    have hsp : spentBy (s.shared.threads i) (s.clients i) = 15 * (s.clients i).replies.length + (14 - (s.shared.threads i).cost) := by
      unfold spentBy; rw [hd]
    split at hs
    · rename_i hpc htodo
      rw [last_answer (h.shared.served i) htodo hq] at hs
      cases hs
      exact hreply _ (by omega)
    · cases hss : s.shared.step k i with
      | none => rw [hss] at hs; cases hs
      | some sh =>
        rw [hss] at hs
        cases hs
        obtain ⟨t, h1, h2⟩ := step_cost hss
        refine sum_spent_lt (i := i) ?_ fun j hj => ?_
        · rw [hsp]
          show _ < spentBy (sh.threads i) (s.clients i)
          rw [h1, Function.update_self]
          unfold spentBy
          rw [hd]
          dsimp only
          omega
        · show _ = spentBy (sh.threads j) (s.clients j)
          rw [h1, Function.update_of_ne hj]

theorem serves_spent {k : Kit α} {w0 : Fin n → World α} {progs : Fin n → Prog α} {reqs : Fin n → List Req} {s s' : Process α n} {l : List (Fin n)}
    (h : PInv k w0 progs reqs s) (hs : Serves k progs s l s') :
    l.length + ∑ j, spentBy (s.shared.threads j) (s.clients j) ≤ ∑ j, spentBy (s'.shared.threads j) (s'.clients j) := by
  induction hs generalizing reqs with
  | nil => simp
  | cons h1 _ ih =>
    obtain ⟨r, hr⟩ := pinv_step h h1
    have := step_spent h h1
    have := ih hr
    simp only [List.length_cons]
    omega

/-- A program that ends: nothing comes after its last reply, and before it every call is defined. -/
theorem alone_final {k : Kit α} {w0 : World α} {prog : Prog α} {w w' : World α} {rs rs' : List (Reply α)} (h : AloneFrom k w0 prog w rs)
    (hend : prog w.own rs = none) (h' : AloneFrom k w0 prog w' rs') : rs'.length ≤ rs.length ∧
      (rs'.length < rs.length → ∃ op x, prog w'.own rs' = some op ∧ w'.step k op = some x) := by
  constructor
  · by_contra hlt
    push Not at hlt
    obtain ⟨w1, op, _, _, h1, h2, _⟩ := alone_before h' hlt
    obtain ⟨rfl, e⟩ := alone_det h1 h (by simp; omega)
    rw [e, hend] at h2
    cases h2
  · intro hlt
    obtain ⟨w1, op, w2, r, h1, h2, h3⟩ := alone_before h hlt
    obtain ⟨rfl, e⟩ := alone_det h1 h' (by simp; omega)
    rw [e] at h2
    exact ⟨op, (w2, r), h2, h3⟩

/-! ### What follows for a process -/

theorem pinv_crash {k : Kit α} {w0 : Fin n → World α} {progs : Fin n → Prog α} {reqs : Fin n → List Req} {s : Process α n}
    (h : PInv k w0 progs reqs s) (i : Fin n) (hc : (s.clients i).doing = .crashed) :
    ∃ w op, AloneFrom k (w0 i) (progs i) w (s.clients i).replies ∧ progs i w.own (s.clients i).replies = some op ∧
      w.step k op = none := by
  obtain ⟨w, hw, ho⟩ := (h.client i).alone
  obtain ⟨_, op, h1, h2⟩ := (h.client i).crashed hc
  rw [← ho] at h1 h2
  exact ⟨w, op, hw, h1, alone_crash (h.start i) hw h2⟩

theorem serves_steps {k : Kit α} {w0 : Fin n → World α} {progs : Fin n → Prog α} {reqs : Fin n → List Req} {s s' : Process α n}
    {l : List (Fin n)} (h : PInv k w0 progs reqs s) (hs : Serves k progs s l s') :
    l.length ≤ ∑ i, 15 * ((s'.clients i).replies.length + 1) := by
  have h1 := serves_spent h hs
  have h2 : ∑ j, spentBy (s'.shared.threads j) (s'.clients j) ≤ ∑ i, 15 * ((s'.clients i).replies.length + 1) :=
    Finset.sum_le_sum fun j _ => spentBy_le _ _
  omega

theorem pinv_replies {k : Kit α} {w0 : Fin n → World α} {progs : Fin n → Prog α} {reqs : Fin n → List Req} {s : Process α n}
    (h : PInv k w0 progs reqs s) {w : Fin n → World α} {rs : Fin n → List (Reply α)}
    (halone : ∀ i, AloneFrom k (w0 i) (progs i) (w i) (rs i)) (hend : ∀ i, progs i (w i).own (rs i) = none) (i : Fin n) :
    (s.clients i).replies.length ≤ (rs i).length := by
  obtain ⟨w', hw', _⟩ := (h.client i).alone
  exact (alone_final (halone i) (hend i) hw').1

theorem pinv_finish {k : Kit α} {w0 : Fin n → World α} {progs : Fin n → Prog α} {reqs : Fin n → List Req} {s : Process α n}
    (h : PInv k w0 progs reqs s) {w : Fin n → World α} {rs : Fin n → List (Reply α)}
    (halone : ∀ i, AloneFrom k (w0 i) (progs i) (w i) (rs i)) (hend : ∀ i, progs i (w i).own (rs i) = none)
    (hs : Stuck k progs s) (i : Fin n) :
    ((s.clients i).doing = .free ∧ progs i (s.clients i).own (s.clients i).replies = none) ∧
      (s.clients i).own = (w i).own ∧ (s.clients i).replies = rs i := by
  rcases process_progress h hs i with hc | ⟨hf, hn⟩
  · exfalso
    obtain ⟨w', op, h1, h2, h3⟩ := pinv_crash h i hc
    obtain ⟨hle, hlt⟩ := alone_final (halone i) (hend i) h1
    rcases lt_or_eq_of_le hle with hl | he
    · obtain ⟨op', x, g1, g2⟩ := hlt hl
      rw [h2] at g1
      cases g1
      rw [h3] at g2
      cases g2
    · obtain ⟨rfl, e⟩ := alone_det h1 (halone i) he
      rw [e, hend i] at h2
      cases h2
  · obtain ⟨w', h1, h2⟩ := (h.client i).alone
    refine ⟨⟨hf, hn⟩, ?_⟩
    obtain ⟨hle, hlt⟩ := alone_final (halone i) (hend i) h1
    rcases lt_or_eq_of_le hle with hl | he
    · obtain ⟨op', x, g1, g2⟩ := hlt hl
      rw [h2, hn] at g1
      cases g1
    · obtain ⟨rfl, e⟩ := alone_det h1 (halone i) he
      exact ⟨h2.symm, e⟩

theorem inv_race {k : Kit α} {reqs : Fin n → List Req} {s : Shared α n} (hs : Inv k reqs s) {i j : Fin n} (hij : i ≠ j) :
    ¬ (TouchesMain (s.threads i) ∧ TouchesMain (s.threads j)) ∧
    ¬ (TouchesTrans (s.threads i) ∧ TouchesTrans (s.threads j)) := by
  have m : ∀ i, TouchesMain (s.threads i) → s.mutex = some i := by
    intro i hi
    refine (hs.mutex i).2 ?_
    unfold TouchesMain at hi
    cases hp : (s.threads i).pc <;> rw [hp] at hi <;> simp_all [Pc.inMain]
  have t : ∀ i, TouchesTrans (s.threads i) → s.transMutex = some i := by
    intro i hi
    refine (hs.transMutex i).2 ?_
    unfold TouchesTrans at hi
    cases hp : (s.threads i).pc <;> rw [hp] at hi <;> simp_all [Pc.inTrans]
  constructor
  · rintro ⟨h1, h2⟩
    have := (m i h1).symm.trans (m j h2)
    injection this with this
    exact hij this
  · rintro ⟨h1, h2⟩
    have := (t i h1).symm.trans (t j h2)
    injection this with this
    exact hij this

end WB
