import Verif.Proof.Clients

/-!
C115: threads that keep to buffers of their own do not notice each other.
-/

namespace WB.Props

open Spec

variable {α : Type} {n : ℕ} [Zero α] [Add α] [Mul α] [Neg α] [Inhabited α]

/-- **C115.** For every number of threads, all programs and every schedule, at every moment the buffers a thread has and the
replies it has got are those of its program running alone in a process of its own. -/
theorem C115_isolated (k : Kit α) (progs : Fin n → Prog α) (l : List (Fin n)) (s : Process α n)
    (h : Serves k progs Process.init l s) (i : Fin n) :
    ∃ w, Alone k (progs i) w (s.clients i).replies ∧ w.own = (s.clients i).own := by
  obtain ⟨reqs, hs⟩ := pinv_serves (pinv_init k progs) h
  exact (hs.client i).alone

/-- **C115.** A thread runs into undefined behaviour only in a call that has undefined behaviour also when its program runs
alone. -/
theorem C115_crash (k : Kit α) (progs : Fin n → Prog α) (l : List (Fin n)) (s : Process α n)
    (h : Serves k progs Process.init l s) (i : Fin n) (hc : (s.clients i).doing = .crashed) :
    ∃ w op, Alone k (progs i) w (s.clients i).replies ∧ progs i w.own (s.clients i).replies = some op ∧ w.step k op = none := by
  obtain ⟨reqs, hs⟩ := pinv_serves (pinv_init k progs) h
  exact pinv_crash hs i hc

/-- **C115.** No deadlock: when no thread can take a step, every thread is finished or has run into undefined behaviour. -/
theorem C115_no_deadlock (k : Kit α) (progs : Fin n → Prog α) (l : List (Fin n)) (s : Process α n)
    (h : Serves k progs Process.init l s) (hs : Stuck k progs s) (i : Fin n) :
    (s.clients i).doing = .crashed ∨
      ((s.clients i).doing = .free ∧ progs i (s.clients i).own (s.clients i).replies = none) := by
  obtain ⟨reqs, hp⟩ := pinv_serves (pinv_init k progs) h
  exact process_progress hp hs i

/-- **C115.** No endless waiting: a schedule has at most 15 steps for every reply and 15 for every thread. -/
theorem C115_steps (k : Kit α) (progs : Fin n → Prog α) (l : List (Fin n)) (s : Process α n)
    (h : Serves k progs Process.init l s) : l.length ≤ ∑ i, 15 * ((s.clients i).replies.length + 1) :=
  serves_steps (pinv_init k progs) h

/-- **C115.** If every program running alone ends, without undefined behaviour, then together they end whatever the schedule:
it has at most 15 steps for every call and 15 for every thread, and when nothing more can be done every thread is finished
with the buffers and the replies it would have got alone. -/
theorem C115_all_finish (k : Kit α) (progs : Fin n → Prog α) (w : Fin n → World α) (rs : Fin n → List (Reply α))
    (halone : ∀ i, Alone k (progs i) (w i) (rs i)) (hend : ∀ i, progs i (w i).own (rs i) = none)
    (l : List (Fin n)) (s : Process α n) (h : Serves k progs Process.init l s) :
    l.length ≤ ∑ i, 15 * ((rs i).length + 1) ∧
    (Stuck k progs s → AllFinished progs s ∧ ∀ i, (s.clients i).own = (w i).own ∧ (s.clients i).replies = rs i) := by
  obtain ⟨reqs, hp⟩ := pinv_serves (pinv_init k progs) h
  refine ⟨(serves_steps (pinv_init k progs) h).trans (Finset.sum_le_sum fun i _ => ?_), fun hs => ?_⟩
  · have := pinv_replies hp halone hend i
    omega
  · have := pinv_finish hp halone hend hs
    exact ⟨fun i => (this i).1, fun i => (this i).2⟩

/-- **C115.** No data race on the maps of the cache: two threads are never both about to read or change the same map. The
buffers of a thread are touched by nobody else by construction of the model. -/
theorem C115_no_data_race (k : Kit α) (progs : Fin n → Prog α) (l : List (Fin n)) (s : Process α n)
    (h : Serves k progs Process.init l s) (i j : Fin n) (hij : i ≠ j) :
    ¬ (TouchesMain (s.shared.threads i) ∧ TouchesMain (s.shared.threads j)) ∧
    ¬ (TouchesTrans (s.shared.threads i) ∧ TouchesTrans (s.shared.threads j)) := by
  obtain ⟨reqs, hp⟩ := pinv_serves (pinv_init k progs) h
  exact inv_race hp.shared hij

/-! ### example: two threads, each makes a buffer, decomposes a picture, composes it and decides by the result -/

/-- A small filter table. -/
private def exKit : Kit ℤ := ⟨fun o => if o = 1 then [1, 1] else [], id, fun _ _ x => x⟩

/-- Make a buffer for 2 × 2 pictures, decompose a picture whose pixels are all `x`, compose it; if the decomposition has
succeeded compose once more. -/
def exProg (x : ℤ) : Prog ℤ := fun _ rs =>
  match rs with
  | [] => some (.construct ⟨[2, 2], 1, 1, 1⟩)
  | [_] => some (.decompose 0 [Mat.ofFn 2 2 fun _ _ => x] nullDenoiser)
  | [_, .bool true] => some (.compose 0 0)
  | [_, .bool true, _] => some (.compose 0 1)
  | _ => none

/-- The programs of the two threads. -/
def exProgs : Fin 2 → Prog ℤ
  | 0 => exProg 1
  | 1 => exProg 5

/-- Run a schedule. -/
def serveAll (k : Kit ℤ) (progs : Fin 2 → Prog ℤ) : List (Fin 2) → Process ℤ 2 → Option (Process ℤ 2)
  | [], s => some s
  | i :: l, s => match s.step k progs i with
    | none => none
    | some s' => serveAll k progs l s'

theorem serves_of_serveAll (k : Kit ℤ) (progs : Fin 2 → Prog ℤ) (l : List (Fin 2)) (s s' : Process ℤ 2)
    (h : serveAll k progs l s = some s') : Serves k progs s l s' := by
  induction l generalizing s with
  | nil => cases h; exact .nil _
  | cons i l ih =>
    unfold serveAll at h
    cases hs : s.step k progs i with
    | none => rw [hs] at h; cases h
    | some s1 => rw [hs] at h; exact .cons hs (ih _ h)

/-- Run a program alone for some calls. -/
def aloneFor (k : Kit ℤ) (prog : Prog ℤ) : ℕ → Option (World ℤ × List (Reply ℤ))
  | 0 => some (World.init, [])
  | m + 1 => match aloneFor k prog m with
    | none => none
    | some (w, rs) => match prog w.own rs with
      | none => none
      | some op => match w.step k op with
        | none => none
        | some (w', r) => some (w', rs ++ [r])

theorem alone_of_aloneFor (k : Kit ℤ) (prog : Prog ℤ) (m : ℕ) (w : World ℤ) (rs : List (Reply ℤ))
    (h : aloneFor k prog m = some (w, rs)) : Alone k prog w rs := by
  induction m generalizing w rs with
  | zero => cases h; exact .start
  | succ m ih =>
    unfold aloneFor at h
    cases h1 : aloneFor k prog m with
    | none => rw [h1] at h; cases h
    | some x =>
      obtain ⟨w0, rs0⟩ := x
      rw [h1] at h
      dsimp only at h
      cases h2 : prog w0.own rs0 with
      | none => rw [h2] at h; cases h
      | some op =>
        rw [h2] at h
        dsimp only at h
        cases h3 : w0.step k op with
        | none => rw [h3] at h; cases h
        | some y =>
          rw [h3] at h
          cases h
          exact .call (ih _ _ h1) h2 h3


/-- A schedule in which both threads wait for each other. -/
def exServing : List (Fin 2) :=
  [0, 1, 0, 1, 0, 1, 0, 0, 0, 0, 0, 1, 0, 1, 0, 1, 0, 1, 0, 1, 0, 1, 0, 1, 0, 0, 0, 0, 0, 0, 0, 1, 0, 1, 0, 1, 0, 1, 0, 1,
   0, 1, 0, 1, 0, 1, 0, 1, 0, 1, 1, 1]

/-- After seven steps the second thread waits for the first one. At the end both have four replies and the cache one entry
in each map; alone, both programs end after four calls. -/
example : (∃ s, serveAll exKit exProgs (exServing.take 7) Process.init = some s ∧ (s.step exKit exProgs 1).isNone = true) ∧
    (∃ s, serveAll exKit exProgs exServing Process.init = some s ∧ (s.clients 0).replies.length = 4 ∧
      (s.clients 1).replies.length = 4 ∧ s.shared.main.length = 1 ∧ s.shared.trans.length = 1 ∧
      (s.step exKit exProgs 0).isNone = true ∧ (s.step exKit exProgs 1).isNone = true) ∧
    ∀ i, ∃ w rs, aloneFor exKit (exProgs i) 4 = some (w, rs) ∧ (exProgs i w.own rs).isNone = true := by
  refine ⟨⟨_, rfl, rfl⟩, ⟨_, rfl, rfl, rfl, rfl, rfl, rfl, rfl⟩, fun i => ?_⟩
  match i with
  | 0 => exact ⟨_, _, rfl, rfl⟩
  | 1 => exact ⟨_, _, rfl, rfl⟩

end WB.Props
