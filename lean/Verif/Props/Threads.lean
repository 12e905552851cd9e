import Verif.Proof.Threads
import Verif.Model.Coeffs
import Verif.Proof.Coarse

/-!
C22: threads that share the matrix cache.
-/

namespace WB.Props

open Spec

variable {α : Type} {n : ℕ} [Neg α]

/-- C22. For every number of threads, all lists of requests and every schedule, at every moment the answers a thread has got
are those of a fresh computation, in the order of its requests. -/
theorem C22_answers_are_fresh (k : Kit α) (reqs : Fin n → List Req) (l : List (Fin n)) (s : Shared α n)
    (h : Runs k (Shared.init reqs) l s) (i : Fin n) :
    ∃ c ≤ (reqs i).length, (s.threads i).results = ((reqs i).take c).map (freshAnswer k) ∧ (s.threads i).todo = (reqs i).drop c := by
  obtain ⟨served, h1, h2⟩ := (inv_runs (inv_init k reqs) h).served i
  refine ⟨served.length, by rw [h1]; simp, ?_, ?_⟩
  · rw [h1, List.take_left', h2]; rfl
  · rw [h1, List.drop_left']; rfl

/-- C22. When all requests are served, every thread has all its fresh answers. -/
theorem C22_all_answers (k : Kit α) (reqs : Fin n → List Req) (l : List (Fin n)) (s : Shared α n)
    (h : Runs k (Shared.init reqs) l s) (hd : AllServed s) (i : Fin n) :
    (s.threads i).results = (reqs i).map (freshAnswer k) := by
  obtain ⟨c, h1, h2, h3⟩ := C22_answers_are_fresh k reqs l s h i
  rw [(hd i).2] at h3
  have : (reqs i).length ≤ c := by simpa [List.drop_eq_nil_iff] using h3.symm
  rw [h2, List.take_of_length_le this]

/-- C22. Entries of the cache never change: whatever is in the maps at one moment of a schedule is at the same place in the
maps at every later moment. -/
theorem C22_entries_never_change (k : Kit α) (s s' : Shared α n) (l : List (Fin n)) (h : Runs k s l s') :
    s.main <+: s'.main ∧ s.trans <+: s'.trans := by
  induction h with
  | nil => exact ⟨List.prefix_refl _, List.prefix_refl _⟩
  | cons h1 _ ih =>
    obtain ⟨a, b⟩ := step_prefix h1
    exact ⟨a.trans ih.1, b.trans ih.2⟩

/-- C22. No schedule deadlocks: as long as a request is not served, some thread can take a step. -/
theorem C22_no_deadlock (k : Kit α) (reqs : Fin n → List Req) (l : List (Fin n)) (s : Shared α n)
    (h : Runs k (Shared.init reqs) l s) (hd : ¬ AllServed s) : ∃ i s', s.step k i = some s' := by
  refine progress (inv_runs (inv_init k reqs) h) ?_
  unfold AllServed at hd
  push Not at hd
  obtain ⟨i, hi⟩ := hd
  refine ⟨i, ?_⟩
  by_cases h0 : (s.threads i).pc = .idle
  · exact .inr (hi h0)
  · exact .inl h0

/-- C22. Every schedule is finite: it takes at most 13 steps per request, so with the previous theorem every schedule that is
continued as long as possible serves all requests. -/
theorem C22_schedules_end (k : Kit α) (reqs : Fin n → List Req) (l : List (Fin n)) (s : Shared α n)
    (h : Runs k (Shared.init reqs) l s) : l.length ≤ 13 * ∑ i, (reqs i).length := by
  have := runs_length h
  have e : ∑ j, ((Shared.init (α := α) reqs).threads j).cost = 13 * ∑ i, (reqs i).length := by
    rw [Finset.mul_sum]; rfl
  omega

/-- C22. Every request is served in some continuation of any schedule. -/
theorem C22_can_finish (k : Kit α) (reqs : Fin n → List Req) (l : List (Fin n)) (s : Shared α n)
    (h : Runs k (Shared.init reqs) l s) : ∃ l' s', Runs k s l' s' ∧ AllServed s' := by
  have snoc : ∀ {a b c : Shared α n} {l i}, Runs k a l b → b.step k i = some c → Runs k a (l ++ [i]) c := by
    intro a b c l i h1 h2
    induction h1 with
    | nil => exact .cons h2 (.nil _)
    | cons h3 _ ih => exact .cons h3 (ih h2)
  have key : ∀ (c : ℕ) (l : List (Fin n)) (s : Shared α n), Runs k (Shared.init reqs) l s →
      13 * ∑ i, (reqs i).length ≤ l.length + c → ∃ l' s', Runs k s l' s' ∧ AllServed s' := by
    intro c
    induction c with
    | zero =>
      intro l s h hc
      by_cases hd : AllServed s
      · exact ⟨[], s, .nil _, hd⟩
      · obtain ⟨i, s', hs⟩ := C22_no_deadlock k reqs l s h hd
        have := C22_schedules_end k reqs _ _ (snoc h hs)
        simp at this; omega
    | succ c ih =>
      intro l s h hc
      by_cases hd : AllServed s
      · exact ⟨[], s, .nil _, hd⟩
      · obtain ⟨i, s', hs⟩ := C22_no_deadlock k reqs l s h hd
        obtain ⟨l', s'', h1, h2⟩ := ih (l ++ [i]) s' (snoc h hs) (by simp; omega)
        exact ⟨i :: l', s'', .cons hs h1, h2⟩
  exact key (13 * ∑ i, (reqs i).length) l s h (by omega)

/-- C22. No data race on the maps: two threads are never both about to read or change the same map. -/
theorem C22_no_data_race (k : Kit α) (reqs : Fin n → List Req) (l : List (Fin n)) (s : Shared α n)
    (h : Runs k (Shared.init reqs) l s) (i j : Fin n) (hij : i ≠ j) :
    ¬ (TouchesMain (s.threads i) ∧ TouchesMain (s.threads j)) ∧ ¬ (TouchesTrans (s.threads i) ∧ TouchesTrans (s.threads j)) := by
  have hs := inv_runs (inv_init k reqs) h
  have m : ∀ i, TouchesMain (s.threads i) → s.mutex = some i := by
    intro i hi
    refine (hs.mutex i).2 ?_
    unfold TouchesMain at hi
    cases hp : (s.threads i).pc <;> rw [hp] at hi <;> simp_all [Pc.inMain]
  have t : ∀ i, TouchesTrans (s.threads i) → s.transMutex = some i := by
    intro i hi
    refine (hs.transMutex i).2 ?_
    unfold TouchesTrans at hi
    cases hp : (s.threads i).pc <;> rw [hp] at hi <;> simp_all [Pc.inTrans]
  constructor
  · rintro ⟨h1, h2⟩
    have := (m i h1).symm.trans (m j h2)
    injection this with this
    exact hij this
  · rintro ⟨h1, h2⟩
    have := (t i h1).symm.trans (t j h2)
    injection this with this
    exact hij this

omit [Neg α] in
/-- Requests for the parameters of an existing buffer have an answer. -/
theorem C22_requests_have_answers [Zero α] [Add α] [Mul α] [Neg α] [Inhabited α] (k : Kit α) (p : Params) (hv : ValidParams p)
    (hk : FilterPresent k p) : (∃ s, freshAnswer k (.plain p) = .ok s) ∧ ∃ s, freshAnswer k (.transposed p) = .ok s := by
  have h := freshStack_ok hv hk
  refine ⟨⟨_, h⟩, transStack (stackP p (scaling k p)), ?_⟩
  show freshTrans k p = _
  unfold freshTrans
  rw [h]; rfl

/-! ### example: two threads, one asks for matrices, the other for transposed matrices of the same buffer -/

/-- The requests of the example. -/
def exReqs : Fin 2 → List Req
  | 0 => [.plain ⟨[4, 4], 1, 1, 1⟩]
  | 1 => [.transposed ⟨[4, 4], 1, 1, 1⟩]

/-- A schedule in which the second thread gets the matrices the first one has built, and waits in between. -/
def exSchedule : List (Fin 2) := [1, 1, 0, 1, 0, 0, 0, 0, 0, 1, 1, 0, 1, 1, 1, 1, 1, 1]

/-- Run a schedule. -/
def runAll (k : Kit ℤ) : List (Fin 2) → Shared ℤ 2 → Option (Shared ℤ 2)
  | [], s => some s
  | i :: l, s => (s.step k i).bind (runAll k l)

theorem runs_of_runAll (k : Kit ℤ) (l : List (Fin 2)) (s s' : Shared ℤ 2) (h : runAll k l s = some s') : Runs k s l s' := by
  induction l generalizing s with
  | nil => cases h; exact .nil _
  | cons i l ih =>
    simp only [runAll, Option.bind_eq_some_iff] at h
    obtain ⟨s1, h1, h2⟩ := h
    exact .cons h1 (ih _ h2)

/-- A small filter table. -/
private def exKit : Kit ℤ := ⟨fun o => if o = 1 then [1, 1] else [], id, fun _ _ x => x⟩

/-- After five steps the second thread waits for the first one; at the end all is served, with one entry in each map. -/
example : (∃ s s' : Shared ℤ 2, runAll exKit (exSchedule.take 5) (Shared.init exReqs) = some s ∧ (s.step exKit 1).isNone = true ∧
      (s.threads 1).todo.length = 1 ∧
    runAll exKit exSchedule (Shared.init exReqs) = some s' ∧ s'.main.length = 1 ∧ s'.trans.length = 1 ∧
    (s'.threads 0).results.length = 1 ∧ (s'.threads 1).results.length = 1) :=
  ⟨_, _, rfl, rfl, rfl, rfl, rfl, rfl, rfl, rfl⟩

end WB.Props
