import Verif.Proof.Sharing

/-!
C117: threads may share buffers that they only read.
-/

namespace WB.Props

open Spec

variable {α : Type} {n : ℕ} [Zero α] [Add α] [Mul α] [Neg α] [Inhabited α]

/-- **C117.** A program has made buffers and starts any number of threads. As long as these call only `const` member
functions on the common buffers, in every schedule the common buffers stay as they are, and the buffers a thread can name and
the replies it has got are those of its program running alone in the process. -/
theorem C117_isolated (k : Kit α) (prep : Prog α) (w0 : World α) (rs0 : List (Reply α)) (h0 : Alone k prep w0 rs0)
    (progs : Fin n → Prog α) (hp : ∀ i, OnlyReads w0.handles.length (progs i)) (l : List (Fin n)) (s : Team α n)
    (h : TeamServes k progs (Team.start w0) l s) :
    s.pub = w0.own ∧ ∀ i, ∃ w, AloneFrom k w0 (progs i) w (s.members i).replies ∧ w.own = s.view i := by
  obtain ⟨h1, ⟨_, h2⟩, _⟩ := team_pinv (alone_inv (World.inv_init k) h0) hp h
  exact ⟨h1.common, fun i => (h2.client i).alone⟩

/-- **C117.** A thread runs into undefined behaviour only in a call that has undefined behaviour also when its program runs
alone. -/
theorem C117_crash (k : Kit α) (prep : Prog α) (w0 : World α) (rs0 : List (Reply α)) (h0 : Alone k prep w0 rs0)
    (progs : Fin n → Prog α) (hp : ∀ i, OnlyReads w0.handles.length (progs i)) (l : List (Fin n)) (s : Team α n)
    (h : TeamServes k progs (Team.start w0) l s) (i : Fin n) (hc : (s.members i).doing = .crashed) :
    ∃ w op, AloneFrom k w0 (progs i) w (s.members i).replies ∧ progs i w.own (s.members i).replies = some op ∧
      w.step k op = none := by
  obtain ⟨_, ⟨_, h2⟩, _⟩ := team_pinv (alone_inv (World.inv_init k) h0) hp h
  refine pinv_crash h2 i ?_
  show (s.members i).doing.seen k (s.view i) = _
  rw [hc]
  rfl

/-- **C117.** If every program running alone ends, without undefined behaviour, then together they end whatever the schedule:
it has at most 15 steps for every call and 15 for every thread, and when nothing more can be done every thread is between two
calls, has no other one to make, and has the buffers and the replies it would have got alone. -/
theorem C117_all_finish (k : Kit α) (prep : Prog α) (w0 : World α) (rs0 : List (Reply α)) (h0 : Alone k prep w0 rs0)
    (progs : Fin n → Prog α) (hp : ∀ i, OnlyReads w0.handles.length (progs i))
    (w : Fin n → World α) (rs : Fin n → List (Reply α))
    (halone : ∀ i, AloneFrom k w0 (progs i) (w i) (rs i)) (hend : ∀ i, progs i (w i).own (rs i) = none)
    (l : List (Fin n)) (s : Team α n) (h : TeamServes k progs (Team.start w0) l s) :
    l.length ≤ ∑ i, 15 * ((rs i).length + 1) ∧
    ((∀ i, s.step k progs i = none) → ∀ i, (s.members i).doing = .free ∧ progs i (s.view i) (s.members i).replies = none ∧
      s.view i = (w i).own ∧ (s.members i).replies = rs i) := by
  have hi := alone_inv (World.inv_init k) h0
  obtain ⟨h1, ⟨_, h2⟩, h3⟩ := team_pinv hi hp h
  refine ⟨h3.trans (Finset.sum_le_sum fun i _ => ?_), fun hs i => ?_⟩
  · have : (s.members i).replies.length ≤ (rs i).length := pinv_replies h2 halone hend i
    omega
  · have hstuck : Stuck k progs (s.copies k) := fun j => by
      rw [(team_step h1 hp j).1, hs j]
      rfl
    obtain ⟨⟨g1, g2⟩, g3, g4⟩ := pinv_finish h2 halone hend hstuck i
    refine ⟨?_, g2, g3, g4⟩
    change (s.members i).doing.seen k (s.view i) = _ at g1
    cases hd : (s.members i).doing with
    | free => rfl
    | crashed => rw [hd] at g1; cases g1
    | waiting op =>
      obtain ⟨_, q, rest, hb⟩ := h1.waiting i op hd
      rw [hd] at g1
      simp only [Busy.seen, hb] at g1
      cases g1

/-- **C117.** No deadlock: when no thread can take a step, every thread is finished or has run into undefined behaviour. -/
theorem C117_no_deadlock (k : Kit α) (prep : Prog α) (w0 : World α) (rs0 : List (Reply α)) (h0 : Alone k prep w0 rs0)
    (progs : Fin n → Prog α) (hp : ∀ i, OnlyReads w0.handles.length (progs i)) (l : List (Fin n)) (s : Team α n)
    (h : TeamServes k progs (Team.start w0) l s) (hs : ∀ i, s.step k progs i = none) (i : Fin n) :
    (s.members i).doing = .crashed ∨
      ((s.members i).doing = .free ∧ progs i (s.view i) (s.members i).replies = none) := by
  obtain ⟨h1, ⟨_, h2⟩, _⟩ := team_pinv (alone_inv (World.inv_init k) h0) hp h
  have hstuck : Stuck k progs (s.copies k) := fun j => by
    rw [(team_step h1 hp j).1, hs j]
    rfl
  have := process_progress h2 hstuck i
  change (s.members i).doing.seen k (s.view i) = _ ∨ ((s.members i).doing.seen k (s.view i) = _ ∧ _) at this
  cases hd : (s.members i).doing with
  | free => rw [hd] at this; exact .inr ⟨rfl, (this.resolve_left (by simp [Busy.seen])).2⟩
  | crashed => exact .inl rfl
  | waiting op =>
    obtain ⟨_, q, rest, hb⟩ := h1.waiting i op hd
    rw [hd] at this
    simp only [Busy.seen, hb] at this
    rcases this with h | h
    · cases h
    · cases h.1

/-- **C117.** No data race on the maps of the cache. -/
theorem C117_no_data_race (k : Kit α) (prep : Prog α) (w0 : World α) (rs0 : List (Reply α)) (h0 : Alone k prep w0 rs0)
    (progs : Fin n → Prog α) (hp : ∀ i, OnlyReads w0.handles.length (progs i)) (l : List (Fin n)) (s : Team α n)
    (h : TeamServes k progs (Team.start w0) l s) (i j : Fin n) (hij : i ≠ j) :
    ¬ (TouchesMain (s.shared.threads i) ∧ TouchesMain (s.shared.threads j)) ∧
    ¬ (TouchesTrans (s.shared.threads i) ∧ TouchesTrans (s.shared.threads j)) := by
  obtain ⟨_, ⟨_, h2⟩, _⟩ := team_pinv (alone_inv (World.inv_init k) h0) hp h
  exact inv_race h2.shared hij

/-! ### example: two threads compose the same picture, one of them copies it and changes the copy -/

/-- A small filter table. -/
private def exKit : Kit ℤ := ⟨fun o => if o = 1 then [1, 1] else [], id, fun _ _ x => x⟩

/-- Make a buffer for 2 × 2 pictures and decompose a picture. -/
private def exPrep : Prog ℤ := fun _ rs =>
  match rs with
  | [] => some (.construct ⟨[2, 2], 1, 1, 1⟩)
  | [_] => some (.decompose 0 [Mat.ofFn 2 2 fun i j => i + 2 * j] nullDenoiser)
  | _ => none

/-- One thread composes the common buffer, the other copies it, decomposes another picture into the copy and composes the
common one. -/
private def exTeam : Fin 2 → Prog ℤ
  | 0 => fun _ rs => match rs with
    | [] => some (.compose 0 0)
    | _ => none
  | 1 => fun _ rs => match rs with
    | [] => some (.copy 0)
    | [_] => some (.decompose 1 [Mat.ofFn 2 2 fun _ _ => 7] nullDenoiser)
    | [_, _] => some (.compose 0 0)
    | _ => none

private def teamAll (k : Kit ℤ) (progs : Fin 2 → Prog ℤ) : List (Fin 2) → Team ℤ 2 → Option (Team ℤ 2)
  | [], s => some s
  | i :: l, s => match s.step k progs i with
    | none => none
    | some s' => teamAll k progs l s'

private theorem serves_of_teamAll (k : Kit ℤ) (progs : Fin 2 → Prog ℤ) (l : List (Fin 2)) (s s' : Team ℤ 2)
    (h : teamAll k progs l s = some s') : TeamServes k progs s l s' := by
  induction l generalizing s with
  | nil => cases h; exact .nil _
  | cons i l ih =>
    unfold teamAll at h
    cases hs : s.step k progs i with
    | none => rw [hs] at h; cases h
    | some s1 => rw [hs] at h; exact .cons hs (ih _ h)

private theorem exTeam_reads : ∀ i, OnlyReads 1 (exTeam i) := by
  intro i o rs op h
  match i with
  | 0 =>
    unfold exTeam at h
    dsimp only at h
    split at h <;> cases h
    simp [changed]
  | 1 =>
    unfold exTeam at h
    dsimp only at h
    split at h <;> cases h <;> simp [changed]

/-- The hypotheses are met: the main program, and a schedule after which the threads have one and three replies. -/
example : ∃ w0 rs0, Alone exKit exPrep w0 rs0 ∧ w0.handles.length = 1 ∧ (∀ i, OnlyReads w0.handles.length (exTeam i)) ∧
    ∃ l s, TeamServes exKit exTeam (Team.start w0) l s ∧ (s.members 0).replies.length = 1 ∧ (s.members 1).replies.length = 3 :=
  ⟨_, _, .call (.call .start rfl rfl) rfl rfl, rfl, exTeam_reads,
    [1, 0, 1, 0, 1, 0, 1, 0, 1, 1, 0, 1, 0, 1, 0, 1, 0, 1, 0, 0, 0, 1, 0, 1, 0, 1, 1, 1], _,
    serves_of_teamAll _ _ _ _ _ rfl, rfl, rfl⟩

/-- The rule is needed: a thread that destroys a common buffer makes another one run into undefined behaviour that it would
not run into alone. -/
theorem C117_rule_needed : ∃ (k : Kit ℤ) (prep : Prog ℤ) (w0 : World ℤ) (rs0 : List (Reply ℤ)) (progs : Fin 2 → Prog ℤ)
    (l : List (Fin 2)) (s : Team ℤ 2), Alone k prep w0 rs0 ∧ OnlyReads w0.handles.length (progs 0) ∧
      TeamServes k progs (Team.start w0) l s ∧ (s.members 0).doing = .crashed ∧
      ∃ w rs, AloneFrom k w0 (progs 0) w rs ∧ progs 0 w.own rs = none := by
  refine ⟨exKit, exPrep, _, _, fun i => if i = 0 then exTeam 0 else fun _ rs => match rs with
    | [] => some (.destroy 0)
    | _ => none, [1, 0], _, .call (.call .start rfl rfl) rfl rfl, exTeam_reads 0, serves_of_teamAll _ _ _ _ _ rfl, rfl, _, _,
    .call .start rfl rfl, rfl⟩

end WB.Props
