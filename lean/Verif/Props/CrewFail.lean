import Verif.Proof.CrewFail
import Verif.Proof.Bridge

/-!
C123: what is left when memory runs out in the middle of a call.
-/

namespace WB.Props

open Spec

variable {α : Type} {n : ℕ} [Zero α] [Add α] [Mul α] [Neg α] [Inhabited α]

/-- What holds in every schedule. -/
theorem crewFail_inv (k : Kit α) {prep : Prog α} {w0 : World α} {rs0 : List (Reply α)} (h0 : Alone k prep w0 rs0)
    (b : Buffer α) {progs : Fin n → CrewProg α} {W R : Fin n → ℕ → Prop} (hap : Apart W R)
    (hk : ∀ i, KeepsTo (W i) (R i) (progs i)) {l : List (Fin n × Bool)} {s : Crew α n}
    (h : CrewRuns k b.params progs (Crew.start w0.cache b.decs) l s) :
    ∃ F reqs, CrewInvF k b.params b.decs progs W R F reqs (fun i => l.count (i, true)) s := by
  obtain ⟨F, r, h1⟩ := crewInvF_runs (crewInvF_start k (alone_inv (World.inv_init k) h0).cache b.params b.decs progs W R) hap hk h
  refine ⟨F, r, ?_⟩
  simpa using h1

/-- **C123.** Threads on one buffer, none of which looks at or assigns to a channel that another one may assign to; memory may run
out in any of them, at any point and any number of times. Every thread has got the replies its program gets as the only user
of the buffer when some of the calls are cut short by an exception, between two calls finds the content it would find then in
all channels it may look at, and has had exactly as many calls cut short as memory has run out in it. Channels no thread may
assign to stay as they are, and no channel or subband is ever lost or added. -/
theorem C123_as_alone (k : Kit α) (prep : Prog α) (w0 : World α) (rs0 : List (Reply α)) (h0 : Alone k prep w0 rs0)
    (b : Buffer α) (progs : Fin n → CrewProg α) (W R : Fin n → ℕ → Prop) (hap : Apart W R)
    (hk : ∀ i, KeepsTo (W i) (R i) (progs i)) (l : List (Fin n × Bool)) (s : Crew α n)
    (h : CrewRuns k b.params progs (Crew.start w0.cache b.decs) l s) :
    (∀ i, ∃ m d, CrewShort k b.params b.decs (progs i) m d (s.hands i).replies ∧
      m ≤ l.count (i, true) ∧ l.count (i, true) ≤ m + 1 ∧
      ((s.hands i).doing = .free → m = l.count (i, true) ∧ ∀ ch, W i ch ∨ R i ch → s.decs[ch]? = d[ch]?)) ∧
    (∀ ch, (∀ i, ¬ W i ch) → s.decs[ch]? = b.decs[ch]?) ∧ s.decs.map List.length = b.decs.map List.length := by
  obtain ⟨F, reqs, hi⟩ := crewFail_inv k h0 b hap hk h
  refine ⟨fun i => ?_, hi.rest, hi.layout⟩
  obtain ⟨m, d, h1, h2⟩ := hi.hand i
  refine ⟨m, d, h1, ?_⟩
  cases hd : (s.hands i).doing with
  | free => rw [hd] at h2; exact ⟨h2.2.2.le, h2.2.2 ▸ Nat.le_succ _, fun _ => ⟨h2.2.2, h2.2.1⟩⟩
  | inCall a =>
    rw [hd] at h2
    obtain ⟨_, _, _, _, _, _, _, _, _, h3⟩ := h2
    rcases h3 with h3 | h3
    · exact ⟨by omega, by omega, fun h => by cases h⟩
    · exact ⟨by omega, by omega, fun h => by cases h⟩
  | asking rest =>
    rw [hd] at h2
    by_cases hf : F i
    · have := h2.2.1 hf
      exact ⟨by omega, by omega, fun h => by cases h⟩
    · have := h2.1 hf
      exact ⟨by omega, by omega, fun h => by cases h⟩
  | crashed => rw [hd] at h2; exact ⟨h2.2.1.le, by rw [← h2.2.1]; omega, fun h => by cases h⟩

/-- **C123.** Threads in which memory does not run out do not notice: they get the replies and find the content they would get
and find as the only user of the buffer. -/
theorem C123_others_spared (k : Kit α) (prep : Prog α) (w0 : World α) (rs0 : List (Reply α)) (h0 : Alone k prep w0 rs0)
    (b : Buffer α) (progs : Fin n → CrewProg α) (W R : Fin n → ℕ → Prop) (hap : Apart W R)
    (hk : ∀ i, KeepsTo (W i) (R i) (progs i)) (l : List (Fin n × Bool)) (s : Crew α n)
    (h : CrewRuns k b.params progs (Crew.start w0.cache b.decs) l s) (i : Fin n) (hi : (i, true) ∉ l) :
    ∃ d, CrewAlone k b.params b.decs (progs i) d (s.hands i).replies ∧
      ((s.hands i).doing = .free → ∀ ch, W i ch ∨ R i ch → s.decs[ch]? = d[ch]?) := by
  obtain ⟨m, d, h1, h2, _, h3⟩ := (C123_as_alone k prep w0 rs0 h0 b progs W R hap hk l s h).1 i
  rw [List.count_eq_zero.2 hi] at h2
  exact ⟨d, crewShort_none h1 (by omega), fun hf => (h3 hf).2⟩

/-- **C123.** No data race. -/
theorem C123_no_data_race (k : Kit α) (prep : Prog α) (w0 : World α) (rs0 : List (Reply α)) (h0 : Alone k prep w0 rs0)
    (b : Buffer α) (progs : Fin n → CrewProg α) (W R : Fin n → ℕ → Prop) (hap : Apart W R)
    (hk : ∀ i, KeepsTo (W i) (R i) (progs i)) (l : List (Fin n × Bool)) (s : Crew α n)
    (h : CrewRuns k b.params progs (Crew.start w0.cache b.decs) l s) (i j : Fin n) (hij : i ≠ j) :
    (∀ ch, Assigning (s.hands i) ch → ¬ Assigning (s.hands j) ch ∧ ¬ Looking (s.hands j) ch) ∧
    ¬ (TouchesMain (s.shared.threads i) ∧ TouchesMain (s.shared.threads j)) ∧
    ¬ (TouchesTrans (s.shared.threads i) ∧ TouchesTrans (s.shared.threads j)) := by
  obtain ⟨F, reqs, hi⟩ := crewFail_inv k h0 b hap hk h
  refine ⟨fun ch ha => ?_, invF_race hi.shared hij⟩
  have hin : ∀ i a, (s.hands i).doing = .inCall a → a.Within (W i) (fun ch => W i ch ∨ R i ch) := by
    intro i a ha
    obtain ⟨m, d, _, h2⟩ := hi.hand i
    rw [ha] at h2
    exact h2.2.1
  obtain ⟨idx, m, rest, ha⟩ := ha
  have hw := hap i j hij ch (hin i _ ha).1
  constructor
  · rintro ⟨idx', m', rest', ha'⟩
    exact hw.1 (hin j _ ha').1
  · rintro ⟨rest', ha'⟩
    rcases (hin j _ ha').1 with h | h
    · exact hw.1 h
    · exact hw.2 h

/-- **C123.** No deadlock: no mutex stays locked by a call that ran out of memory. When no thread can do anything, each of them
has no other call to make or has run into undefined behaviour; and between calls a thread holds no mutex. -/
theorem C123_no_deadlock (k : Kit α) (prep : Prog α) (w0 : World α) (rs0 : List (Reply α)) (h0 : Alone k prep w0 rs0)
    (b : Buffer α) (progs : Fin n → CrewProg α) (W R : Fin n → ℕ → Prop) (hap : Apart W R)
    (hk : ∀ i, KeepsTo (W i) (R i) (progs i)) (l : List (Fin n × Bool)) (s : Crew α n)
    (h : CrewRuns k b.params progs (Crew.start w0.cache b.decs) l s) :
    ((∀ i, s.step k b.params progs i = none) → ∀ i,
      (s.hands i).doing = .crashed ∨ ((s.hands i).doing = .free ∧ progs i (s.hands i).replies = none)) ∧
    ∀ i, (s.hands i).doing = .free → s.shared.mutex ≠ some i ∧ s.shared.transMutex ≠ some i := by
  obtain ⟨F, reqs, hi⟩ := crewFail_inv k h0 b hap hk h
  refine ⟨fun hs i => crewF_progress hi hs i, fun i hf => ?_⟩
  obtain ⟨m, d, _, h2⟩ := hi.hand i
  rw [hf] at h2
  have hidle := h2.1.1
  refine ⟨fun hm => ?_, fun hm => ?_⟩
  · have := (hi.shared.mutex i).1 hm
    rw [hidle] at this
    cases this
  · have := (hi.shared.transMutex i).1 hm
    rw [hidle] at this
    cases this

/-- **C123.** A thread runs into undefined behaviour only in a call that has undefined behaviour also when its program is the
only user of the buffer, the same calls having been cut short. -/
theorem C123_crash (k : Kit α) (prep : Prog α) (w0 : World α) (rs0 : List (Reply α)) (h0 : Alone k prep w0 rs0)
    (b : Buffer α) (progs : Fin n → CrewProg α) (W R : Fin n → ℕ → Prop) (hap : Apart W R)
    (hk : ∀ i, KeepsTo (W i) (R i) (progs i)) (l : List (Fin n × Bool)) (s : Crew α n)
    (h : CrewRuns k b.params progs (Crew.start w0.cache b.decs) l s) (i : Fin n) (hc : (s.hands i).doing = .crashed) :
    ∃ d op, CrewShort k b.params b.decs (progs i) (l.count (i, true)) d (s.hands i).replies ∧
      progs i (s.hands i).replies = some op ∧ CrewOp.call k ⟨b.params, d⟩ op = none := by
  obtain ⟨F, reqs, hi⟩ := crewFail_inv k h0 b hap hk h
  obtain ⟨m, d, h1, h2⟩ := hi.hand i
  rw [hc] at h2
  obtain ⟨_, hm, op, h3, h4⟩ := h2
  exact ⟨d, op, hm ▸ h1, h3, h4⟩

/-- **C123.** The cache is not damaged: whatever ran out of memory, with the maps as they are then every `Decompose` and every
`Compose` of any buffer gives what it gives with matrices computed afresh. -/
theorem C123_cache_sound (k : Kit α) (prep : Prog α) (w0 : World α) (rs0 : List (Reply α)) (h0 : Alone k prep w0 rs0)
    (b : Buffer α) (progs : Fin n → CrewProg α) (W R : Fin n → ℕ → Prop) (hap : Apart W R)
    (hk : ∀ i, KeepsTo (W i) (R i) (progs i)) (l : List (Fin n × Bool)) (s : Crew α n)
    (h : CrewRuns k b.params progs (Crew.start w0.cache b.decs) l s) (b' : Buffer α) :
    (∀ data den, (decomposeCached k ⟨s.shared.main, s.shared.trans⟩ b'.params b'.decs data den 0 b'.params.signalNumber).2 =
      b'.decompose k data den) ∧
    ∀ scale, (composeCached k ⟨s.shared.main, s.shared.trans⟩ b'.params b'.decs scale 0 b'.params.signalNumber).2 =
      b'.compose k scale := by
  obtain ⟨F, reqs, hi⟩ := crewFail_inv k h0 b hap hk h
  have hc : CacheOk k ⟨s.shared.main, s.shared.trans⟩ := ⟨hi.shared.main_ok, hi.shared.trans_ok⟩
  exact ⟨fun data den => (decomposeCached_eq hc _ _ _ _ _ _).1, fun scale => (composeCached_eq hc _ _ _ _ _).1⟩

/-- **C123.** Trying again helps: after any such history `Decompose` of a signal returns `true` and gives the buffer the
content it would have got without the history. -/
theorem C123_try_again (k : Kit α) (prep : Prog α) (w0 : World α) (rs0 : List (Reply α)) (h0 : Alone k prep w0 rs0)
    (b : Buffer α) (progs : Fin n → CrewProg α) (W R : Fin n → ℕ → Prop) (hap : Apart W R)
    (hk : ∀ i, KeepsTo (W i) (R i) (progs i)) (l : List (Fin n × Bool)) (s : Crew α n)
    (h : CrewRuns k b.params progs (Crew.start w0.cache b.decs) l s)
    (hb : WellFormed b) (hf : FilterPresent k b.params) (hch : 0 < b.params.signalNumber) (data : List (Mat α))
    (hd : IsSignal b.params data) (den : Denoiser α) (hden : KeepsSizes den) :
    ∃ d, b.decompose k data den = .ok d true ∧
      (decomposeCached k ⟨s.shared.main, s.shared.trans⟩ b.params s.decs data den 0 b.params.signalNumber).2 = .ok d true := by
  have hlay := (C123_as_alone k prep w0 rs0 h0 b progs W R hap hk l s h).2.2
  have hlen : s.decs.length = b.decs.length := by simpa using congrArg List.length hlay
  have hwf : WellFormed ⟨b.params, s.decs⟩ := by
    refine ⟨hb.1, hlen.trans hb.2.1, fun c hc => ?_⟩
    have hm : c.length ∈ s.decs.map List.length := List.mem_map_of_mem hc
    rw [hlay] at hm
    obtain ⟨c', hc', he⟩ := List.mem_map.1 hm
    exact he.symm.trans (hb.2.2 c' hc')
  refine ⟨_, decompose_ok hb hf hch hd fun _ => hden, ?_⟩
  rw [(C123_cache_sound k prep w0 rs0 h0 b progs W R hap hk l s h ⟨b.params, s.decs⟩).1]
  exact decompose_ok hwf hf hch hd fun _ => hden

/-! ### examples -/

/-- A small filter table. -/
private def exKit : Kit ℤ := ⟨fun o => if o = 1 then [1, 1] else [], id, fun _ _ x => x⟩

/-- A buffer for two 2 × 2 channels. -/
private def exBuf : Buffer ℤ := ⟨⟨[2, 2], 2, 1, 1⟩, List.replicate 2 (List.replicate 4 Mat.empty)⟩

private def exPic (x : ℤ) : Mat ℤ := Mat.ofFn 2 2 fun i j => x + i + 2 * j

/-- Each thread decomposes its channel, tries again as long as that throws, and then composes it. -/
private def exTries (i : Fin 2) : CrewProg ℤ := fun rs =>
  match rs.getLast? with
  | none => some (.viewDecompose ⟨i.val, 1, false⟩ [exPic i.val] nullDenoiser)
  | some .threw => some (.viewDecompose ⟨i.val, 1, false⟩ [exPic i.val] nullDenoiser)
  | some (.bool true) => some (.viewCompose ⟨i.val, 1, true⟩ 0)
  | _ => none

private def exW : Fin 2 → ℕ → Prop := fun i ch => ch = i

private theorem exApart : Apart exW (fun _ _ => False) := by
  intro i j hij ch hw
  unfold exW at *
  exact ⟨fun h => hij (Fin.ext (by omega)), fun h => h⟩

private theorem exKeeps : ∀ i, KeepsTo (exW i) (fun _ => False) (exTries i) := by
  intro i rs op h ch
  unfold exTries at h
  split at h <;> cases h <;> refine ⟨fun h => ?_, fun h => ?_⟩ <;> simp [Assigns, LooksAt, InView, exW] at h ⊢ <;> omega

/-- Steps, some of which run out of memory in the cache or between two accesses. -/
private def runAll {m : ℕ} (k : Kit ℤ) (p : Params) (progs : Fin m → CrewProg ℤ) : List (Fin m × Bool) → Crew ℤ m → Option (Crew ℤ m)
  | [], s => some s
  | (i, false) :: l, s => match s.step k p progs i with
    | none => none
    | some s' => runAll k p progs l s'
  | (i, true) :: l, s => match (s.hands i).doing with
    | .asking _ => match s.shared.fail i with
      | none => none
      | some sh => runAll k p progs l { s with shared := sh }
    | .inCall (.write _ _ _ _) => runAll k p progs l (s.reply i .threw)
    | _ => none

private theorem runs_of_runAll {m : ℕ} {k : Kit ℤ} {p : Params} {progs : Fin m → CrewProg ℤ} {l : List (Fin m × Bool)} {s s' : Crew ℤ m}
    (h : runAll k p progs l s = some s') : CrewRuns k p progs s l s' := by
  induction l generalizing s with
  | nil => cases h; exact .nil _
  | cons a l ih =>
    obtain ⟨i, x⟩ := a
    cases x with
    | false =>
      unfold runAll at h
      cases hs : s.step k p progs i with
      | none => rw [hs] at h; cases h
      | some s1 => rw [hs] at h; exact .step hs (ih h)
    | true =>
      unfold runAll at h
      split at h
      · rename_i rest hd
        cases hs : s.shared.fail i with
        | none => rw [hs] at h; cases h
        | some s1 => rw [hs] at h; exact .fail (.cache hd hs) (ih h)
      · rename_i c j y rest hd
        exact .fail (.between hd (by simp)) (ih h)
      · cases h

/-- The hypotheses are met. The first thread runs out of memory in the cache while it builds the matrices and the second waits
for them, tries again, runs out of memory after it has assigned to two subbands, and tries once more; the second runs out of
memory while it copies the transposed matrices, and begins anew. -/
example : Alone exKit (fun _ _ => none) World.init [] ∧ Apart exW (fun _ _ => False) ∧
    (∀ i, KeepsTo (exW i) (fun _ => False) (exTries i)) ∧
    ∃ l s, CrewRuns exKit exBuf.params exTries (Crew.start World.init.cache exBuf.decs) l s ∧
      l.count (0, true) = 2 ∧ l.count (1, true) = 1 ∧ (∀ i, s.step exKit exBuf.params exTries i = none) ∧
      s.decs.map (fun c => c.map Mat.data) = [[[-2], [-4], [0], [6]], [[-2], [-4], [0], [10]]] ∧
      (s.hands 0).replies.length = 4 ∧ (s.hands 1).replies.length = 4 := by
  refine ⟨.start, exApart, exKeeps,
    [(0, false), (1, false), (0, false), (1, false), (0, false), (1, false), (0, false), (0, false), (0, true)]
      ++ List.replicate 3 (0, false) ++ List.replicate 9 (1, false) ++ List.replicate 10 (0, false) ++ [(0, true)]
      ++ List.replicate 28 (0, false) ++ List.replicate 9 (1, false) ++ [(1, true)] ++ List.replicate 27 (1, false)
      ++ List.replicate 3 (0, false), _, runs_of_runAll rfl, by decide, by decide, ?_, rfl, rfl, rfl⟩
  intro i
  match i with
  | 0 => rfl
  | 1 => rfl

/-- One thread that decomposes a signal once. -/
private def exOnce : Fin 1 → CrewProg ℤ := fun _ rs =>
  match rs with
  | [] => some (.decompose [Mat.ofCol [1, 2]] nullDenoiser)
  | _ => none

/-- `Decompose` is not all or nothing: when it runs out of memory it can leave the details of the new signal with the
approximation of the old one. -/
theorem C123_not_atomic : ∃ (k : Kit ℤ) (b : Buffer ℤ) (data : List (Mat ℤ)) (d : Decs ℤ) (progs : Fin 1 → CrewProg ℤ)
    (l : List (Fin 1 × Bool)) (s : Crew ℤ 1), WellFormed b ∧ IsSignal b.params data ∧
    progs 0 [] = some (.decompose data nullDenoiser) ∧ b.decompose k data nullDenoiser = .ok d true ∧
    CrewRuns k b.params progs (Crew.start World.init.cache b.decs) l s ∧ (∀ i, s.step k b.params progs i = none) ∧
    (s.hands 0).replies.length = 1 ∧ s.decs ≠ b.decs ∧ s.decs ≠ d := by
  refine ⟨exKit, ⟨⟨[2], 1, 1, 1⟩, [[Mat.ofCol [7], Mat.ofCol [8]]]⟩, [Mat.ofCol [1, 2]], _, exOnce,
    [(0, false), (0, false), (0, true)], _, ?_, ?_, rfl, rfl, runs_of_runAll rfl, ?_, rfl, ?_, ?_⟩
  · exact ⟨⟨by simp, by simp, by simp⟩, rfl, by simp [subbandCount, detailsPerStep]⟩
  · exact ⟨rfl, by simp [HasShape, Mat.ofCol]⟩
  · intro i; match i with | 0 => rfl
  · exact fun h => absurd (congrArg (fun d => d.map (fun c => c.map Mat.data)) h) (by decide)
  · exact fun h => absurd (congrArg (fun d => d.map (fun c => c.map Mat.data)) h) (by decide)

end WB.Props
