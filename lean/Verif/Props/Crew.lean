import Verif.Proof.Crew
import Verif.Proof.Bridge

/-!
C122: threads may work on different channels of one buffer at the same time.
-/

namespace WB.Props

open Spec

variable {α : Type} {n : ℕ} [Zero α] [Add α] [Mul α] [Neg α] [Inhabited α]

/-- What holds in every schedule. -/
theorem crew_inv (k : Kit α) {prep : Prog α} {w0 : World α} {rs0 : List (Reply α)} (h0 : Alone k prep w0 rs0)
    (b : Buffer α) {progs : Fin n → CrewProg α} {W R : Fin n → ℕ → Prop} (hap : Apart W R)
    (hk : ∀ i, KeepsTo (W i) (R i) (progs i)) {l : List (Fin n)} {s : Crew α n}
    (h : CrewServes k b.params progs (Crew.start w0.cache b.decs) l s) :
    ∃ reqs x, CrewInv k b.params b.decs progs W R reqs x s ∧ l.length = ∑ i, x i := by
  obtain ⟨r, x, h1, h2⟩ := crewInv_serves (crewInv_start k (alone_inv (World.inv_init k) h0).cache b.params b.decs progs W R) hap hk h
  exact ⟨r, x, h1, by simpa using h2⟩

/-- **C122.** Threads call `Decompose` and `Compose` of one buffer and of views of it, convert views to buffers, read channels
and assign to subbands. As long as no thread looks at or assigns to a channel that another one may assign to, in every
schedule every thread has got the replies its program gets as the only user of the buffer, and between two calls finds the
content it would find then in all channels it may look at. Channels no thread may assign to stay as they are. -/
theorem C122_as_alone (k : Kit α) (prep : Prog α) (w0 : World α) (rs0 : List (Reply α)) (h0 : Alone k prep w0 rs0)
    (b : Buffer α) (progs : Fin n → CrewProg α) (W R : Fin n → ℕ → Prop) (hap : Apart W R)
    (hk : ∀ i, KeepsTo (W i) (R i) (progs i)) (l : List (Fin n)) (s : Crew α n)
    (h : CrewServes k b.params progs (Crew.start w0.cache b.decs) l s) :
    (∀ i, ∃ d, CrewAlone k b.params b.decs (progs i) d (s.hands i).replies ∧
      ((s.hands i).doing = .free → ∀ ch, W i ch ∨ R i ch → s.decs[ch]? = d[ch]?)) ∧
    (∀ ch, (∀ i, ¬ W i ch) → s.decs[ch]? = b.decs[ch]?) ∧ s.decs.length = b.decs.length := by
  obtain ⟨reqs, x, hi, _⟩ := crew_inv k h0 b hap hk h
  refine ⟨fun i => ?_, hi.rest, hi.size⟩
  obtain ⟨d, c, h1, h2⟩ := hi.hand i
  refine ⟨d, crewCost_alone h1, fun hf => ?_⟩
  rw [hf] at h2
  exact h2.2.1

/-- **C122.** No data race: two threads are never about to access the same channel when one of them assigns to it, nor to
access one of the maps of the cache at the same time. -/
theorem C122_no_data_race (k : Kit α) (prep : Prog α) (w0 : World α) (rs0 : List (Reply α)) (h0 : Alone k prep w0 rs0)
    (b : Buffer α) (progs : Fin n → CrewProg α) (W R : Fin n → ℕ → Prop) (hap : Apart W R)
    (hk : ∀ i, KeepsTo (W i) (R i) (progs i)) (l : List (Fin n)) (s : Crew α n)
    (h : CrewServes k b.params progs (Crew.start w0.cache b.decs) l s) (i j : Fin n) (hij : i ≠ j) :
    (∀ ch, Assigning (s.hands i) ch → ¬ Assigning (s.hands j) ch ∧ ¬ Looking (s.hands j) ch) ∧
    ¬ (TouchesMain (s.shared.threads i) ∧ TouchesMain (s.shared.threads j)) ∧
    ¬ (TouchesTrans (s.shared.threads i) ∧ TouchesTrans (s.shared.threads j)) := by
  obtain ⟨reqs, x, hi, _⟩ := crew_inv k h0 b hap hk h
  refine ⟨fun ch ha => ?_, inv_race hi.shared hij⟩
  have hin : ∀ i a, (s.hands i).doing = .inCall a → a.Within (W i) (fun ch => W i ch ∨ R i ch) := by
    intro i a ha
    obtain ⟨d, c, _, h2⟩ := hi.hand i
    rw [ha] at h2
    obtain ⟨_, _, _, _, _, h3, _⟩ := h2
    exact h3
  obtain ⟨idx, m, rest, ha⟩ := ha
  have hw := hap i j hij ch (hin i _ ha).1
  constructor
  · rintro ⟨idx', m', rest', ha'⟩
    exact hw.1 (hin j _ ha').1
  · rintro ⟨rest', ha'⟩
    rcases (hin j _ ha').1 with h | h
    · exact hw.1 h
    · exact hw.2 h

/-- **C122.** A thread runs into undefined behaviour only in a call that has undefined behaviour also when its program is the
only user of the buffer. -/
theorem C122_crash (k : Kit α) (prep : Prog α) (w0 : World α) (rs0 : List (Reply α)) (h0 : Alone k prep w0 rs0)
    (b : Buffer α) (progs : Fin n → CrewProg α) (W R : Fin n → ℕ → Prop) (hap : Apart W R)
    (hk : ∀ i, KeepsTo (W i) (R i) (progs i)) (l : List (Fin n)) (s : Crew α n)
    (h : CrewServes k b.params progs (Crew.start w0.cache b.decs) l s) (i : Fin n) (hc : (s.hands i).doing = .crashed) :
    ∃ d op, CrewAlone k b.params b.decs (progs i) d (s.hands i).replies ∧ progs i (s.hands i).replies = some op ∧
      CrewOp.call k ⟨b.params, d⟩ op = none := by
  obtain ⟨reqs, x, hi, _⟩ := crew_inv k h0 b hap hk h
  obtain ⟨d, c, h1, h2⟩ := hi.hand i
  rw [hc] at h2
  obtain ⟨_, op, h3, h4, _⟩ := h2
  exact ⟨d, op, crewCost_alone h1, h3, h4⟩

/-- **C122.** If every program ends, without undefined behaviour, as the only user of the buffer, then together they end
whatever the schedule: there is a bound on its length, and when nothing more can be done every thread has no other call to
make, has got the replies it would have got alone, and finds the content it would have found alone in all channels it may
look at. -/
theorem C122_all_finish (k : Kit α) (prep : Prog α) (w0 : World α) (rs0 : List (Reply α)) (h0 : Alone k prep w0 rs0)
    (b : Buffer α) (progs : Fin n → CrewProg α) (W R : Fin n → ℕ → Prop) (hap : Apart W R)
    (hk : ∀ i, KeepsTo (W i) (R i) (progs i)) (d : Fin n → Decs α) (rs : Fin n → List (CrewReply α))
    (halone : ∀ i, CrewAlone k b.params b.decs (progs i) (d i) (rs i)) (hend : ∀ i, progs i (rs i) = none) :
    ∃ bound : ℕ, ∀ l s, CrewServes k b.params progs (Crew.start w0.cache b.decs) l s → l.length ≤ bound ∧
      ((∀ i, s.step k b.params progs i = none) → ∀ i, (s.hands i).doing = .free ∧ (s.hands i).replies = rs i ∧
        ∀ ch, W i ch ∨ R i ch → s.decs[ch]? = (d i)[ch]?) := by
  have hcost : ∀ i, ∃ c, CrewCost k b.params b.decs (progs i) (d i) (rs i) c := fun i => crewAlone_cost (halone i)
  choose c hc using hcost
  refine ⟨∑ i, c i, fun l s h => ?_⟩
  obtain ⟨reqs, x, hi, hl⟩ := crew_inv k h0 b hap hk h
  refine ⟨?_, fun hs i => ?_⟩
  · rw [hl]
    exact Finset.sum_le_sum fun i _ => (crew_spent hi (hc i) (hend i)).1
  · obtain ⟨_, h2, h3⟩ := crew_spent hi (hc i) (hend i)
    obtain ⟨h4, h5⟩ := (crew_progress hi hs i).resolve_left h2
    obtain ⟨h6, h7⟩ := h3 h5 h4
    exact ⟨h4, h6, h7⟩

/-- **C122.** No deadlock, also when programs do not end or crash: when no thread can do anything, each of them has no other call
to make or has run into undefined behaviour. -/
theorem C122_no_deadlock (k : Kit α) (prep : Prog α) (w0 : World α) (rs0 : List (Reply α)) (h0 : Alone k prep w0 rs0)
    (b : Buffer α) (progs : Fin n → CrewProg α) (W R : Fin n → ℕ → Prop) (hap : Apart W R)
    (hk : ∀ i, KeepsTo (W i) (R i) (progs i)) (l : List (Fin n)) (s : Crew α n)
    (h : CrewServes k b.params progs (Crew.start w0.cache b.decs) l s) (hs : ∀ i, s.step k b.params progs i = none) (i : Fin n) :
    (s.hands i).doing = .crashed ∨ ((s.hands i).doing = .free ∧ progs i (s.hands i).replies = none) := by
  obtain ⟨reqs, x, hi, _⟩ := crew_inv k h0 b hap hk h
  exact crew_progress hi hs i

/-- What one thread does alone. -/
theorem view_part {k : Kit α} {b : Buffer α} (hb : WellFormed b) (hf : FilterPresent k b.params) {data : List (Mat α)}
    (hd : IsSignal b.params data) {den : Denoiser α} (hden : KeepsSizes den) {start count : ℕ} (hpos : 0 < count)
    (hin : start + count ≤ b.params.signalNumber) (hint : start + count < 2 ^ 31) :
    (View.mk start count false).decompose k b ((data.drop start).take count) den =
      .ok (splice b.decs start (((data.drop start).take count).map (chanP b.params (scaling k b.params) den))) true := by
  have hlen : ((data.drop start).take count).length = count := by
    have := hd.1
    simp
    omega
  have hfit : start + ((data.drop start).take count).length ≤ b.decs.length := by
    rw [hlen, hb.2.1]; exact hin
  have hrun := decomposeImpl_ok hb.1 hf (fun _ => hden) hb.2.2 (by rw [hlen]; exact hpos)
    (fun m hm => shaped_of (hd.2 m (List.mem_of_mem_drop (List.mem_of_mem_take hm)))) start hfit
  rw [hlen] at hrun
  unfold View.decompose View.checkRange
  have e1 : -2 ^ 31 ≤ (start : ℤ) + (count : ℤ) ∧ (start : ℤ) + (count : ℤ) < 2 ^ 31 := by
    constructor <;> omega
  have e2 : (0 ≤ (start : ℤ) + (count : ℤ) ∧ (start : ℤ) + (count : ℤ) ≤ (b.params.signalNumber : ℤ)) := by
    constructor <;> omega
  simp only [if_pos e1, e2, and_self, decide_true, Run.lift_ok, Run.bind_ok, if_true]
  exact hrun

theorem call_viewDecompose {k : Kit α} {b : Buffer α} {v : View} {data : List (Mat α)} {den : Denoiser α} {d : Decs α} {x : Bool}
    (h : v.decompose k b data den = .ok d x) : CrewOp.call k b (.viewDecompose v data den) = some (d, .bool x) := by
  unfold CrewOp.call
  dsimp only
  rw [h]

/-- One thread per view: it decomposes its part of the signal through the view, and that is all. -/
def partProg (data : List (Mat α)) (den : Denoiser α) (start count : ℕ) : CrewProg α := fun rs =>
  match rs with
  | [] => some (.viewDecompose ⟨start, count, false⟩ ((data.drop start).take count) den)
  | _ => none

/-- **C122.** `Decompose` in parallel. When the channels of a buffer are divided into views and every thread decomposes its
part of the signal through its view, then every schedule comes to an end, and at the end every call has returned `true` and
the buffer has the content `Decompose` of the whole signal gives it. -/
theorem C122_decompose_in_parallel (k : Kit α) (prep : Prog α) (w0 : World α) (rs0 : List (Reply α)) (h0 : Alone k prep w0 rs0)
    (b : Buffer α) (hb : WellFormed b) (hf : FilterPresent k b.params) (data : List (Mat α)) (hd : IsSignal b.params data)
    (den : Denoiser α) (hden : KeepsSizes den) (start count : Fin n → ℕ) (hpos : ∀ i, 0 < count i)
    (hin : ∀ i, start i + count i ≤ b.params.signalNumber) (hint : ∀ i, start i + count i < 2 ^ 31)
    (happ : ∀ i j, i ≠ j → start i + count i ≤ start j ∨ start j + count j ≤ start i)
    (hall : ∀ ch < b.params.signalNumber, ∃ i, start i ≤ ch ∧ ch < start i + count i) (hch : 0 < b.params.signalNumber) :
    ∃ d bound, b.decompose k data den = .ok d true ∧
      ∀ l s, CrewServes k b.params (fun i => partProg data den (start i) (count i)) (Crew.start w0.cache b.decs) l s →
        l.length ≤ bound ∧ ((∀ i, s.step k b.params (fun i => partProg data den (start i) (count i)) i = none) →
          s.decs = d ∧ ∀ i, (s.hands i).replies = [.bool true]) := by
  have hview := fun i => view_part hb hf hd hden (hpos i) (hin i) (hint i)
  have hap : Apart (fun i ch => start i ≤ ch ∧ ch < start i + count i) (fun (_ : Fin n) _ => False) := by
    intro i j hij ch hw
    have := happ i j hij
    exact ⟨by omega, by simp⟩
  have hk : ∀ i, KeepsTo (fun ch => start i ≤ ch ∧ ch < start i + count i) (fun _ => False) (partProg data den (start i) (count i)) := by
    intro i rs op hop ch
    unfold partProg at hop
    split at hop
    · cases hop
      refine ⟨fun hv => ?_, fun hv => hv.elim⟩
      unfold Assigns InView at hv
      dsimp only at hv
      omega
    · cases hop
  have halone : ∀ i, CrewAlone k b.params b.decs (partProg data den (start i) (count i))
      (splice b.decs (start i) (((data.drop (start i)).take (count i)).map (chanP b.params (scaling k b.params) den)))
      ([] ++ [.bool true]) := by
    intro i
    refine .call .start (op := .viewDecompose ⟨start i, count i, false⟩ ((data.drop (start i)).take (count i)) den) rfl ?_
    exact call_viewDecompose (hview i)
  obtain ⟨bound, hfin⟩ := C122_all_finish k prep w0 rs0 h0 b (fun i => partProg data den (start i) (count i)) _ _ hap hk _ _
    halone (fun _ => rfl)
  refine ⟨_, bound, decompose_ok hb hf hch hd (fun _ => hden), fun l s h => ?_⟩
  obtain ⟨h1, h2⟩ := hfin l s h
  refine ⟨h1, fun hs => ⟨?_, fun i => (h2 hs i).2.1⟩⟩
  have hsize := (C122_as_alone k prep w0 rs0 h0 b _ _ _ hap hk l s h).2.2
  apply List.ext_getElem?
  intro ch
  by_cases hlt : ch < b.params.signalNumber
  · obtain ⟨i, hi1, hi2⟩ := hall ch hlt
    rw [(h2 hs i).2.2 ch (.inl ⟨hi1, hi2⟩)]
    have hlen : ((data.drop (start i)).take (count i)).length = count i := by
      have := hd.1
      have := hin i
      simp
      omega
    obtain ⟨j, rfl⟩ := Nat.exists_eq_add_of_le hi1
    rw [getElem?_splice_in (by simp only [List.length_map]; rw [hlen, hb.2.1]; exact hin i) (by simp only [List.length_map]; omega)]
    rw [List.getElem?_map, List.getElem?_map, List.getElem?_take_of_lt (by omega), List.getElem?_drop]
  · rw [List.getElem?_eq_none (by rw [hsize, hb.2.1]; omega), List.getElem?_eq_none (by simp; rw [hd.1]; omega)]

/-! ### examples -/

/-- A small filter table. -/
private def exKit : Kit ℤ := ⟨fun o => if o = 1 then [1, 1] else [], id, fun _ _ x => x⟩

/-- A buffer for three 2 × 2 channels. -/
private def exBuf : Buffer ℤ := ⟨⟨[2, 2], 3, 1, 1⟩, List.replicate 3 (List.replicate 4 Mat.empty)⟩

private def exPic (x : ℤ) : Mat ℤ := Mat.ofFn 2 2 fun i j => x + i + 2 * j

/-- One thread decomposes the first channel through a view and reads it, the other one decomposes the second channel, composes
it if that has succeeded, and casts the last two channels, the third of which nobody changes. -/
private def exCrew : Fin 2 → CrewProg ℤ
  | 0 => fun rs => match rs with
    | [] => some (.viewDecompose ⟨0, 1, false⟩ [exPic 0] nullDenoiser)
    | [_] => some (.read 0)
    | _ => none
  | 1 => fun rs => match rs with
    | [] => some (.viewDecompose ⟨1, 1, false⟩ [exPic 7] nullDenoiser)
    | [.bool true] => some (.viewCompose ⟨1, 1, true⟩ 0)
    | [_, _] => some (.cast ⟨1, 2, true⟩)
    | _ => none

private def exW : Fin 2 → ℕ → Prop := fun i ch => ch = i
private def exR : Fin 2 → ℕ → Prop := fun _ ch => ch = 2

private def crewAll {p : Params} (k : Kit ℤ) (progs : Fin 2 → CrewProg ℤ) : List (Fin 2) → Crew ℤ 2 → Option (Crew ℤ 2)
  | [], s => some s
  | i :: l, s => match s.step k p progs i with
    | none => none
    | some s' => crewAll (p := p) k progs l s'

private theorem serves_of_crewAll {p : Params} (k : Kit ℤ) (progs : Fin 2 → CrewProg ℤ) (l : List (Fin 2)) (s s' : Crew ℤ 2)
    (h : crewAll (p := p) k progs l s = some s') : CrewServes k p progs s l s' := by
  induction l generalizing s with
  | nil => cases h; exact .nil _
  | cons i l ih =>
    unfold crewAll at h
    cases hs : s.step k p progs i with
    | none => rw [hs] at h; cases h
    | some s1 => rw [hs] at h; exact .cons hs (ih _ h)

private theorem exApart : Apart exW exR := by
  intro i j hij ch hw
  unfold exW at hw
  unfold exW exR
  have := i.isLt
  refine ⟨fun h => hij (Fin.ext (by omega)), by omega⟩

private theorem exKeeps : ∀ i, KeepsTo (exW i) (exR i) (exCrew i) := by
  intro i rs op h ch
  match i with
  | 0 =>
    unfold exCrew at h
    dsimp only at h
    split at h <;> cases h <;> refine ⟨fun h => ?_, fun h => ?_⟩ <;> simp [Assigns, LooksAt, InView, exW, exR] at h ⊢ <;> omega
  | 1 =>
    unfold exCrew at h
    dsimp only at h
    split at h <;> cases h <;> refine ⟨fun h => ?_, fun h => ?_⟩ <;> simp [Assigns, LooksAt, InView, exW, exR] at h ⊢ <;> omega

/-- The hypotheses are met, with a schedule in which the assignments of the two threads alternate and the second thread
waits for the cache. -/
example : Alone exKit (fun _ _ => none) World.init [] ∧ Apart exW exR ∧ (∀ i, KeepsTo (exW i) (exR i) (exCrew i)) ∧
    ∃ s, CrewServes exKit exBuf.params exCrew (Crew.start World.init.cache exBuf.decs)
      [0, 1, 0, 1, 0, 1, 0, 0, 0, 0, 0, 1, 0, 1, 0, 1, 0, 1, 0, 1, 0, 1, 0, 1, 0, 1, 0, 1, 0, 1, 0, 1, 1, 1, 1, 1, 1, 1, 1, 1,
        1, 1, 1, 1, 1, 1, 1, 1, 1, 1, 1, 1, 1] s ∧
      s.decs.map (fun c => c.map Mat.data) = [[[-2], [-4], [0], [6]], [[-2], [-4], [0], [34]], [[], [], [], []]] ∧
      (s.hands 0).replies.length = 2 ∧ (s.hands 1).replies.length = 3 :=
  ⟨.start, exApart, exKeeps, _, serves_of_crewAll _ _ _ _ _ rfl, rfl, rfl, rfl⟩

/-- A buffer for three signals of two samples, divided into the first channel and the other two: the hypotheses of
`C122_decompose_in_parallel` are met. -/
example : ∃ (b : Buffer ℤ) (data : List (Mat ℤ)) (start count : Fin 2 → ℕ), WellFormed b ∧ FilterPresent exKit b.params ∧
    IsSignal b.params data ∧ KeepsSizes (nullDenoiser : Denoiser ℤ) ∧ (∀ i, 0 < count i) ∧
    (∀ i, start i + count i ≤ b.params.signalNumber) ∧ (∀ i, start i + count i < 2 ^ 31) ∧
    (∀ i j, i ≠ j → start i + count i ≤ start j ∨ start j + count j ≤ start i) ∧
    (∀ ch < b.params.signalNumber, ∃ i, start i ≤ ch ∧ ch < start i + count i) ∧ 0 < b.params.signalNumber := by
  refine ⟨⟨⟨[2], 3, 1, 1⟩, List.replicate 3 [Mat.empty, Mat.empty]⟩, [Mat.ofCol [1, 2], Mat.ofCol [3, 4], Mat.ofCol [5, 6]],
    ![0, 1], ![1, 2], ?_, ?_, ?_, ?_, ?_, ?_, ?_, ?_, ?_, ?_⟩
  · exact ⟨⟨by simp, by simp, by simp⟩, rfl, by simp [subbandCount, detailsPerStep]⟩
  · intro _; rfl
  · exact ⟨rfl, by simp [HasShape, Mat.ofCol]⟩
  · exact ⟨fun _ _ => rfl, fun _ _ => ⟨rfl, rfl⟩⟩
  · intro i; match i with | 0 => simp | 1 => simp
  · intro i; match i with | 0 => simp | 1 => simp
  · intro i; match i with | 0 => simp | 1 => simp
  · intro i j hij; match i, j with | 0, 0 => exact absurd rfl hij | 0, 1 => simp | 1, 0 => simp | 1, 1 => exact absurd rfl hij
  · intro ch hch
    rcases Nat.eq_zero_or_pos ch with h | h
    · exact ⟨0, by simp [h]⟩
    · exact ⟨1, by simp at hch ⊢; omega⟩
  · simp

/-- Two threads decompose different signals into the same channel. -/
private def exClash : Fin 2 → CrewProg ℤ := fun i rs =>
  match rs with
  | [] => some (.viewDecompose ⟨0, 1, false⟩ [Mat.ofCol [if i = 0 then 1 else 5, 2]] nullDenoiser)
  | _ => none

/-- The rule is needed: when two threads decompose into the same channel, both calls return `true`, but the channel can end up
with the details of one signal and the approximation of the other. -/
theorem C122_rule_needed : ∃ (k : Kit ℤ) (b : Buffer ℤ) (progs : Fin 2 → CrewProg ℤ) (l : List (Fin 2)) (s : Crew ℤ 2),
    CrewServes k b.params progs (Crew.start World.init.cache b.decs) l s ∧ (∀ i, s.step k b.params progs i = none) ∧
    ∀ i, ∃ d, CrewAlone k b.params b.decs (progs i) d (s.hands i).replies ∧ s.decs ≠ d := by
  refine ⟨exKit, ⟨⟨[2], 1, 1, 1⟩, [[Mat.empty, Mat.empty]]⟩, exClash, [0, 1, 0, 1, 1, 1, 0, 0], _,
    serves_of_crewAll _ _ _ _ _ rfl, ?_, ?_⟩
  · intro i
    match i with
    | 0 => rfl
    | 1 => rfl
  · intro i
    match i with
    | 0 => exact ⟨_, .call .start rfl rfl, fun h => absurd (congrArg (fun d => d.map (fun c => c.map Mat.data)) h) (by decide)⟩
    | 1 => exact ⟨_, .call .start rfl rfl, fun h => absurd (congrArg (fun d => d.map (fun c => c.map Mat.data)) h) (by decide)⟩

end WB.Props
