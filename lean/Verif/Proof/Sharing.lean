import Verif.Spec.Sharing
import Verif.Proof.Clients

/-!
Threads that only read the common buffers behave like threads with copies of them.
-/

set_option linter.unusedSectionVars false

namespace WB

open Spec

variable {α : Type} {n : ℕ} [Zero α] [Add α] [Mul α] [Neg α] [Inhabited α]

/-- A thread owns nothing that is common. -/
def OwnOk (pub own : Own α) : Prop := ∀ a, Slot.holds a ∈ own.handles → pub.heap.length ≤ a

/-- The common buffers are as they were. -/
def Kept (pub o : Own α) : Prop := ∃ own, o = own.behind pub ∧ OwnOk pub own

theorem kept_update {pub own : Own α} (ho : OwnOk pub own) {a : ℕ} (ha : pub.heap.length ≤ a) (b : Buffer α)
    (r : Cache α × Run (Decs α) Bool) {o' : Own α} {x : Reply α}
    (h : ownEffect ((own.behind pub).world.update a b r) = some (o', x)) : Kept pub o' := by
  obtain ⟨c, r⟩ := r
  have key : ∀ d, Kept pub ⟨(pub.heap ++ own.heap).set a d, pub.handles ++ own.handles⟩ := fun d =>
    ⟨⟨own.heap.set (a - pub.heap.length) d, own.handles⟩, by
      unfold Own.behind
      rw [List.set_append_right _ _ ha], ho⟩
  cases r <;> cases h <;> exact key _

theorem kept_query {pub own : Own α} (ho : OwnOk pub own) (r : Cache α × Outcome (Reply α)) {o' : Own α} {x : Reply α}
    (h : ownEffect ((own.behind pub).world.query r) = some (o', x)) : Kept pub o' := by
  obtain ⟨c, r⟩ := r
  cases r <;> cases h <;> exact ⟨own, rfl, ho⟩

theorem kept_alloc {pub own : Own α} (ho : OwnOk pub own) (b : Buffer α) :
    Kept pub ((own.behind pub).world.alloc b).own := by
  refine ⟨⟨own.heap ++ [b], own.handles ++ [.holds (own.behind pub).heap.length]⟩, ?_, fun a ha => ?_⟩
  · simp [World.alloc, World.own, Own.behind, Own.world]
  · rcases List.mem_append.1 ha with h | h
    · exact ho a h
    · cases List.mem_singleton.1 h
      simp [Own.behind]

theorem kept_build {pub own : Own α} (ho : OwnOk pub own) (r : Outcome (Buffer α)) {o' : Own α} {x : Reply α}
    (h : ownEffect ((own.behind pub).world.build r) = some (o', x)) : Kept pub o' := by
  cases r <;> cases h
  · exact kept_alloc ho _
  · exact ⟨own, rfl, ho⟩

theorem behind_handle {pub own : Own α} {h : ℕ} (hm : pub.handles.length ≤ h) {s : Slot}
    (hs : (own.behind pub).handles[h]? = some s) : s ∈ own.handles := by
  unfold Own.behind at hs
  dsimp only at hs
  rw [List.getElem?_append_right hm] at hs
  exact List.mem_of_getElem? hs

theorem behind_find {pub own : Own α} (ho : OwnOk pub own) {h : ℕ} (hm : pub.handles.length ≤ h) {a : ℕ} {b : Buffer α}
    (hf : (own.behind pub).world.find h = some (a, b)) : pub.heap.length ≤ a :=
  ho a (behind_handle hm (World.find_some hf).1)

/-- Handles of one's own may be set to what is one's own. -/
theorem kept_set {pub own : Own α} (ho : OwnOk pub own) {h : ℕ} (hm : pub.handles.length ≤ h) (s : Slot)
    (hs : ∀ a, s = .holds a → pub.heap.length ≤ a) :
    ∃ own', (own.behind pub).handles.set h s = pub.handles ++ own' ∧ OwnOk pub ⟨own.heap, own'⟩ := by
  refine ⟨own.handles.set (h - pub.handles.length) s, List.set_append_right _ _ hm, fun a ha => ?_⟩
  rcases List.mem_or_eq_of_mem_set ha with h1 | h1
  · exact ho a h1
  · exact hs a h1.symm

/-- What a call can make of the buffers. -/
def Begun.Keeps (pub : Own α) : Begun α → Prop
  | .ends r => ∀ o x, r = some (o, x) → Kept pub o
  | .asks _ rest => ∀ st o x, rest st = some (o, x) → Kept pub o

theorem keeps_decompose {pub own : Own α} (ho : OwnOk pub own) (k : Kit α) {a : ℕ} (ha : pub.heap.length ≤ a) (b : Buffer α)
    (data : List (Mat α)) (den : Denoiser α) (start count : ℤ) :
    ((own.behind pub).beginDecompose k a b data den start count).Keeps pub := by
  unfold Own.beginDecompose
  dsimp only
  split <;> split <;> first
    | exact fun st o x h => kept_update ho ha _ _ h
    | exact fun o x h => kept_update ho ha _ _ h

theorem keeps_compose {pub own : Own α} (ho : OwnOk pub own) (k : Kit α) (b : Buffer α) (scale start count : ℤ)
    (f : List (Mat α) → Outcome (Reply α)) : ((own.behind pub).beginCompose k b scale start count f).Keeps pub := by
  unfold Own.beginCompose
  dsimp only
  split
  · exact fun st o x h => kept_query ho _ h
  · exact fun o x h => kept_query ho _ h

theorem keeps_none {pub : Own α} : (Begun.ends none : Begun α).Keeps pub := fun _ _ h => by cases h

theorem keeps_same {pub own : Own α} (ho : OwnOk pub own) (x : Reply α) : (Begun.ends (some (own.behind pub, x))).Keeps pub :=
  fun _ _ h => by cases h; exact ⟨own, rfl, ho⟩

theorem start_keeps {pub own : Own α} (ho : OwnOk pub own) (k : Kit α) (op : Op α)
    (hop : ∀ h ∈ changed op, pub.handles.length ≤ h) : ((own.behind pub).start k op).Keeps pub := by
  cases op with
  | construct p => exact fun o x h => kept_build ho _ h
  | constructWith p d => exact fun o x h => kept_build ho _ h
  | decompose h data den =>
    have hm := hop h (by simp [changed])
    simp only [Own.start]
    cases hf : (own.behind pub).world.find h with
    | none => exact keeps_none
    | some x => exact keeps_decompose ho k (behind_find ho hm hf) _ _ _ _ _
  | decompose1 h data den =>
    have hm := hop h (by simp [changed])
    simp only [Own.start]
    cases hf : (own.behind pub).world.find h with
    | none => exact keeps_none
    | some x => exact keeps_decompose ho k (behind_find ho hm hf) _ _ _ _ _
  | compose h scale =>
    simp only [Own.start]
    cases (own.behind pub).world.find h with
    | none => exact keeps_none
    | some x => exact keeps_compose ho k _ _ _ _ _
  | compose1 h scale =>
    simp only [Own.start]
    cases (own.behind pub).world.find h with
    | none => exact keeps_none
    | some x => exact keeps_compose ho k _ _ _ _ _
  | viewDecompose h v data den =>
    have hm := hop h (by simp [changed])
    simp only [Own.start]
    cases hf : (own.behind pub).world.find h with
    | none => exact keeps_none
    | some x =>
      dsimp only
      rcases v.checkRange x.2.params.signalNumber with (_ | _) | _ | _
      · exact keeps_same ho _
      · dsimp only
        cases v.isConst
        · exact keeps_decompose ho k (behind_find ho hm hf) _ _ _ _ _
        · exact keeps_none
      · exact keeps_none
      · exact keeps_none
  | viewCompose h v scale =>
    simp only [Own.start]
    cases (own.behind pub).world.find h with
    | none => exact keeps_none
    | some x =>
      dsimp only
      rcases v.checkRange x.2.params.signalNumber with (_ | _) | _ | _
      · exact keeps_same ho _
      · exact keeps_compose ho k _ _ _ _ _
      · exact keeps_none
      · exact keeps_none
  | cast h v =>
    simp only [Own.start, World.step]
    cases (own.behind pub).world.find h with
    | none => exact keeps_none
    | some x => exact fun o y h => kept_build ho _ h
  | write h ch idx m =>
    have hm := hop h (by simp [changed])
    simp only [Own.start, World.step]
    cases hf : (own.behind pub).world.find h with
    | none => exact keeps_none
    | some x =>
      dsimp only
      have ha := behind_find ho hm hf
      split
      · intro o y h
        cases h
        exact ⟨⟨own.heap.set (x.1 - pub.heap.length) _, own.handles⟩, by
          show (⟨(pub.heap ++ own.heap).set x.1 _, _⟩ : Own α) = _
          rw [List.set_append_right _ _ ha]; rfl, ho⟩
      · exact keeps_none
  | copy h =>
    simp only [Own.start, World.step]
    cases (own.behind pub).world.find h with
    | none => exact keeps_none
    | some x =>
      intro o y h
      cases h
      exact kept_alloc ho _
  | move h =>
    have hm := hop h (by simp [changed])
    intro o y hy
    simp only [World.step] at hy
    have hh : (own.behind pub).world.handles = (own.behind pub).handles := rfl
    rw [hh] at hy
    rcases hs : (own.behind pub).handles[h]? with _ | s
    · rw [hs] at hy; cases hy
    · rw [hs] at hy
      have hmem := behind_handle hm hs
      obtain ⟨own', e, ho'⟩ := kept_set ho hm .null (fun a h => by cases h)
      have fin : Kept pub ⟨(own.behind pub).heap, (own.behind pub).handles.set h .null ++ [s]⟩ := by
        refine ⟨⟨own.heap, own' ++ [s]⟩, by rw [e]; simp [Own.behind], fun a ha => ?_⟩
        rcases List.mem_append.1 ha with h | h
        · exact ho' a h
        · rw [List.mem_singleton] at h
          exact ho a (h ▸ hmem)
      rcases s with _ | _ | _
      · cases hy
      · cases hy; exact fin
      · cases hy; exact fin
  | assign h g =>
    have hm := hop h (by simp [changed])
    intro o y hy
    simp only [World.step] at hy
    have hh : (own.behind pub).world.handles = (own.behind pub).handles := rfl
    rw [hh] at hy
    obtain ⟨own', e, ho'⟩ := kept_set ho hm (.holds (own.behind pub).heap.length) (fun a h => by cases h; simp [Own.behind])
    have fin : ∀ b, Kept pub ⟨(own.behind pub).heap ++ [b], (own.behind pub).handles.set h (.holds (own.behind pub).heap.length)⟩ := by
      intro b
      exact ⟨⟨own.heap ++ [b], own'⟩, by rw [e]; simp [Own.behind], ho'⟩
    revert hy
    rcases (own.behind pub).handles[h]? with _ | (_ | _ | _) <;> rcases (own.behind pub).world.find g with _ | ⟨_, _⟩ <;>
      intro hy <;> cases hy <;> exact fin _
  | moveAssign h g =>
    have hm := hop h (by simp [changed])
    have hg := hop g (by simp [changed])
    intro o y hy
    simp only [World.step] at hy
    have hh : (own.behind pub).world.handles = (own.behind pub).handles := rfl
    rw [hh] at hy
    have fin : ∀ s, (own.behind pub).handles[g]? = some s →
        Kept pub ⟨(own.behind pub).heap, ((own.behind pub).handles.set g .null).set h s⟩ := by
      intro s hs
      obtain ⟨own', e, ho'⟩ := kept_set ho hg .null (fun a h => by cases h)
      obtain ⟨own'', e', ho''⟩ := kept_set ho' hm s (fun a h => ho a (h ▸ behind_handle hg hs))
      refine ⟨⟨own.heap, own''⟩, ?_, ho''⟩
      rw [e]
      have : (pub.handles ++ own').set h s = pub.handles ++ own'' := e'
      rw [this]
      rfl
    revert hy
    rcases (own.behind pub).handles[h]? with _ | (_ | _ | _) <;> rcases hs : (own.behind pub).handles[g]? with _ | (_ | _ | _) <;>
      intro hy <;> first
      | (cases hy)
      | (dsimp only at hy
         split at hy
         · cases hy; exact ⟨own, rfl, ho⟩
         · cases hy; exact fin _ hs)
  | destroy h =>
    have hm := hop h (by simp [changed])
    intro o y hy
    simp only [World.step] at hy
    have hh : (own.behind pub).world.handles = (own.behind pub).handles := rfl
    rw [hh] at hy
    obtain ⟨own', e, ho'⟩ := kept_set ho hm .dead (fun a h => by cases h)
    have fin : Kept pub ⟨(own.behind pub).heap, (own.behind pub).handles.set h .dead⟩ :=
      ⟨⟨own.heap, own'⟩, by rw [e]; rfl, ho'⟩
    revert hy
    rcases (own.behind pub).handles[h]? with _ | (_ | _ | _) <;> intro hy <;> cases hy <;> exact fin

/-! ### Simulation by threads with copies -/

/-- The position of a thread in terms of `Model/Clients`. -/
def Busy.seen (k : Kit α) (o : Own α) : Busy α → Doing α
  | .free => .free
  | .crashed => .crashed
  | .waiting op => match o.start k op with
    | .asks _ rest => .waiting rest
    | .ends _ => .crashed

/-- The same process with a copy of the common buffers for each thread. -/
def Team.copies (k : Kit α) (s : Team α n) : Process α n :=
  ⟨s.shared, fun i => ⟨s.view i, (s.members i).replies, (s.members i).doing.seen k (s.view i)⟩⟩

/-- The invariant. -/
structure TInv (k : Kit α) (pub : Own α) (s : Team α n) : Prop where
  common : s.pub = pub
  own : ∀ i, OwnOk pub (s.members i).own
  waiting : ∀ i op, (s.members i).doing = .waiting op → (∀ h ∈ changed op, pub.handles.length ≤ h) ∧
    ∃ q rest, (s.view i).start k op = .asks q rest

theorem behind_split {pub own : Own α} : (⟨(own.behind pub).heap.take pub.heap.length,
    (own.behind pub).handles.take pub.handles.length⟩ : Own α) = pub ∧
    (⟨(own.behind pub).heap.drop pub.heap.length, (own.behind pub).handles.drop pub.handles.length⟩ : Own α) = own := by
  simp [Own.behind]

/-- The end of a call. -/
theorem team_reply {k : Kit α} {pub : Own α} {s : Team α n} (h : TInv k pub s) (i : Fin n) (r : Option (Own α × Reply α))
    (hr : ∀ o x, r = some (o, x) → Kept pub o) :
    TInv k pub (s.reply i r) ∧ (s.reply i r).copies k = (s.copies k).reply i r := by
  obtain ⟨sh, sp, mem⟩ := s
  obtain rfl : sp = pub := h.common
  cases r with
  | none =>
    refine ⟨⟨rfl, fun j => ?_, fun j op hj => ?_⟩, ?_⟩
    · show OwnOk sp (Function.update mem i _ j).own
      by_cases hij : j = i
      · subst hij; rw [Function.update_self]; exact h.own j
      · rw [Function.update_of_ne hij]; exact h.own j
    · change (Function.update mem i _ j).doing = _ at hj
      show _ ∧ ∃ q rest, ((Function.update mem i _ j).own.behind sp).start k op = _
      by_cases hij : j = i
      · subst hij; rw [Function.update_self] at hj; cases hj
      · rw [Function.update_of_ne hij] at hj ⊢; exact h.waiting j op hj
    · unfold Team.reply Team.copies Process.reply Process.setClient Team.view
      dsimp only
      congr 1
      funext j
      by_cases hij : j = i
      · subst hij; simp only [Function.update_self]; rfl
      · simp only [Function.update_of_ne hij]
  | some y =>
    obtain ⟨o, x⟩ := y
    obtain ⟨own, rfl, hown⟩ := hr o x rfl
    have e : Team.reply ⟨sh, sp, mem⟩ i (some (own.behind sp, x)) =
        ⟨sh, sp, Function.update mem i ⟨own, (mem i).replies ++ [x], .free⟩⟩ := by
      unfold Team.reply
      dsimp only
      rw [behind_split.1, behind_split.2]
    rw [e]
    refine ⟨⟨rfl, fun j => ?_, fun j op hj => ?_⟩, ?_⟩
    · show OwnOk sp (Function.update mem i _ j).own
      by_cases hij : j = i
      · subst hij; rw [Function.update_self]; exact hown
      · rw [Function.update_of_ne hij]; exact h.own j
    · change (Function.update mem i _ j).doing = _ at hj
      show _ ∧ ∃ q rest, ((Function.update mem i _ j).own.behind sp).start k op = _
      by_cases hij : j = i
      · subst hij; rw [Function.update_self] at hj; cases hj
      · rw [Function.update_of_ne hij] at hj ⊢; exact h.waiting j op hj
    · unfold Team.copies Process.reply Process.setClient Team.view
      dsimp only
      congr 1
      funext j
      by_cases hij : j = i
      · subst hij; simp only [Function.update_self]; rfl
      · simp only [Function.update_of_ne hij]

/-- Every step is a step of the process with copies, and the other way round. -/
theorem team_step {k : Kit α} {pub : Own α} {s : Team α n} (h : TInv k pub s) {progs : Fin n → Prog α}
    (hp : ∀ i, OnlyReads pub.handles.length (progs i)) (i : Fin n) :
    (s.copies k).step k progs i = (s.step k progs i).map (Team.copies k) ∧
    ∀ s', s.step k progs i = some s' → TInv k pub s' := by
  have hview : s.view i = (s.members i).own.behind pub := by unfold Team.view; rw [h.common]
  have e1 : ((s.copies k).clients i).own = s.view i := rfl
  have e2 : ((s.copies k).clients i).replies = (s.members i).replies := rfl
  have e3 : (s.copies k).shared = s.shared := rfl
  have e4 : ((s.copies k).clients i).doing = (s.members i).doing.seen k (s.view i) := rfl
  have keeps : ∀ op, (∀ h ∈ changed op, pub.handles.length ≤ h) → ((s.view i).start k op).Keeps pub := fun op hop =>
    hview ▸ start_keeps (h.own i) k op hop
  unfold Process.step Team.step
  rw [e1, e2, e3, e4]
  cases hd : (s.members i).doing with
  | crashed => exact ⟨rfl, fun _ h => by cases h⟩
  | free =>
    dsimp only [Busy.seen]
    cases hop : progs i (s.view i) (s.members i).replies with
    | none => exact ⟨rfl, fun _ h => by cases h⟩
    | some op =>
      dsimp only
      have hk := keeps op (hp i _ _ _ hop)
      cases hb : (s.view i).start k op with
      | ends r =>
        rw [hb] at hk
        obtain ⟨h1, h2⟩ := team_reply h i r hk
        dsimp only
        rw [Option.map_some, h2]
        exact ⟨rfl, fun s' hs => by cases hs; exact h1⟩
      | asks q rest =>
        dsimp only
        rw [Option.map_some]
        refine ⟨?_, fun s' hs => ?_⟩
        · congr 1
          unfold Team.copies Team.view
          dsimp only
          congr 1
          funext j
          by_cases hij : j = i
          · subst hij
            have hb' : ((s.members j).own.behind s.pub).start k op = .asks q rest := hb
            simp only [Function.update_self, Busy.seen, hb']
          · simp only [Function.update_of_ne hij]
        · cases hs
          refine ⟨h.common, fun j => ?_, fun j op' hj => ?_⟩
          · show OwnOk pub (Function.update s.members i _ j).own
            by_cases hij : j = i
            · subst hij; rw [Function.update_self]; exact h.own j
            · rw [Function.update_of_ne hij]; exact h.own j
          · change (Function.update s.members i _ j).doing = _ at hj
            show _ ∧ ∃ q rest, ((Function.update s.members i _ j).own.behind s.pub).start k op' = _
            by_cases hij : j = i
            · subst hij
              rw [Function.update_self] at hj ⊢
              cases hj
              exact ⟨hp j _ _ _ hop, q, rest, hb⟩
            · rw [Function.update_of_ne hij] at hj ⊢; exact h.waiting j op' hj
  | waiting op =>
    obtain ⟨hc, q, rest, hb⟩ := h.waiting i op hd
    have hk := keeps op hc
    rw [hb] at hk
    have hseen : (Busy.waiting op).seen k (s.view i) = .waiting rest := by simp only [Busy.seen, hb]
    rw [hseen]
    dsimp only
    have hstep : (match s.shared.step k i with
          | none => none
          | some sh => some { s.copies k with shared := sh }) =
        (match s.shared.step k i with
          | none => none
          | some sh => some { s with shared := sh }).map (Team.copies k) := by
      cases s.shared.step k i <;> rfl
    have hinv : ∀ s', (match s.shared.step k i with
          | none => none
          | some sh => some { s with shared := sh }) = some s' → TInv k pub s' := by
      intro s' hs
      cases h1 : s.shared.step k i with
      | none => rw [h1] at hs; cases hs
      | some sh => rw [h1] at hs; cases hs; exact ⟨h.common, h.own, h.waiting⟩
    by_cases hidle : (s.shared.threads i).pc = .idle ∧ (s.shared.threads i).todo = []
    · rw [hidle.1, hidle.2]
      dsimp only
      cases (s.shared.threads i).results.getLast? with
      | none => exact ⟨rfl, fun _ h => by cases h⟩
      | some x =>
        dsimp only
        rw [hb]
        dsimp only
        obtain ⟨h1, h2⟩ := team_reply h i (rest x) (hk x)
        rw [Option.map_some, h2]
        exact ⟨rfl, fun s' hs => by cases hs; exact h1⟩
    · constructor
      · refine Eq.trans (b := match s.shared.step k i with
          | none => none
          | some sh => some { s.copies k with shared := sh }) ?_ (hstep.trans (congrArg _ ?_))
        · split
          · rename_i h1 h2; exact absurd ⟨h1, h2⟩ hidle
          · rfl
        · symm
          split
          · rename_i h1 h2; exact absurd ⟨h1, h2⟩ hidle
          · rfl
      · intro s' hs
        split at hs
        · rename_i h1 h2; exact absurd ⟨h1, h2⟩ hidle
        · exact hinv s' hs

theorem team_serves {k : Kit α} {pub : Own α} {s s' : Team α n} (h : TInv k pub s) {progs : Fin n → Prog α}
    (hp : ∀ i, OnlyReads pub.handles.length (progs i)) {l : List (Fin n)} (hs : TeamServes k progs s l s') :
    TInv k pub s' ∧ Serves k progs (s.copies k) l (s'.copies k) := by
  induction hs with
  | nil s => exact ⟨h, .nil _⟩
  | cons h1 _ ih =>
    obtain ⟨g1, g2⟩ := team_step h hp _
    obtain ⟨g3, g4⟩ := ih (g2 _ h1)
    refine ⟨g3, .cons ?_ g4⟩
    rw [g1, h1]
    rfl

theorem tinv_start (k : Kit α) (w : World α) : TInv k w.own (Team.start w : Team α n) :=
  ⟨rfl, fun _ _ h => (by cases h), fun _ _ h => (by cases h)⟩

theorem copies_start (k : Kit α) (w : World α) :
    (Team.start w : Team α n).copies k = Process.start w.cache fun _ => w.own := by
  unfold Team.copies Process.start Team.start Team.view Own.behind
  simp [Busy.seen]

/-- Everything that is known of the process with copies. -/
theorem team_pinv {k : Kit α} {w : World α} (hw : w.Inv k) {progs : Fin n → Prog α}
    (hp : ∀ i, OnlyReads w.handles.length (progs i)) {l : List (Fin n)} {s : Team α n} (hs : TeamServes k progs (Team.start w) l s) :
    TInv k w.own s ∧ (∃ reqs, PInv k (fun _ => w) progs reqs (s.copies k)) ∧
      l.length ≤ ∑ i, 15 * ((s.members i).replies.length + 1) := by
  obtain ⟨h1, h2⟩ := team_serves (tinv_start k w) hp hs
  have h0 := pinv_start k hw.cache (fun _ : Fin n => hw) progs
  rw [copies_start] at h2
  exact ⟨h1, pinv_serves h0 h2, serves_steps h0 h2⟩

end WB
