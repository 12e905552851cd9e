import Verif.Spec.CrewFail
import Verif.Proof.CrewFailCache
import Verif.Proof.Crew

/-!
Invariant of threads on one buffer when memory may run out.
-/

set_option linter.unusedSectionVars false

namespace WB

open Spec

variable {α β γ : Type} {n : ℕ} [Zero α] [Add α] [Mul α] [Neg α] [Inhabited α]

/-! ### No place is assigned to twice in a call -/

/-- All assignments of the call are to places in `L`. -/
def Acc.Only (L : ℕ → ℕ → Prop) : Acc α β → Prop
  | .done _ => True
  | .fail => True
  | .bad => True
  | .ask _ rest => ∀ x, (rest x).Only L
  | .read _ rest => ∀ c, (rest c).Only L
  | .write ch idx _ rest => L ch idx ∧ rest.Only L

/-- No place is assigned to twice, and an exception from the cache ends the call. -/
def Acc.Once : Acc α β → Prop
  | .done _ => True
  | .fail => True
  | .bad => True
  | .ask _ rest => rest .throw = .fail ∧ ∀ x, (rest x).Once
  | .read _ rest => ∀ c, (rest c).Once
  | .write ch idx _ rest => rest.Only (fun c j => ¬ (c = ch ∧ j = idx)) ∧ rest.Once

theorem Acc.Only.mono {L L' : ℕ → ℕ → Prop} (h : ∀ c j, L c j → L' c j) : ∀ {a : Acc α β}, a.Only L → a.Only L'
  | .done _, _ => trivial
  | .fail, _ => trivial
  | .bad, _ => trivial
  | .ask _ _, g => fun x => (g x).mono h
  | .read _ _, g => fun x => (g x).mono h
  | .write _ _ _ _, g => ⟨h _ _ g.1, g.2.mono h⟩

theorem only_calc {L : ℕ → ℕ → Prop} {x : Outcome γ} {rest : γ → Acc α β} (h : ∀ a, (rest a).Only L) : (Acc.calc x rest).Only L := by
  cases x with
  | ok a => exact h a
  | throw => trivial
  | ub => trivial

theorem once_calc {x : Outcome γ} {rest : γ → Acc α β} (h : ∀ a, (rest a).Once) : (Acc.calc x rest).Once := by
  cases x with
  | ok a => exact h a
  | throw => trivial
  | ub => trivial

theorem only_steps {L : ℕ → ℕ → Prop} (p : Params) (stack : Stack α) (f : Filters α) (den : Denoiser α) {ch : ℕ}
    {rest : Mat α → Acc α β} (h : ∀ m, (rest m).Only L) (rem : ℕ) (hr : rem ≤ p.steps) (m : Mat α) :
    (accSteps p stack f den ch rest rem m).Only
      (fun c j => L c j ∨ (c = ch ∧ (p.steps - rem) * subbandsPerWT p ≤ j ∧ j < p.steps * subbandsPerWT p)) := by
  induction rem generalizing m with
  | zero => exact (h m).mono fun c j hl => .inl hl
  | succ rem ih =>
    have e : p.steps - rem = (p.steps - (rem + 1)) + 1 := by omega
    have hle : (p.steps - (rem + 1)) * subbandsPerWT p + subbandsPerWT p ≤ p.steps * subbandsPerWT p := by
      rw [← Nat.succ_mul]; exact Nat.mul_le_mul_right _ (by omega)
    have ih' := fun m => (ih (by omega) m).mono (L' := fun c j => L c j ∨ (c = ch ∧
        (p.steps - (rem + 1)) * subbandsPerWT p ≤ j ∧ j < p.steps * subbandsPerWT p)) (by
      intro c j hl
      rcases hl with hl | ⟨h1, h2, h3⟩
      · exact .inl hl
      · rw [e, Nat.add_mul] at h2
        exact .inr ⟨h1, by omega, h3⟩)
    unfold accSteps
    dsimp only
    split
    · rename_i h1
      have hs : subbandsPerWT p = 1 := by simp [subbandsPerWT, h1]
      refine only_calc fun r => ?_
      split
      · trivial
      · exact ⟨.inr ⟨rfl, by omega, by omega⟩, ih' _⟩
    · rename_i h1
      have hs : subbandsPerWT p = 3 := by simp [subbandsPerWT, h1]
      exact only_calc fun mats => only_calc fun q => ⟨.inr ⟨rfl, by omega, by omega⟩, .inr ⟨rfl, by omega, by omega⟩,
        .inr ⟨rfl, by omega, by omega⟩, ih' _⟩

theorem once_steps (p : Params) (stack : Stack α) (f : Filters α) (den : Denoiser α) {ch : ℕ} {rest : Mat α → Acc α β}
    (h : ∀ m, (rest m).Once) (ho : ∀ m, (rest m).Only fun c j => ¬ (c = ch ∧ j < p.steps * subbandsPerWT p))
    (rem : ℕ) (hr : rem ≤ p.steps) (m : Mat α) : (accSteps p stack f den ch rest rem m).Once := by
  induction rem generalizing m with
  | zero => exact h m
  | succ rem ih =>
    have e : p.steps - rem = (p.steps - (rem + 1)) + 1 := by omega
    have hle : (p.steps - (rem + 1)) * subbandsPerWT p + subbandsPerWT p ≤ p.steps * subbandsPerWT p := by
      rw [← Nat.succ_mul]; exact Nat.mul_le_mul_right _ (by omega)
    have key : ∀ t < subbandsPerWT p, ∀ m, (accSteps p stack f den ch rest rem m).Only
        (fun c j => ¬ (c = ch ∧ j = (p.steps - (rem + 1)) * subbandsPerWT p + t)) := by
      intro t ht m
      refine (only_steps p stack f den ho rem (by omega) m).mono fun c j hl => ?_
      rintro ⟨h1, h2⟩
      rcases hl with hl | ⟨_, h3, _⟩
      · exact hl ⟨h1, by omega⟩
      · rw [e, Nat.add_mul] at h3
        omega
    unfold accSteps
    dsimp only
    split
    · rename_i h1
      have hs : subbandsPerWT p = 1 := by simp [subbandsPerWT, h1]
      refine once_calc fun r => ?_
      split
      · trivial
      · exact ⟨key 0 (by omega) _, ih (by omega) _⟩
    · rename_i h1
      have hs : subbandsPerWT p = 3 := by simp [subbandsPerWT, h1]
      exact once_calc fun mats => once_calc fun q =>
        ⟨⟨by omega, by omega, key 0 (by omega) _⟩, ⟨by omega, key 1 (by omega) _⟩, key 2 (by omega) _, ih (by omega) _⟩

theorem only_channels {L : ℕ → ℕ → Prop} (p : Params) (stack : Stack α) (f : Filters α) (den : Denoiser α) (data : List (Mat α))
    (start : ℕ) {rest : Acc α β} (h : rest.Only L) (chs : List ℕ) (hchs : ∀ ch ∈ chs, ∀ j, L ch j) :
    (accChannels p stack f den data start rest chs).Only L := by
  induction chs with
  | nil => exact h
  | cons ch chs ih =>
    unfold accChannels
    have hch := hchs ch (by simp)
    refine only_calc fun channel => ?_
    have hr : ∀ last : Mat α, (Acc.write ch (p.steps * subbandsPerWT p) last
        (accChannels p stack f den data start rest chs)).Only L := fun last => ⟨hch _, ih fun c hc => hchs c (by simp [hc])⟩
    refine (only_steps p stack f den hr p.steps le_rfl channel).mono ?_
    rintro c j (hl | ⟨h1, _⟩)
    · exact hl
    · rw [h1]; exact hch j

theorem once_channels (p : Params) (stack : Stack α) (f : Filters α) (den : Denoiser α) (data : List (Mat α)) (start : ℕ)
    {rest : Acc α β} (h : rest.Once) (hn : rest.Only fun _ _ => False) (chs : List ℕ) (hchs : chs.Nodup) :
    (accChannels p stack f den data start rest chs).Once := by
  induction chs with
  | nil => exact h
  | cons ch chs ih =>
    unfold accChannels
    obtain ⟨h1, h2⟩ := List.nodup_cons.1 hchs
    have honly : (accChannels p stack f den data start rest chs).Only fun c _ => c ≠ ch :=
      only_channels _ _ _ _ _ _ (hn.mono fun _ _ h => h.elim) _ fun c hc j => fun he => h1 (he ▸ hc)
    have hr : ∀ last : Mat α, (Acc.write ch (p.steps * subbandsPerWT p) last
        (accChannels p stack f den data start rest chs)).Once :=
      fun last => ⟨honly.mono fun c j hc hcj => hc hcj.1, ih h2⟩
    have ho : ∀ last : Mat α, (Acc.write ch (p.steps * subbandsPerWT p) last
        (accChannels p stack f den data start rest chs)).Only fun c j => ¬ (c = ch ∧ j < p.steps * subbandsPerWT p) :=
      fun last => ⟨fun h3 => by omega, honly.mono fun c j hc hcj => hc hcj.1⟩
    exact once_calc fun channel => once_steps p stack f den hr ho p.steps le_rfl channel

theorem loopChannels_nodup (start count : ℤ) : (loopChannels start count).Nodup := by
  unfold loopChannels
  split
  · exact List.nodup_nil
  · exact List.nodup_range'

theorem once_decompose (k : Kit α) (p : Params) (data : List (Mat α)) (den : Denoiser α) (start count : ℤ)
    {rest : Bool → Acc α β} (h : ∀ x, (rest x).Once) (hn : ∀ x, (rest x).Only fun _ _ => False) :
    (accDecompose k p data den start count rest).Once := by
  unfold accDecompose
  refine once_calc fun good => ?_
  split
  · split
    · exact ⟨rfl, fun x => once_calc fun stack => once_channels _ _ _ _ _ _ (h true) (hn true) _ (loopChannels_nodup _ _)⟩
    · exact once_channels _ _ _ _ _ _ (h true) (hn true) _ (loopChannels_nodup _ _)
  · exact h false

theorem once_composeSteps (p : Params) (tstack : Stack α) (f : Filters α) (ch : ℕ)
    {rest : Mat α → Acc α β} (h : ∀ m, (rest m).Once) (m i : ℕ) (x : Mat α) : (accComposeSteps p tstack f ch rest m i x).Once := by
  induction m generalizing i x with
  | zero => exact h x
  | succ m ih => exact fun c => once_calc fun y => ih _ _

theorem once_composeChannels (p : Params) (tstack : Stack α) (f : Filters α) (scale : ℕ)
    {rest : List (Mat α) → Acc α β} (h : ∀ m, (rest m).Once) (chs : List ℕ) (out : List (Mat α)) :
    (accComposeChannels p tstack f scale rest chs out).Once := by
  induction chs generalizing out with
  | nil => exact h out
  | cons ch chs ih => exact fun _ c => once_calc fun m => once_composeSteps _ _ _ _ (fun y => ih _) _ _ _

theorem once_compose (k : Kit α) (p : Params) (scale start count : ℤ) {rest : List (Mat α) → Acc α β} (h : ∀ x, (rest x).Once) :
    (accCompose k p scale start count rest).Once := by
  have hr : ∀ tstack, (accComposeRest k p scale start count rest tstack).Once := by
    intro tstack
    unfold accComposeRest
    split
    · trivial
    · split
      · split <;> trivial
      · exact once_composeChannels _ _ _ _ (fun ms => once_calc h) _ _
  unfold accCompose
  split
  · trivial
  · split
    · exact ⟨rfl, fun x => once_calc fun t => hr t⟩
    · exact hr _

theorem once_cast (start : ℤ) {rest : Decs α → Acc α β} (h : ∀ x, (rest x).Once) (chs : List ℕ) (out : Decs α) :
    (accCast start rest chs out).Once := by
  induction chs generalizing out with
  | nil => exact h out
  | cons ch chs ih =>
    unfold accCast
    split
    · exact fun c => ih _
    · trivial

theorem once_call (k : Kit α) (p : Params) (op : CrewOp α) : (op.acc k p).Once := by
  cases op with
  | decompose data den => unfold CrewOp.acc; exact once_decompose _ _ _ _ _ _ (fun _ => trivial) fun _ => trivial
  | compose scale => unfold CrewOp.acc; exact once_compose _ _ _ _ _ fun _ => trivial
  | viewDecompose v data den =>
    refine once_calc fun good => ?_
    split
    · split
      · trivial
      · exact once_decompose _ _ _ _ _ _ (fun _ => trivial) fun _ => trivial
    · trivial
  | viewCompose v scale =>
    refine once_calc fun good => ?_
    split
    · exact once_compose _ _ _ _ _ fun _ => trivial
    · trivial
  | cast v =>
    unfold CrewOp.acc
    dsimp only
    split
    · trivial
    · refine once_calc fun nb => ?_
      refine once_cast _ (fun _ => ?_) _ _
      trivial
  | write ch idx m => exact ⟨trivial, trivial⟩
  | read ch => exact fun _ => trivial

/-! ### What a call has done when it is cut short -/

theorem setSub_keeps {d d' : Decs α} {ch idx : ℕ} {m : Mat α} (h : setSub d ch idx m = .ok d' ()) :
    d'.map List.length = d.map List.length := by
  obtain ⟨c, h1, h2, rfl⟩ := setSub_get h
  apply List.ext_getElem?
  intro x
  rw [List.getElem?_map, List.getElem?_map]
  by_cases hx : x = ch
  · subst hx
    rw [List.getElem?_set_self (List.getElem?_eq_some_iff.1 h1).1, h1]
    simp
  · rw [List.getElem?_set_ne (Ne.symm hx)]

theorem setSub_at {d d' : Decs α} {ch idx : ℕ} {m : Mat α} (h : setSub d ch idx m = .ok d' ()) {c j : ℕ} (hne : ¬ (c = ch ∧ j = idx)) :
    At d' c j = At d c j := by
  obtain ⟨x, h1, h2, rfl⟩ := setSub_get h
  unfold At
  by_cases hc : c = ch
  · subst hc
    rw [List.getElem?_set_self (List.getElem?_eq_some_iff.1 h1).1, h1]
    have hj : j ≠ idx := fun hj => hne ⟨rfl, hj⟩
    simp [List.getElem?_set_ne (Ne.symm hj)]
  · rw [List.getElem?_set_ne (Ne.symm hc)]

/-- Places the call does not assign to any more are kept to its end. -/
theorem only_run (k : Kit α) {c j : ℕ} : ∀ (a : Acc α (CrewReply α)) (e : Decs α), a.Only (fun c' j' => ¬ (c' = c ∧ j' = j)) →
    ∀ d r, (runAcc k a e).told = some (d, r) → At e c j = At d c j
  | .done x, e, _, d, r, h => by cases h; rfl
  | .fail, e, _, d, r, h => by cases h; rfl
  | .bad, e, _, d, r, h => by cases h
  | .ask q rest, e, ho, d, r, h => only_run k _ e (ho _) d r h
  | .read ch rest, e, ho, d, r, h => by
    cases hy : e[ch]? with
    | none => rw [run_read_none k rest hy] at h; cases h
    | some y => rw [run_read_some k rest hy] at h; exact only_run k _ e (ho y) d r h
  | .write ch idx m rest, e, ho, d, r, h => by
    rw [run_write] at h
    rcases setSub_cases e ch idx m with he | ⟨e', he⟩
    · rw [he] at h; cases h
    · rw [he] at h
      rw [← only_run k rest e' ho.2 d r h, setSub_at he fun hcj => ho.1 ⟨hcj.1.symm, hcj.2.symm⟩]

/-- What a call has made of `d` when the accesses in `a` are still to come. -/
structure Half (op : CrewOp α) (d e : Decs α) (a : Acc α (CrewReply α)) : Prop where
  layout : e.map List.length = d.map List.length
  outside : ∀ ch, ¬ Assigns op ch → e[ch]? = d[ch]?
  within : a.Within (Assigns op) (fun _ => True)
  once : a.Once
  place : ∀ c j, At e c j = At d c j ∨ a.Only (fun c' j' => ¬ (c' = c ∧ j' = j))

theorem half_start (k : Kit α) (p : Params) (op : CrewOp α) (d : Decs α) : Half op d d (op.acc k p) :=
  ⟨rfl, fun _ _ => rfl, (within_call k p op).mono (fun _ h => h) (fun _ _ => trivial), once_call k p op, fun _ _ => .inl rfl⟩

theorem half_write {op : CrewOp α} {d e e' : Decs α} {ch idx : ℕ} {m : Mat α} {rest : Acc α (CrewReply α)}
    (h : Half op d e (.write ch idx m rest)) (he : setSub e ch idx m = .ok e' ()) : Half op d e' rest := by
  refine ⟨(setSub_keeps he).trans h.layout, fun c hc => ?_, h.within.2, h.once.2, fun c j => ?_⟩
  · rw [setSub_other he fun hcc => hc (by rw [hcc]; exact h.within.1)]
    exact h.outside c hc
  · by_cases hp : c = ch ∧ j = idx
    · refine .inr (h.once.1.mono fun c' j' hn hcj => hn ?_)
      exact ⟨hcj.1.trans hp.1, hcj.2.trans hp.2⟩
    · rw [setSub_at he hp]
      exact (h.place c j).imp id fun ho => ho.2

theorem half_read {op : CrewOp α} {d e : Decs α} {ch : ℕ} {rest : Channel α → Acc α (CrewReply α)}
    (h : Half op d e (.read ch rest)) (c : Channel α) : Half op d e (rest c) :=
  ⟨h.layout, h.outside, h.within.2 c, h.once c, fun x j => (h.place x j).imp id fun ho => ho c⟩

theorem half_ask {op : CrewOp α} {d e : Decs α} {q : Req} {rest : Outcome (Stack α) → Acc α (CrewReply α)}
    (h : Half op d e (.ask q rest)) (x : Outcome (Stack α)) : Half op d e (rest x) :=
  ⟨h.layout, h.outside, h.within x, h.once.2 x, fun c j => (h.place c j).imp id fun ho => ho x⟩

theorem half_cut {k : Kit α} {p : Params} {op : CrewOp α} {d e : Decs α} {a : Acc α (CrewReply α)} (h : Half op d e a)
    (hr : (runAcc k a e).told = CrewOp.call k ⟨p, d⟩ op) : CutShort k ⟨p, d⟩ op e := by
  refine ⟨h.layout, h.outside, 0, 0, fun c j _ => (h.place c j).imp id fun ho d' r hd' => ?_⟩
  exact only_run k a e ho d' r (hr.trans hd')

theorem half_cut_assign {k : Kit α} {p : Params} {op : CrewOp α} {d e e' : Decs α} {ch idx : ℕ} {m x : Mat α}
    {rest : Acc α (CrewReply α)} (h : Half op d e (.write ch idx m rest))
    (hr : (runAcc k (.write ch idx m rest) e).told = CrewOp.call k ⟨p, d⟩ op) (he : setSub e ch idx x = .ok e' ()) :
    CutShort k ⟨p, d⟩ op e' := by
  refine ⟨(setSub_keeps he).trans h.layout, fun c hc => ?_, ch, idx, fun c j hne => ?_⟩
  · rw [setSub_other he fun hcc => hc (by rw [hcc]; exact h.within.1)]
    exact h.outside c hc
  · have hne' : ¬ (c = ch ∧ j = idx) := fun h => hne (by rw [h.1, h.2])
    rw [setSub_at he hne']
    exact (h.place c j).imp id fun ho d' r hd' => only_run k _ e ho d' r (hr.trans hd')

/-! ### The invariant -/

/-- Where a thread is, seen from the state `d` its program alone was in before the call, `m` calls having been cut short; memory has
run out `c` times in this thread, and `f` tells whether while the current request was served. -/
def DoingF (f : Prop) (k : Kit α) (p : Params) (prog : CrewProg α) (W R : ℕ → Prop) (reqs : List Req) (t : Thread α) (decs : Decs α)
    (rs : List (CrewReply α)) (d : Decs α) (m c : ℕ) : CrewDoing α → Prop
  | .free => Rests t ∧ Agree (fun ch => W ch ∨ R ch) decs d ∧ m = c
  | .inCall a => Rests t ∧ a.Within W (fun ch => W ch ∨ R ch) ∧ ∃ op e a', prog rs = some op ∧
      Agree (fun ch => W ch ∨ R ch) decs e ∧ Half op d e a' ∧ (runAcc k a' e).told = CrewOp.call k ⟨p, d⟩ op ∧
      ((a = a' ∧ m = c) ∨ (a = .fail ∧ m + 1 = c))
  | .asking rest => (¬ f → m = c) ∧ (f → m + 1 = c) ∧ (∀ y, (rest y).Within W (fun ch => W ch ∨ R ch)) ∧ ∃ op e q pre, prog rs = some op ∧
      Agree (fun ch => W ch ∨ R ch) decs e ∧ Half op d e (rest (freshAnswer k q)) ∧ rest .throw = .fail ∧
      (runAcc k (rest (freshAnswer k q)) e).told = CrewOp.call k ⟨p, d⟩ op ∧ reqs = pre ++ [q]
  | .crashed => Rests t ∧ m = c ∧ ∃ op, prog rs = some op ∧ CrewOp.call k ⟨p, d⟩ op = none

/-- The invariant of one thread. -/
def HandF (f : Prop) (k : Kit α) (p : Params) (d0 : Decs α) (prog : CrewProg α) (W R : ℕ → Prop) (reqs : List Req) (t : Thread α)
    (decs : Decs α) (c : ℕ) (h : Hand α) : Prop :=
  ∃ m d, CrewShort k p d0 prog m d h.replies ∧ DoingF f k p prog W R reqs t decs h.replies d m c h.doing

/-- The invariant; memory has run out `x i` times in thread `i`. -/
structure CrewInvF (k : Kit α) (p : Params) (d0 : Decs α) (progs : Fin n → CrewProg α) (W R : Fin n → ℕ → Prop)
    (F : Fin n → Prop) (reqs : Fin n → List Req) (x : Fin n → ℕ) (s : Crew α n) : Prop where
  shared : InvF F k reqs s.shared
  hand : ∀ i, HandF (F i) k p d0 (progs i) (W i) (R i) (reqs i) (s.shared.threads i) s.decs (x i) (s.hands i)
  rest : ∀ ch, (∀ i, ¬ W i ch) → s.decs[ch]? = d0[ch]?
  layout : s.decs.map List.length = d0.map List.length

theorem crewInvF_start (k : Kit α) {c : Cache α} (hc : CacheOk k c) (p : Params) (d0 : Decs α) (progs : Fin n → CrewProg α)
    (W R : Fin n → ℕ → Prop) : CrewInvF k p d0 progs W R (fun _ => False) (fun _ => []) (fun _ => 0) (Crew.start c d0) := by
  refine ⟨⟨hc.1, hc.2, fun i => ?_, fun i => ?_, fun i => trivial, fun i => ⟨[], rfl, fun _ pre q h => by simp at h⟩,
      fun i => ⟨by simp [Crew.start], fun h => h.elim⟩⟩,
    fun i => ⟨0, d0, .start, ⟨rfl, rfl⟩, fun _ _ => rfl, rfl⟩, fun _ _ => rfl, rfl⟩
  · simp [Crew.start, Pc.inMain]
  · simp [Crew.start, Pc.inTrans]

/-- Another thread's assignment does not matter. -/
theorem doingF_other {f : Prop} {k : Kit α} {p : Params} {prog : CrewProg α} {W R : ℕ → Prop} {reqs : List Req} {t : Thread α}
    {decs decs' : Decs α} {rs : List (CrewReply α)} {d : Decs α} {m c : ℕ} {a : CrewDoing α}
    (h : DoingF f k p prog W R reqs t decs rs d m c a) (hd : Agree (fun ch => W ch ∨ R ch) decs' decs) :
    DoingF f k p prog W R reqs t decs' rs d m c a := by
  have tr : ∀ e, Agree (fun ch => W ch ∨ R ch) decs e → Agree (fun ch => W ch ∨ R ch) decs' e :=
    fun e he ch hch => (hd ch hch).trans (he ch hch)
  cases a with
  | free => exact ⟨h.1, tr _ h.2.1, h.2.2⟩
  | inCall a =>
    obtain ⟨h1, h0, op, e, a', h2, h3, h4⟩ := h
    exact ⟨h1, h0, op, e, a', h2, tr _ h3, h4⟩
  | asking rest =>
    obtain ⟨h0, h0', h0'', op, e, q, pre, h2, h3, h4⟩ := h
    exact ⟨h0, h0', h0'', op, e, q, pre, h2, tr _ h3, h4⟩
  | crashed => exact h

/-- A step of thread `i` that stays out of the cache and assigns at most to its own channels. -/
theorem crewInvF_local {k : Kit α} {p : Params} {d0 : Decs α} {progs : Fin n → CrewProg α} {W R : Fin n → ℕ → Prop}
    {F : Fin n → Prop} {reqs : Fin n → List Req} {x : Fin n → ℕ} {s : Crew α n} (h : CrewInvF k p d0 progs W R F reqs x s)
    (hap : Apart W R) {i : Fin n} {decs : Decs α} {hd : Hand α} {c : ℕ} (hdecs : ∀ ch, ¬ W i ch → decs[ch]? = s.decs[ch]?)
    (hlay : decs.map List.length = s.decs.map List.length)
    (hh : HandF (F i) k p d0 (progs i) (W i) (R i) (reqs i) (s.shared.threads i) decs c hd) :
    CrewInvF k p d0 progs W R F reqs (Function.update x i c) ⟨s.shared, decs, Function.update s.hands i hd⟩ := by
  refine ⟨h.shared, fun j => ?_, fun ch hch => (hdecs ch (hch i)).trans (h.rest ch hch), hlay.trans h.layout⟩
  by_cases hj : j = i
  · subst hj
    simp only [Function.update_self]
    exact hh
  · simp only [Function.update_of_ne hj]
    obtain ⟨m, d, h1, h2⟩ := h.hand j
    refine ⟨m, d, h1, doingF_other h2 fun ch hch => hdecs ch fun hw => ?_⟩
    have := hap i j (Ne.symm hj) ch hw
    rcases hch with hch | hch
    · exact this.1 hch
    · exact this.2 hch

theorem crewInvF_step {k : Kit α} {p : Params} {d0 : Decs α} {progs : Fin n → CrewProg α} {W R : Fin n → ℕ → Prop}
    {F : Fin n → Prop} {reqs : Fin n → List Req} {x : Fin n → ℕ} {s s' : Crew α n} (h : CrewInvF k p d0 progs W R F reqs x s)
    (hap : Apart W R) (hk : ∀ i, KeepsTo (W i) (R i) (progs i)) {i : Fin n} (hs : s.step k p progs i = some s') :
    ∃ F' reqs', CrewInvF k p d0 progs W R F' reqs' x s' := by
  obtain ⟨m, d, hc, hdo⟩ := h.hand i
  have loc : ∀ {decs : Decs α} {hd : Hand α}, (∀ ch, ¬ W i ch → decs[ch]? = s.decs[ch]?) →
      decs.map List.length = s.decs.map List.length →
      HandF (F i) k p d0 (progs i) (W i) (R i) (reqs i) (s.shared.threads i) decs (x i) hd →
      ∃ F' reqs', CrewInvF k p d0 progs W R F' reqs' x ⟨s.shared, decs, Function.update s.hands i hd⟩ := by
    intro decs hd h1 h2 h3
    have := crewInvF_local h hap h1 h2 h3
    rw [Function.update_eq_self] at this
    exact ⟨F, reqs, this⟩
  unfold Crew.step at hs
  cases hd : (s.hands i).doing with
  | crashed => rw [hd] at hs; cases hs
  | free =>
    rw [hd] at hs hdo
    dsimp only at hs
    obtain ⟨ht, hag, hx⟩ := hdo
    cases hop : progs i (s.hands i).replies with
    | none => rw [hop] at hs; cases hs
    | some op =>
      rw [hop] at hs
      cases hs
      refine loc (fun _ _ => rfl) rfl ⟨m, d, hc, ht, ?_, op, d, _, hop, hag, half_start k p op d, run_call k p d op, .inl ⟨rfl, hx⟩⟩
      exact (within_call k p op).mono (fun ch => (hk i _ op hop ch).1) (fun ch => (hk i _ op hop ch).2)
  | inCall a =>
    rw [hd] at hs hdo
    obtain ⟨ht, hw, op, e, a', hop, hag, hhalf, hrun, ha⟩ := hdo
    rcases ha with ⟨rfl, hx⟩ | ⟨rfl, hx'⟩
    · cases a with
      | done y =>
        cases hs
        have hr : CrewOp.call k ⟨p, d⟩ op = some (e, y) := hrun.symm
        exact loc (fun _ _ => rfl) rfl ⟨m, e, .call hc hop hr, ht, hag, hx⟩
      | fail =>
        cases hs
        have hr : CrewOp.call k ⟨p, d⟩ op = some (e, .threw) := hrun.symm
        exact loc (fun _ _ => rfl) rfl ⟨m, e, .call hc hop hr, ht, hag, hx⟩
      | bad =>
        cases hs
        exact loc (fun _ _ => rfl) rfl ⟨m, d, hc, ht, hx, op, hop, hrun.symm⟩
      | ask q rest =>
        cases hs
        refine ⟨Function.update F i False, Function.update reqs i (reqs i ++ [q]), invF_push h.shared ht q, fun j => ?_, h.rest, h.layout⟩
        show HandF _ k p d0 (progs j) (W j) (R j) _ (Function.update s.shared.threads i _ j) s.decs _ (Function.update s.hands i _ j)
        by_cases hj : j = i
        · subst hj
          simp only [Function.update_self]
          exact ⟨m, d, hc, fun _ => hx, fun h => h.elim, hw, op, e, q, reqs j, hop, hag, half_ask hhalf _, hhalf.once.1, hrun, rfl⟩
        · simp only [Function.update_of_ne hj]
          exact h.hand j
      | read ch rest =>
        dsimp only at hs
        have hch : s.decs[ch]? = e[ch]? := hag ch hw.1
        cases hy : e[ch]? with
        | none =>
          rw [hch, hy] at hs
          cases hs
          rw [run_read_none k rest hy] at hrun
          exact loc (fun _ _ => rfl) rfl ⟨m, d, hc, ht, hx, op, hop, hrun.symm⟩
        | some y =>
          rw [hch, hy] at hs
          cases hs
          rw [run_read_some k rest hy] at hrun
          exact loc (fun _ _ => rfl) rfl ⟨m, d, hc, ht, hw.2 y, op, e, _, hop, hag, half_read hhalf y, hrun, .inl ⟨rfl, hx⟩⟩
      | write ch idx y rest =>
        dsimp only at hs
        rcases setSub_agree (idx := idx) (m := y) hag (ch := ch) (.inl hw.1) with ⟨h1, h2⟩ | ⟨d', e', h1, h2, h3⟩
        · rw [h1] at hs
          cases hs
          rw [run_write, h2] at hrun
          exact loc (fun _ _ => rfl) rfl ⟨m, d, hc, ht, hx, op, hop, hrun.symm⟩
        · rw [h1] at hs
          cases hs
          rw [run_write, h2] at hrun
          exact loc (fun c hcw => setSub_other h1 fun he => hcw (he ▸ hw.1)) (setSub_keeps h1)
            ⟨m, d, hc, ht, hw.2, op, e', rest, hop, h3, half_write hhalf h2, hrun, .inl ⟨rfl, hx⟩⟩
    · cases hs
      exact loc (fun _ _ => rfl) rfl ⟨m + 1, e, .short hc hop (half_cut hhalf hrun), ht, hag, hx'⟩
  | asking rest =>
    rw [hd] at hs hdo
    dsimp only at hs
    obtain ⟨hx, hxf, hw, op, e, q, pre, hop, hag, hhalf, hthrow, hrun, hq⟩ := hdo
    split at hs
    · rename_i hpc htodo
      obtain ⟨hl1, hl2⟩ := last_answerF (h.shared.served i) htodo hq
      by_cases hf : F i
      · rw [hl1 hf] at hs
        cases hs
        exact loc (fun _ _ => rfl) rfl ⟨m, d, hc, ⟨hpc, htodo⟩, hw _, op, e, _, hop, hag, hhalf, hrun, .inr ⟨hthrow, hxf hf⟩⟩
      · rw [hl2 hf] at hs
        cases hs
        exact loc (fun _ _ => rfl) rfl ⟨m, d, hc, ⟨hpc, htodo⟩, hw _, op, e, _, hop, hag, hhalf, hrun, .inl ⟨rfl, hx hf⟩⟩
    · cases hss : s.shared.step k i with
      | none => rw [hss] at hs; cases hs
      | some sh =>
        rw [hss] at hs
        cases hs
        obtain ⟨t, h1, h2⟩ := step_cost hss
        refine ⟨F, reqs, invF_step h.shared hss, fun j => ?_, h.rest, h.layout⟩
        show HandF (F j) k p d0 (progs j) (W j) (R j) (reqs j) (sh.threads j) s.decs _ (s.hands j)
        rw [h1]
        by_cases hj : j = i
        · subst hj
          simp only [Function.update_self]
          unfold HandF
          rw [hd]
          exact ⟨m, d, hc, hx, hxf, hw, op, e, q, pre, hop, hag, hhalf, hthrow, hrun, hq⟩
        · simp only [Function.update_of_ne hj]
          exact h.hand j

theorem crewInvF_fail {k : Kit α} {p : Params} {d0 : Decs α} {progs : Fin n → CrewProg α} {W R : Fin n → ℕ → Prop}
    {F : Fin n → Prop} {reqs : Fin n → List Req} {x : Fin n → ℕ} {s s' : Crew α n} (h : CrewInvF k p d0 progs W R F reqs x s)
    (hap : Apart W R) {i : Fin n} (hs : s.Fails i s') :
    ∃ F' reqs', CrewInvF k p d0 progs W R F' reqs' (Function.update x i (x i + 1)) s' := by
  obtain ⟨m, d, hc, hdo⟩ := h.hand i
  cases hs with
  | @between a hd ha' =>
    rw [hd] at hdo
    obtain ⟨ht, hw, op, e, a', hop, hag, hhalf, hrun, ha⟩ := hdo
    have hx := (ha.resolve_right fun h => ha' h.1).2
    exact ⟨F, reqs, crewInvF_local h hap (fun _ _ => rfl) rfl
      ⟨m + 1, e, .short hc hop (half_cut hhalf hrun), ht, hag, by omega⟩⟩
  | @assigning ch idx y rest z d' hd hset =>
    rw [hd] at hdo
    obtain ⟨ht, hw, op, e, a', hop, hag, hhalf, hrun, ha⟩ := hdo
    rcases ha with ⟨rfl, hx⟩ | ⟨ha, _⟩
    · rcases setSub_agree (idx := idx) (m := z) hag (ch := ch) (.inl hw.1) with ⟨h1, h2⟩ | ⟨d1, e', h1, h2, h3⟩
      · rw [h1] at hset; cases hset
      · rw [h1] at hset
        cases hset
        exact ⟨F, reqs, crewInvF_local h hap (fun c hcw => setSub_other h1 fun he => hcw (he ▸ hw.1)) (setSub_keeps h1)
          ⟨m + 1, e', .short hc hop (half_cut_assign hhalf hrun h2), ht, h3, by omega⟩⟩
    · cases ha
  | @cache rest sh hd hsh =>
    rw [hd] at hdo
    obtain ⟨hx, hxf, hw, op, e, q, pre, hop, hag, hhalf, hthrow, hrun, hq⟩ := hdo
    obtain ⟨hinv, t, h1, _⟩ := invF_fail h.shared hsh
    have hnf : ¬ F i := fail_first h.shared hsh
    refine ⟨Function.update F i True, reqs, hinv, fun j => ?_, h.rest, h.layout⟩
    show HandF _ k p d0 (progs j) (W j) (R j) (reqs j) (sh.threads j) s.decs _ (s.hands j)
    rw [h1]
    by_cases hj : j = i
    · subst hj
      simp only [Function.update_self]
      unfold HandF
      rw [hd]
      exact ⟨m, d, hc, fun h => absurd trivial h, fun _ => by rw [hx hnf], hw, op, e, q, pre, hop, hag, hhalf, hthrow, hrun, hq⟩
    · simp only [Function.update_of_ne hj]
      exact h.hand j

theorem crewInvF_runs {k : Kit α} {p : Params} {d0 : Decs α} {progs : Fin n → CrewProg α} {W R : Fin n → ℕ → Prop}
    {F : Fin n → Prop} {reqs : Fin n → List Req} {x : Fin n → ℕ} {s s' : Crew α n} {l : List (Fin n × Bool)}
    (h : CrewInvF k p d0 progs W R F reqs x s) (hap : Apart W R) (hk : ∀ i, KeepsTo (W i) (R i) (progs i))
    (hs : CrewRuns k p progs s l s') :
    ∃ F' reqs', CrewInvF k p d0 progs W R F' reqs' (fun i => x i + l.count (i, true)) s' := by
  induction hs generalizing F reqs x with
  | nil => exact ⟨F, reqs, by simpa using h⟩
  | @step s s1 s2 i l h1 _ ih =>
    obtain ⟨F', r, hr⟩ := crewInvF_step h hap hk h1
    obtain ⟨F'', r', h2⟩ := ih hr
    refine ⟨F'', r', ?_⟩
    have : (fun j => x j + List.count (j, true) ((i, false) :: l)) = fun j => x j + List.count (j, true) l := by
      funext j
      rw [List.count_cons_of_ne (by simp)]
    rw [this]
    exact h2
  | @fail s s1 s2 i l h1 _ ih =>
    obtain ⟨F', r, hr⟩ := crewInvF_fail h hap h1
    obtain ⟨F'', r', h2⟩ := ih hr
    refine ⟨F'', r', ?_⟩
    have : (fun j => x j + List.count (j, true) ((i, true) :: l)) =
        fun j => Function.update x i (x i + 1) j + List.count (j, true) l := by
      funext j
      by_cases hj : j = i
      · subst hj
        rw [List.count_cons_self, Function.update_self]
        omega
      · rw [List.count_cons_of_ne (by simp [Ne.symm hj]), Function.update_of_ne hj]
    rw [this]
    exact h2

/-- When no thread can do anything, each has crashed or has no other call to make. -/
theorem crewF_progress {k : Kit α} {p : Params} {d0 : Decs α} {progs : Fin n → CrewProg α} {W R : Fin n → ℕ → Prop}
    {F : Fin n → Prop} {reqs : Fin n → List Req} {x : Fin n → ℕ} {s : Crew α n} (h : CrewInvF k p d0 progs W R F reqs x s)
    (hs : ∀ i, s.step k p progs i = none) (i : Fin n) :
    (s.hands i).doing = .crashed ∨ ((s.hands i).doing = .free ∧ progs i (s.hands i).replies = none) := by
  have hstep : ∀ j s', s.shared.step k j = some s' → False := by
    intro j s' hj
    have hnot : ¬ Rests (s.shared.threads j) := by
      rintro ⟨h1, h2⟩
      unfold Shared.step at hj
      rw [h1, h2] at hj
      cases hj
    obtain ⟨m, d, hc, hdo⟩ := h.hand j
    cases hd : (s.hands j).doing with
    | free => rw [hd] at hdo; exact hnot hdo.1
    | crashed => rw [hd] at hdo; exact hnot hdo.1
    | inCall a => rw [hd] at hdo; exact hnot hdo.1
    | asking rest =>
      have := hs j
      unfold Crew.step at this
      rw [hd] at this
      dsimp only at this
      split at this
      · rename_i h1 h2; exact hnot ⟨h1, h2⟩
      · rw [hj] at this; cases this
  obtain ⟨m, d, hc, hdo⟩ := h.hand i
  have hsi := hs i
  unfold Crew.step at hsi
  cases hd : (s.hands i).doing with
  | crashed => exact .inl rfl
  | free =>
    refine .inr ⟨rfl, ?_⟩
    rw [hd] at hsi
    dsimp only at hsi
    cases hop : progs i (s.hands i).replies with
    | none => rfl
    | some op => rw [hop] at hsi; cases hsi
  | inCall a =>
    exfalso
    rw [hd] at hsi
    cases a with
    | read ch rest => dsimp only at hsi; split at hsi <;> cases hsi
    | write ch idx m rest => dsimp only at hsi; split at hsi <;> cases hsi
    | _ => cases hsi
  | asking rest =>
    exfalso
    rw [hd] at hsi hdo
    obtain ⟨hx, hxf, hw, op, e, q, pre, hop, hag, hhalf, hthrow, hrun, hq⟩ := hdo
    by_cases hidle : Rests (s.shared.threads i)
    · rw [hidle.1, hidle.2] at hsi
      dsimp only at hsi
      obtain ⟨hl1, hl2⟩ := last_answerF (h.shared.served i) hidle.2 hq
      by_cases hf : F i
      · rw [hl1 hf] at hsi; cases hsi
      · rw [hl2 hf] at hsi; cases hsi
    · have hor : (s.shared.threads i).pc ≠ .idle ∨ (s.shared.threads i).todo ≠ [] := by
        by_contra hcon
        push Not at hcon
        exact hidle hcon
      obtain ⟨j, s', hj⟩ := progressF h.shared ⟨i, hor⟩
      exact hstep j s' hj

theorem invF_race {F : Fin n → Prop} {k : Kit α} {reqs : Fin n → List Req} {s : Shared α n} (hs : InvF F k reqs s) {i j : Fin n}
    (hij : i ≠ j) :
    ¬ (TouchesMain (s.threads i) ∧ TouchesMain (s.threads j)) ∧
    ¬ (TouchesTrans (s.threads i) ∧ TouchesTrans (s.threads j)) := by
  have m : ∀ i, TouchesMain (s.threads i) → s.mutex = some i := by
    intro i hi
    refine (hs.mutex i).2 ?_
    unfold TouchesMain at hi
    cases hp : (s.threads i).pc <;> rw [hp] at hi <;> simp_all [Pc.inMain]
  have t : ∀ i, TouchesTrans (s.threads i) → s.transMutex = some i := by
    intro i hi
    refine (hs.transMutex i).2 ?_
    unfold TouchesTrans at hi
    cases hp : (s.threads i).pc <;> rw [hp] at hi <;> simp_all [Pc.inTrans]
  constructor
  · rintro ⟨h1, h2⟩
    have := (m i h1).symm.trans (m j h2)
    injection this with this
    exact hij this
  · rintro ⟨h1, h2⟩
    have := (t i h1).symm.trans (t j h2)
    injection this with this
    exact hij this

theorem crewShort_none {k : Kit α} {p : Params} {d0 : Decs α} {prog : CrewProg α} {m : ℕ} {d : Decs α} {rs : List (CrewReply α)}
    (h : CrewShort k p d0 prog m d rs) (hm : m = 0) : CrewAlone k p d0 prog d rs := by
  induction h with
  | start => exact .start
  | call _ h2 h3 ih => exact .call (ih hm) h2 h3
  | short => cases hm

end WB
