import Verif.Model.CrewFail
import Verif.Proof.Clients

/-!
Invariant of the threads that share the matrix cache when memory may run out.
-/

set_option linter.unusedSectionVars false

namespace WB

open Spec

variable {α : Type} {n : ℕ} [Neg α]

/-- What holds at each position; `f` tells whether memory may have run out while the request was served. -/
def PcOkF (f : Prop) (k : Kit α) (main trans : List (Params × Stack α)) (todo : List Req) : Pc α → Prop
  | .idle => True
  | .lockMain p b | .findMain p b | .build p b => todo.head? = some (reqOf p b)
  | .insertMain p b st => todo.head? = some (reqOf p b) ∧ freshStack k p = .ok st
  | .unlockMain p b (.ok ref) => todo.head? = some (reqOf p b) ∧ ∃ st, main[ref]? = some (p, st)
  | .unlockMain p b .throw => todo.head? = some (reqOf p b) ∧ (f ∨ freshStack k p = .throw)
  | .unlockMain p b .ub => todo.head? = some (reqOf p b) ∧ freshStack k p = .ub
  | .copyMain p b ref => todo.head? = some (reqOf p b) ∧ ∃ st, main[ref]? = some (p, st)
  | .lockTrans p | .findTrans p => todo.head? = some (.transposed p)
  | .transpose p st => todo.head? = some (.transposed p) ∧ freshStack k p = .ok st
  | .insertTrans p st => todo.head? = some (.transposed p) ∧ freshTrans k p = .ok st
  | .unlockTrans (.ok ref) => ∃ p, todo.head? = some (.transposed p) ∧ ∃ st, trans[ref]? = some (p, st)
  | .unlockTrans .throw => ∃ p, todo.head? = some (.transposed p) ∧ (f ∨ freshTrans k p = .throw)
  | .unlockTrans .ub => ∃ p, todo.head? = some (.transposed p) ∧ freshTrans k p = .ub
  | .copyTrans ref => ∃ p, todo.head? = some (.transposed p) ∧ ∃ st, trans[ref]? = some (p, st)

/-- The last request has been answered freshly, or with an exception if memory has run out. -/
def ServedF (f : Prop) (k : Kit α) (reqs : List Req) (t : Thread α) : Prop :=
  ∃ served, reqs = served ++ t.todo ∧
    (t.todo = [] → ∀ pre q, served = pre ++ [q] →
      (f → t.results.getLast? = some .throw) ∧ (¬ f → t.results.getLast? = some (freshAnswer k q)))

/-- There is at most one request, and a thread that has run out of memory is on its way out. -/
def LateF (f : Prop) (t : Thread α) : Prop :=
  t.todo.length ≤ 1 ∧ (f → match t.pc with
    | .idle => t.todo = []
    | .unlockMain _ _ .throw => True
    | .unlockTrans .throw => True
    | _ => False)

/-- The invariant of the cache. -/
structure InvF (F : Fin n → Prop) (k : Kit α) (reqs : Fin n → List Req) (s : Shared α n) : Prop where
  main_ok : ∀ e ∈ s.main, freshStack k e.1 = .ok e.2
  trans_ok : ∀ e ∈ s.trans, freshTrans k e.1 = .ok e.2
  mutex : ∀ i, s.mutex = some i ↔ (s.threads i).pc.inMain = true
  transMutex : ∀ i, s.transMutex = some i ↔ (s.threads i).pc.inTrans = true
  pc : ∀ i, PcOkF (F i) k s.main s.trans (s.threads i).todo (s.threads i).pc
  served : ∀ i, ServedF (F i) k (reqs i) (s.threads i)
  late : ∀ i, LateF (F i) (s.threads i)

theorem pcOkF_mono {f : Prop} {k : Kit α} {main main' trans trans' : List (Params × Stack α)} {todo : List Req} {pc : Pc α}
    (h1 : main <+: main') (h2 : trans <+: trans') (h : PcOkF f k main trans todo pc) : PcOkF f k main' trans' todo pc := by
  have g : ∀ {m m' : List (Params × Stack α)} {r : ℕ} {e : Params × Stack α}, m <+: m' → m[r]? = some e → m'[r]? = some e := by
    rintro m m' r e ⟨l, rfl⟩ he
    rw [List.getElem?_append_left (List.getElem?_eq_some_iff.1 he).1]; exact he
  cases pc with
  | unlockMain p b r =>
    cases r with
    | ok ref => obtain ⟨a, st, e⟩ := h; exact ⟨a, st, g h1 e⟩
    | throw => exact h
    | ub => exact h
  | copyMain p b ref => obtain ⟨a, st, e⟩ := h; exact ⟨a, st, g h1 e⟩
  | unlockTrans r =>
    cases r with
    | ok ref => obtain ⟨p, a, st, e⟩ := h; exact ⟨p, a, st, g h2 e⟩
    | throw => exact h
    | ub => exact h
  | copyTrans ref => obtain ⟨p, a, st, e⟩ := h; exact ⟨p, a, st, g h2 e⟩
  | _ => exact h

/-- Replacing one thread keeps the invariant. -/
theorem invF_update {F F' : Fin n → Prop} {k : Kit α} {reqs : Fin n → List Req} {s s' : Shared α n} (hs : InvF F k reqs s) {i : Fin n} {t : Thread α}
    (hF : ∀ j ≠ i, F' j = F j)
    (ht : s'.threads = Function.update s.threads i t)
    (h1 : s.main <+: s'.main) (h2 : s.trans <+: s'.trans) (h3 : ∀ e ∈ s'.main, freshStack k e.1 = .ok e.2)
    (h4 : ∀ e ∈ s'.trans, freshTrans k e.1 = .ok e.2)
    (h5 : (s'.mutex = some i ↔ t.pc.inMain = true) ∧ ∀ j ≠ i, (s'.mutex = some j ↔ s.mutex = some j))
    (h6 : (s'.transMutex = some i ↔ t.pc.inTrans = true) ∧ ∀ j ≠ i, (s'.transMutex = some j ↔ s.transMutex = some j))
    (h7 : PcOkF (F' i) k s'.main s'.trans t.todo t.pc) (h8 : ServedF (F' i) k (reqs i) t) (h9 : LateF (F' i) t) : InvF F' k reqs s' := by
  refine ⟨h3, h4, fun j => ?_, fun j => ?_, fun j => ?_, fun j => ?_, fun j => ?_⟩ <;> rw [ht] <;> by_cases hj : j = i
  · subst hj; rw [Function.update_self]; exact h5.1
  · rw [Function.update_of_ne hj, h5.2 j hj]; exact hs.mutex j
  · subst hj; rw [Function.update_self]; exact h6.1
  · rw [Function.update_of_ne hj, h6.2 j hj]; exact hs.transMutex j
  · subst hj; rw [Function.update_self]; exact h7
  · rw [Function.update_of_ne hj]; rw [hF j hj]; exact pcOkF_mono h1 h2 (hs.pc j)
  · subst hj; rw [Function.update_self]; exact h8
  · rw [Function.update_of_ne hj]; rw [hF j hj]; exact hs.served j
  · subst hj; rw [Function.update_self]; exact h9
  · rw [Function.update_of_ne hj]; rw [hF j hj]; exact hs.late j

theorem servedF_finish {f : Prop} {k : Kit α} {reqs : List Req} {t : Thread α} (h : ServedF f k reqs t) {f' : Prop} {r : Req} {x : Outcome (Stack α)}
    (hh : t.todo.head? = some r) (hx : (f' → x = .throw) ∧ (¬ f' → freshAnswer k r = x)) : ServedF f' k reqs (t.finish x) := by
  obtain ⟨l, h1, _⟩ := h
  refine ⟨l ++ [r], ?_, fun _ pre q hq => ?_⟩
  · rw [h1]
    cases hd : t.todo with
    | nil => rw [hd] at hh; cases hh
    | cons a b => rw [hd] at hh; cases hh; simp [Thread.finish, hd]
  · obtain ⟨_, h3⟩ := List.append_inj' hq rfl
    cases h3
    have : (t.finish x).results.getLast? = some x := by simp [Thread.finish]
    rw [this]
    exact ⟨fun hf => by rw [hx.1 hf], fun hf => by rw [hx.2 hf]⟩

theorem lateF_finish {f f' : Prop} {t : Thread α} (h : LateF f t) (x : Outcome (Stack α)) : LateF f' (t.finish x) := by
  have h1 := h.1
  have h2 : (t.finish x).todo = [] := by
    unfold Thread.finish
    cases ht : t.todo with
    | nil => rfl
    | cons a l => rw [ht] at h1; simp at h1; simp [h1]
  exact ⟨by simp [h2], fun _ => h2⟩

/-- The thread keeps its requests and results. -/
theorem servedF_stay {f f' : Prop} {k : Kit α} {reqs : List Req} {t : Thread α} (h : ServedF f k reqs t) {r : Req}
    (hh : t.todo.head? = some r) (pc : Pc α) : ServedF f' k reqs { t with pc := pc } := by
  obtain ⟨l, h1, _⟩ := h
  refine ⟨l, h1, fun ht => ?_⟩
  rw [show ({ t with pc := pc } : Thread α).todo = t.todo from rfl] at ht
  rw [ht] at hh
  cases hh

theorem invF_step {F : Fin n → Prop} {k : Kit α} {reqs : Fin n → List Req} {s s' : Shared α n} (hs : InvF F k reqs s) {i : Fin n}
    (h : s.step k i = some s') : InvF F k reqs s' := by
  have hpc := hs.pc i
  have hsv := hs.served i
  have hm := hs.mutex i
  have htm := hs.transMutex i
  have hlt := hs.late i
  unfold LateF at hlt
  unfold Shared.step at h
  -- a step that changes only the position
  have stay : ∀ pc', PcOkF (F i) k s.main s.trans (s.threads i).todo pc' → pc'.inMain = (s.threads i).pc.inMain →
      pc'.inTrans = (s.threads i).pc.inTrans → ¬ F i → InvF F k reqs (s.goto i pc') := by
    intro pc' h1 h2 h3 h4
    exact invF_update hs (i := i) (fun _ _ => rfl) rfl (List.prefix_refl _) (List.prefix_refl _) hs.main_ok hs.trans_ok
      ⟨by rw [show ({ s.threads i with pc := pc' } : Thread α).pc = pc' from rfl, h2]; exact hm, fun _ _ => Iff.rfl⟩
      ⟨by rw [show ({ s.threads i with pc := pc' } : Thread α).pc = pc' from rfl, h3]; exact htm, fun _ _ => Iff.rfl⟩ h1 hsv ⟨hlt.1, fun hf => (h4 hf).elim⟩
  cases hp : (s.threads i).pc with
  | idle =>
    rw [hp] at h stay hlt
    simp only at h
    cases ht : (s.threads i).todo with
    | nil => rw [ht] at h; cases h
    | cons r rs =>
      rw [ht] at h stay hlt
      cases r with
      | plain p => cases h; exact stay _ rfl rfl rfl fun hf => (by have := hlt.2 hf; simp at this)
      | transposed p => cases h; exact stay _ rfl rfl rfl fun hf => (by have := hlt.2 hf; simp at this)
  | lockMain p b =>
    rw [hp] at h hpc hm htm hlt
    simp only at h
    cases hmu : s.mutex with
    | some j => rw [hmu] at h; cases h
    | none =>
      rw [hmu] at h
      cases h
      refine invF_update hs (i := i) (fun _ _ => rfl) rfl (List.prefix_refl _) (List.prefix_refl _) hs.main_ok hs.trans_ok
        ⟨by simp [Shared.goto, Shared.setThread, Pc.inMain], ?_⟩ ⟨htm, fun _ _ => Iff.rfl⟩ hpc hsv ⟨hlt.1, fun hf => (hlt.2 hf).elim⟩
      intro j hj
      simp [Shared.goto, Shared.setThread, hmu, Ne.symm hj]
  | findMain p b =>
    rw [hp] at h hpc stay hlt
    simp only at h
    cases hf : findRef s.main p with
    | some ref => rw [hf] at h; cases h; exact stay _ ⟨hpc, findRef_some hf⟩ rfl rfl fun hf => (hlt.2 hf).elim
    | none => rw [hf] at h; cases h; exact stay _ hpc rfl rfl fun hf => (hlt.2 hf).elim
  | build p b =>
    rw [hp] at h hpc stay hlt
    simp only at h
    cases hf : buildStack k (paddedShape p) p with
    | ok st => rw [hf] at h; cases h; exact stay _ ⟨hpc, hf⟩ rfl rfl fun hf => (hlt.2 hf).elim
    | throw => rw [hf] at h; cases h; exact stay _ ⟨hpc, .inr hf⟩ rfl rfl fun hf => (hlt.2 hf).elim
    | ub => rw [hf] at h; cases h; exact stay _ ⟨hpc, hf⟩ rfl rfl fun hf => (hlt.2 hf).elim
  | insertMain p b st =>
    rw [hp] at h hpc hm htm hlt
    cases h
    obtain ⟨i1, i2, i3⟩ := insertRef_spec s.main p st
    refine invF_update hs (i := i) (fun _ _ => rfl) rfl i1 (List.prefix_refl _) ?_ hs.trans_ok ⟨hm, fun _ _ => Iff.rfl⟩ ⟨htm, fun _ _ => Iff.rfl⟩
      ⟨hpc.1, i3⟩ hsv ⟨hlt.1, fun hf => (hlt.2 hf).elim⟩
    intro e he
    rcases i2 e he with h' | h'
    · exact hs.main_ok e h'
    · subst h'; exact hpc.2
  | unlockMain p b r =>
    rw [hp] at h hpc hm htm hlt
    simp only at h
    have hmi : s.mutex = some i := hm.2 rfl
    have hoth : ∀ j ≠ i, ((none : Option (Fin n)) = some j ↔ s.mutex = some j) := by
      intro j hj; rw [hmi]; simp [Ne.symm hj]
    have go : ∀ pc', PcOkF (F i) k s.main s.trans (s.threads i).todo pc' → pc'.inMain = false → pc'.inTrans = b →
        LateF (F i) { s.threads i with pc := pc' } → InvF F k reqs ({ s with mutex := none }.goto i pc') := by
      intro pc' h1 h2 h3 h4
      refine invF_update hs (i := i) (fun _ _ => rfl) rfl (List.prefix_refl _) (List.prefix_refl _) hs.main_ok hs.trans_ok
        ⟨by simp [Shared.goto, Shared.setThread, h2], hoth⟩ ⟨?_, fun _ _ => Iff.rfl⟩ h1 hsv h4
      show s.transMutex = some i ↔ pc'.inTrans = true
      rw [h3]; exact htm
    have fin : ∀ x, b = false → ((F i → x = .throw) ∧ (¬ F i → freshAnswer k (reqOf p b) = x)) → (s.threads i).todo.head? = some (reqOf p b) →
        InvF F k reqs ({ s with mutex := none }.setThread i ((s.threads i).finish x)) := by
      intro x hb hx hh
      refine invF_update hs (i := i) (fun _ _ => rfl) rfl (List.prefix_refl _) (List.prefix_refl _) hs.main_ok hs.trans_ok
        ⟨by simp [Shared.setThread, Thread.finish, Pc.inMain], hoth⟩ ⟨?_, fun _ _ => Iff.rfl⟩ trivial (servedF_finish hsv hh hx) (lateF_finish (hs.late i) _)
      show s.transMutex = some i ↔ false = true
      rw [htm, ← hb]; rfl
    cases r with
    | ok ref => cases h; exact go _ hpc rfl rfl ⟨hlt.1, fun hf => (hlt.2 hf).elim⟩
    | throw =>
      cases b with
      | true =>
        cases h
        exact go _ ⟨p, hpc.1, hpc.2.imp id fun h2 => by unfold freshTrans; rw [h2]; rfl⟩ rfl rfl ⟨hlt.1, fun _ => trivial⟩
      | false => cases h; exact fin .throw rfl ⟨fun _ => rfl, fun hf => hpc.2.resolve_left hf⟩ hpc.1
    | ub =>
      cases b with
      | true =>
        cases h
        exact go _ ⟨p, hpc.1, by unfold freshTrans; rw [hpc.2]; rfl⟩ rfl rfl ⟨hlt.1, fun hf => (hlt.2 hf).elim⟩
      | false => cases h; exact fin .ub rfl ⟨fun hf => (hlt.2 hf).elim, fun _ => (show freshStack k p = .ub from hpc.2)⟩ hpc.1
  | copyMain p b ref =>
    rw [hp] at h hpc stay hm htm hlt
    simp only at h
    obtain ⟨hh, st, he⟩ := hpc
    have hfr : freshStack k p = .ok st := hs.main_ok (p, st) (List.mem_of_getElem? he)
    have hc : copyRef s.main ref = .ok st := by simp [copyRef, rd, he]
    rw [hc] at h
    cases b with
    | true => cases h; exact stay _ ⟨hh, hfr⟩ rfl rfl fun hf => (hlt.2 hf).elim
    | false =>
      cases h
      exact invF_update hs (i := i) (fun _ _ => rfl) rfl (List.prefix_refl _) (List.prefix_refl _) hs.main_ok hs.trans_ok
        ⟨hm, fun _ _ => Iff.rfl⟩ ⟨htm, fun _ _ => Iff.rfl⟩ trivial (servedF_finish hsv hh ⟨fun hf => (hlt.2 hf).elim, fun _ => hfr⟩) (lateF_finish (hs.late i) _)
  | lockTrans p =>
    rw [hp] at h hpc hm htm hlt
    simp only at h
    cases hmu : s.transMutex with
    | some j => rw [hmu] at h; cases h
    | none =>
      rw [hmu] at h
      cases h
      refine invF_update hs (i := i) (fun _ _ => rfl) rfl (List.prefix_refl _) (List.prefix_refl _) hs.main_ok hs.trans_ok
        ⟨hm, fun _ _ => Iff.rfl⟩ ⟨by simp [Shared.goto, Shared.setThread, Pc.inTrans], ?_⟩ hpc hsv ⟨hlt.1, fun hf => (hlt.2 hf).elim⟩
      intro j hj
      simp [Shared.goto, Shared.setThread, hmu, Ne.symm hj]
  | findTrans p =>
    rw [hp] at h hpc stay hlt
    simp only at h
    cases hf : findRef s.trans p with
    | some ref => rw [hf] at h; cases h; exact stay _ ⟨p, hpc, findRef_some hf⟩ rfl rfl fun hf => (hlt.2 hf).elim
    | none => rw [hf] at h; cases h; exact stay _ hpc rfl rfl fun hf => (hlt.2 hf).elim
  | transpose p st =>
    rw [hp] at h hpc stay hlt
    cases h
    exact stay _ ⟨hpc.1, by unfold freshTrans; rw [hpc.2]; rfl⟩ rfl rfl fun hf => (hlt.2 hf).elim
  | insertTrans p st =>
    rw [hp] at h hpc hm htm hlt
    cases h
    obtain ⟨i1, i2, i3⟩ := insertRef_spec s.trans p st
    refine invF_update hs (i := i) (fun _ _ => rfl) rfl (List.prefix_refl _) i1 hs.main_ok ?_ ⟨hm, fun _ _ => Iff.rfl⟩ ⟨htm, fun _ _ => Iff.rfl⟩
      ⟨p, hpc.1, i3⟩ hsv ⟨hlt.1, fun hf => (hlt.2 hf).elim⟩
    intro e he
    rcases i2 e he with h' | h'
    · exact hs.trans_ok e h'
    · subst h'; exact hpc.2
  | unlockTrans r =>
    rw [hp] at h hpc hm htm hlt
    simp only at h
    have hmi : s.transMutex = some i := htm.2 rfl
    have hoth : ∀ j ≠ i, ((none : Option (Fin n)) = some j ↔ s.transMutex = some j) := by
      intro j hj; rw [hmi]; simp [Ne.symm hj]
    have fin : ∀ q x, ((F i → x = .throw) ∧ (¬ F i → freshAnswer k (.transposed q) = x)) → (s.threads i).todo.head? = some (.transposed q) →
        InvF F k reqs ({ s with transMutex := none }.setThread i ((s.threads i).finish x)) := by
      intro q x hx hh
      exact invF_update hs (i := i) (fun _ _ => rfl) rfl (List.prefix_refl _) (List.prefix_refl _) hs.main_ok hs.trans_ok
        ⟨hm, fun _ _ => Iff.rfl⟩ ⟨by simp [Shared.setThread, Thread.finish, Pc.inTrans], hoth⟩ trivial (servedF_finish hsv hh hx) (lateF_finish (hs.late i) _)
    cases r with
    | ok ref =>
      cases h
      exact invF_update hs (i := i) (fun _ _ => rfl) rfl (List.prefix_refl _) (List.prefix_refl _) hs.main_ok hs.trans_ok
        ⟨hm, fun _ _ => Iff.rfl⟩ ⟨by simp [Shared.goto, Shared.setThread, Pc.inTrans], hoth⟩ hpc hsv ⟨hlt.1, fun hf => (hlt.2 hf).elim⟩
    | throw => cases h; obtain ⟨q, a1, a2⟩ := hpc; exact fin q .throw ⟨fun _ => rfl, fun hf => a2.resolve_left hf⟩ a1
    | ub => cases h; obtain ⟨q, a1, a2⟩ := hpc; exact fin q .ub ⟨fun hf => (hlt.2 hf).elim, fun _ => (show freshTrans k q = .ub from a2)⟩ a1
  | copyTrans ref =>
    rw [hp] at h hpc hm htm hlt
    cases h
    obtain ⟨q, hh, st, he⟩ := hpc
    have hfr : freshTrans k q = .ok st := hs.trans_ok (q, st) (List.mem_of_getElem? he)
    have hc : copyRef s.trans ref = .ok st := by simp [copyRef, rd, he]
    rw [hc]
    exact invF_update hs (i := i) (fun _ _ => rfl) rfl (List.prefix_refl _) (List.prefix_refl _) hs.main_ok hs.trans_ok
      ⟨hm, fun _ _ => Iff.rfl⟩ ⟨htm, fun _ _ => Iff.rfl⟩ trivial (servedF_finish hsv hh ⟨fun hf => (hlt.2 hf).elim, fun _ => hfr⟩) (lateF_finish (hs.late i) _)

theorem progressF {F : Fin n → Prop} {k : Kit α} {reqs : Fin n → List Req} {s : Shared α n} (hs : InvF F k reqs s)
    (h : ∃ i, (s.threads i).pc ≠ .idle ∨ (s.threads i).todo ≠ []) : ∃ i s', s.step k i = some s' := by
  cases hm : s.mutex with
  | some j =>
    have hj := (hs.mutex j).1 hm
    refine ⟨j, enabled (.inl ?_) ?_ ?_⟩
    · intro e; rw [e] at hj; cases hj
    · intro p b e; rw [e] at hj; cases hj
    · intro p e; rw [e] at hj; cases hj
  | none =>
    cases ht : s.transMutex with
    | some j =>
      have hj := (hs.transMutex j).1 ht
      refine ⟨j, enabled (.inl ?_) (fun _ _ _ => hm) ?_⟩
      · intro e; rw [e] at hj; cases hj
      · intro p e; rw [e] at hj; cases hj
    | none =>
      obtain ⟨i, hi⟩ := h
      exact ⟨i, enabled hi (fun _ _ _ => hm) (fun _ _ => ht)⟩

/-- Running out of memory keeps the invariant; the request of the thread may be answered with an exception from now on. -/
theorem invF_fail {F : Fin n → Prop} {k : Kit α} {reqs : Fin n → List Req} {s s' : Shared α n} (hs : InvF F k reqs s) {i : Fin n}
    (h : s.fail i = some s') :
    InvF (Function.update F i True) k reqs s' ∧ ∃ t, s'.threads = Function.update s.threads i t ∧ t.cost < (s.threads i).cost := by
  have hpc := hs.pc i
  have hsv := hs.served i
  have hm := hs.mutex i
  have htm := hs.transMutex i
  have hlt := hs.late i
  have hF : ∀ j ≠ i, (Function.update F i True) j = F j := fun j hj => Function.update_of_ne hj _ _
  have hFi : (Function.update F i True) i = True := Function.update_self _ _ _
  -- a step that changes only the position
  have stay : ∀ pc' r, (s.threads i).todo.head? = some r → PcOkF True k s.main s.trans (s.threads i).todo pc' →
      pc'.inMain = (s.threads i).pc.inMain → pc'.inTrans = (s.threads i).pc.inTrans →
      LateF True { s.threads i with pc := pc' } → InvF (Function.update F i True) k reqs (s.goto i pc') := by
    intro pc' r h0 h1 h2 h3 h4
    refine invF_update hs (i := i) hF rfl (List.prefix_refl _) (List.prefix_refl _) hs.main_ok hs.trans_ok
      ⟨by rw [show ({ s.threads i with pc := pc' } : Thread α).pc = pc' from rfl, h2]; exact hm, fun _ _ => Iff.rfl⟩
      ⟨by rw [show ({ s.threads i with pc := pc' } : Thread α).pc = pc' from rfl, h3]; exact htm, fun _ _ => Iff.rfl⟩ ?_ ?_ ?_
    · rw [hFi]; exact h1
    · exact servedF_stay hsv h0 pc'
    · rw [hFi]; exact h4
  have fin : ∀ r, (s.threads i).todo.head? = some r → (s.threads i).pc.inMain = false → (s.threads i).pc.inTrans = false →
      InvF (Function.update F i True) k reqs (s.setThread i ((s.threads i).finish .throw)) := by
    intro r h0 h2 h3
    rw [h2] at hm
    rw [h3] at htm
    exact invF_update hs (i := i) hF rfl (List.prefix_refl _) (List.prefix_refl _) hs.main_ok hs.trans_ok
      ⟨hm, fun _ _ => Iff.rfl⟩ ⟨htm, fun _ _ => Iff.rfl⟩ trivial (servedF_finish hsv h0 ⟨fun _ => rfl, fun hn => absurd trivial (by rw [hFi] at hn; exact hn)⟩)
      (lateF_finish hlt _)
  unfold Shared.fail at h
  cases hp : (s.threads i).pc with
  | build p b =>
    rw [hp] at h hpc stay
    cases h
    exact ⟨stay _ _ hpc ⟨hpc, .inl trivial⟩ rfl rfl ⟨hlt.1, fun _ => trivial⟩, _, cost_goto _ rfl (by rw [hp]; simp [Pc.rank]) (by simp)⟩
  | insertMain p b st =>
    rw [hp] at h hpc stay
    cases h
    exact ⟨stay _ _ hpc.1 ⟨hpc.1, .inl trivial⟩ rfl rfl ⟨hlt.1, fun _ => trivial⟩, _, cost_goto _ rfl (by rw [hp]; simp [Pc.rank]) (by simp)⟩
  | copyMain p b ref =>
    rw [hp] at h hpc stay fin
    cases b with
    | true =>
      cases h
      exact ⟨stay _ _ hpc.1 ⟨p, hpc.1, .inl trivial⟩ rfl rfl ⟨hlt.1, fun _ => trivial⟩, _, cost_goto _ rfl (by rw [hp]; simp [Pc.rank]) (by simp)⟩
    | false =>
      cases h
      exact ⟨fin _ hpc.1 rfl rfl, _, cost_finish _ rfl (by rw [hp]; simp [Pc.rank])⟩
  | transpose p st =>
    rw [hp] at h hpc stay
    cases h
    exact ⟨stay _ _ hpc.1 ⟨p, hpc.1, .inl trivial⟩ rfl rfl ⟨hlt.1, fun _ => trivial⟩, _, cost_goto _ rfl (by rw [hp]; simp [Pc.rank]) (by simp)⟩
  | insertTrans p st =>
    rw [hp] at h hpc stay
    cases h
    exact ⟨stay _ _ hpc.1 ⟨p, hpc.1, .inl trivial⟩ rfl rfl ⟨hlt.1, fun _ => trivial⟩, _, cost_goto _ rfl (by rw [hp]; simp [Pc.rank]) (by simp)⟩
  | copyTrans ref =>
    rw [hp] at h hpc fin
    cases h
    obtain ⟨p, h1, _⟩ := hpc
    exact ⟨fin _ h1 rfl rfl, _, cost_finish _ rfl (by rw [hp]; simp [Pc.rank])⟩
  | _ => rw [hp] at h; cases h

/-- Memory runs out at most once while a request is served. -/
theorem fail_first {F : Fin n → Prop} {k : Kit α} {reqs : Fin n → List Req} {s s' : Shared α n} (hs : InvF F k reqs s) {i : Fin n}
    (h : s.fail i = some s') : ¬ F i := by
  intro hf
  have hlt := (hs.late i).2 hf
  unfold Shared.fail at h
  cases hp : (s.threads i).pc <;> rw [hp] at h hlt <;> first | exact hlt | cases h

theorem invF_push {F : Fin n → Prop} {k : Kit α} {reqs : Fin n → List Req} {s : Shared α n} (hs : InvF F k reqs s) {i : Fin n}
    (ht : (s.threads i).pc = .idle ∧ (s.threads i).todo = []) (q : Req) :
    InvF (Function.update F i False) k (Function.update reqs i (reqs i ++ [q])) (s.setThread i ((s.threads i).push q)) := by
  refine ⟨hs.main_ok, hs.trans_ok, fun j => ?_, fun j => ?_, fun j => ?_, fun j => ?_, fun j => ?_⟩
  all_goals
    show _
    unfold Shared.setThread
    dsimp only
    by_cases hj : j = i
    · subst hj
      simp only [Function.update_self]
      first
        | exact hs.mutex j
        | exact hs.transMutex j
        | (show PcOkF False k s.main s.trans _ (s.threads j).pc
           rw [ht.1]; trivial)
        | (obtain ⟨l, h1, h2⟩ := hs.served j
           exact ⟨l, by rw [h1]; simp [Thread.push], fun h => absurd h (by simp [Thread.push])⟩)
        | exact ⟨by simp [Thread.push, ht.2], fun h => h.elim⟩
    · simp only [Function.update_of_ne hj]
      first
        | exact hs.mutex j
        | exact hs.transMutex j
        | exact hs.pc j
        | exact hs.served j
        | exact hs.late j

/-- The answer to the last request. -/
theorem last_answerF {f : Prop} {k : Kit α} {reqs : List Req} {t : Thread α} (h : ServedF f k reqs t) (ht : t.todo = [])
    {pre : List Req} {q : Req} (hq : reqs = pre ++ [q]) :
    (f → t.results.getLast? = some .throw) ∧ (¬ f → t.results.getLast? = some (freshAnswer k q)) := by
  obtain ⟨l, h1, h2⟩ := h
  rw [ht, List.append_nil] at h1
  exact h2 ht pre q (by rw [← h1, hq])

end WB
