import Verif.Spec.Threads
import Verif.Proof.Cache
import Mathlib.Algebra.BigOperators.Fin
import Mathlib.Algebra.Order.BigOperators.Group.Finset

/-!
Invariant of the threads that share the matrix cache.
-/

set_option linter.unusedSectionVars false

namespace WB

open Spec

variable {α : Type} {n : ℕ}

/-- The thread holds the mutex of the plain matrices. -/
def Pc.inMain : Pc α → Bool
  | .findMain .. | .build .. | .insertMain .. | .unlockMain .. => true
  | _ => false

/-- The thread holds the mutex of the transposed matrices. -/
def Pc.inTrans : Pc α → Bool
  | .lockMain _ b | .findMain _ b | .build _ b | .insertMain _ b _ | .unlockMain _ b _ | .copyMain _ b _ => b
  | .findTrans .. | .transpose .. | .insertTrans .. | .unlockTrans .. => true
  | _ => false

/-- The request behind a call of `GenerateMatrices`. -/
def reqOf (p : Params) (nested : Bool) : Req := if nested then .transposed p else .plain p

section
variable [Neg α]

/-- What holds at each position. -/
def PcOk (k : Kit α) (main trans : List (Params × Stack α)) (todo : List Req) : Pc α → Prop
  | .idle => True
  | .lockMain p b | .findMain p b | .build p b => todo.head? = some (reqOf p b)
  | .insertMain p b st => todo.head? = some (reqOf p b) ∧ freshStack k p = .ok st
  | .unlockMain p b (.ok ref) => todo.head? = some (reqOf p b) ∧ ∃ st, main[ref]? = some (p, st)
  | .unlockMain p b .throw => todo.head? = some (reqOf p b) ∧ freshStack k p = .throw
  | .unlockMain p b .ub => todo.head? = some (reqOf p b) ∧ freshStack k p = .ub
  | .copyMain p b ref => todo.head? = some (reqOf p b) ∧ ∃ st, main[ref]? = some (p, st)
  | .lockTrans p | .findTrans p => todo.head? = some (.transposed p)
  | .transpose p st => todo.head? = some (.transposed p) ∧ freshStack k p = .ok st
  | .insertTrans p st => todo.head? = some (.transposed p) ∧ freshTrans k p = .ok st
  | .unlockTrans (.ok ref) => ∃ p, todo.head? = some (.transposed p) ∧ ∃ st, trans[ref]? = some (p, st)
  | .unlockTrans .throw => ∃ p, todo.head? = some (.transposed p) ∧ freshTrans k p = .throw
  | .unlockTrans .ub => ∃ p, todo.head? = some (.transposed p) ∧ freshTrans k p = .ub
  | .copyTrans ref => ∃ p, todo.head? = some (.transposed p) ∧ ∃ st, trans[ref]? = some (p, st)

/-- Served requests have fresh answers. -/
def Served (k : Kit α) (reqs : List Req) (t : Thread α) : Prop :=
  ∃ served, reqs = served ++ t.todo ∧ t.results = served.map (freshAnswer k)

/-- The invariant. -/
structure Inv (k : Kit α) (reqs : Fin n → List Req) (s : Shared α n) : Prop where
  main_ok : ∀ e ∈ s.main, freshStack k e.1 = .ok e.2
  trans_ok : ∀ e ∈ s.trans, freshTrans k e.1 = .ok e.2
  mutex : ∀ i, s.mutex = some i ↔ (s.threads i).pc.inMain = true
  transMutex : ∀ i, s.transMutex = some i ↔ (s.threads i).pc.inTrans = true
  pc : ∀ i, PcOk k s.main s.trans (s.threads i).todo (s.threads i).pc
  served : ∀ i, Served k (reqs i) (s.threads i)

theorem pcOk_mono {k : Kit α} {main main' trans trans' : List (Params × Stack α)} {todo : List Req} {pc : Pc α}
    (h1 : main <+: main') (h2 : trans <+: trans') (h : PcOk k main trans todo pc) : PcOk k main' trans' todo pc := by
  have g : ∀ {m m' : List (Params × Stack α)} {r : ℕ} {e : Params × Stack α}, m <+: m' → m[r]? = some e → m'[r]? = some e := by
    rintro m m' r e ⟨l, rfl⟩ he
    rw [List.getElem?_append_left (List.getElem?_eq_some_iff.1 he).1]; exact he
  cases pc with
  | unlockMain p b r =>
    cases r with
    | ok ref => obtain ⟨a, st, e⟩ := h; exact ⟨a, st, g h1 e⟩
    | throw => exact h
    | ub => exact h
  | copyMain p b ref => obtain ⟨a, st, e⟩ := h; exact ⟨a, st, g h1 e⟩
  | unlockTrans r =>
    cases r with
    | ok ref => obtain ⟨p, a, st, e⟩ := h; exact ⟨p, a, st, g h2 e⟩
    | throw => exact h
    | ub => exact h
  | copyTrans ref => obtain ⟨p, a, st, e⟩ := h; exact ⟨p, a, st, g h2 e⟩
  | _ => exact h

theorem findRef_some {m : List (Params × Stack α)} {p : Params} {i : ℕ} (h : findRef m p = some i) : ∃ st, m[i]? = some (p, st) := by
  unfold findRef at h
  rw [List.findIdx?_eq_some_iff_getElem] at h
  obtain ⟨hi, h1, -⟩ := h
  simp only [Bool.and_eq_true, Bool.not_eq_true'] at h1
  have := ltOp_none h1.1 h1.2
  refine ⟨m[i].2, ?_⟩
  rw [List.getElem?_eq_getElem hi, ← this]

theorem insertRef_spec (m : List (Params × Stack α)) (p : Params) (st : Stack α) :
    m <+: (insertRef m p st).1 ∧ (∀ e ∈ (insertRef m p st).1, e ∈ m ∨ e = (p, st)) ∧
    ∃ st', (insertRef m p st).1[(insertRef m p st).2]? = some (p, st') := by
  unfold insertRef
  cases h : findRef m p with
  | some i => exact ⟨List.prefix_refl _, fun e he => .inl he, findRef_some h⟩
  | none =>
    refine ⟨List.prefix_append _ _, fun e he => ?_, st, by simp⟩
    simpa using he

/-- Replacing one thread keeps the invariant. -/
theorem threads_inv_update {k : Kit α} {reqs : Fin n → List Req} {s s' : Shared α n} (hs : Inv k reqs s) {i : Fin n} {t : Thread α}
    (ht : s'.threads = Function.update s.threads i t)
    (h1 : s.main <+: s'.main) (h2 : s.trans <+: s'.trans) (h3 : ∀ e ∈ s'.main, freshStack k e.1 = .ok e.2)
    (h4 : ∀ e ∈ s'.trans, freshTrans k e.1 = .ok e.2)
    (h5 : (s'.mutex = some i ↔ t.pc.inMain = true) ∧ ∀ j ≠ i, (s'.mutex = some j ↔ s.mutex = some j))
    (h6 : (s'.transMutex = some i ↔ t.pc.inTrans = true) ∧ ∀ j ≠ i, (s'.transMutex = some j ↔ s.transMutex = some j))
    (h7 : PcOk k s'.main s'.trans t.todo t.pc) (h8 : Served k (reqs i) t) : Inv k reqs s' := by
  refine ⟨h3, h4, fun j => ?_, fun j => ?_, fun j => ?_, fun j => ?_⟩ <;> rw [ht] <;> by_cases hj : j = i
  · subst hj; rw [Function.update_self]; exact h5.1
  · rw [Function.update_of_ne hj, h5.2 j hj]; exact hs.mutex j
  · subst hj; rw [Function.update_self]; exact h6.1
  · rw [Function.update_of_ne hj, h6.2 j hj]; exact hs.transMutex j
  · subst hj; rw [Function.update_self]; exact h7
  · rw [Function.update_of_ne hj]; exact pcOk_mono h1 h2 (hs.pc j)
  · subst hj; rw [Function.update_self]; exact h8
  · rw [Function.update_of_ne hj]; exact hs.served j

theorem served_finish {k : Kit α} {reqs : List Req} {t : Thread α} (h : Served k reqs t) {r : Req} {x : Outcome (Stack α)}
    (hh : t.todo.head? = some r) (hx : freshAnswer k r = x) : Served k reqs (t.finish x) := by
  obtain ⟨l, h1, h2⟩ := h
  refine ⟨l ++ [r], ?_, ?_⟩
  · rw [h1]
    cases hd : t.todo with
    | nil => rw [hd] at hh; cases hh
    | cons a b => rw [hd] at hh; cases hh; simp [Thread.finish, hd]
  · simp [Thread.finish, h2, hx]

theorem inv_init (k : Kit α) (reqs : Fin n → List Req) : Inv k reqs (Shared.init reqs) := by
  refine ⟨by simp [Shared.init], by simp [Shared.init], ?_, ?_, ?_, ?_⟩
  · intro i; simp [Shared.init, Pc.inMain]
  · intro i; simp [Shared.init, Pc.inTrans]
  · intro i; trivial
  · intro i; exact ⟨[], rfl, rfl⟩

/-- Only threads at an unlocking or locking position change a mutex. -/
theorem holder {k : Kit α} {reqs : Fin n → List Req} {s : Shared α n} (hs : Inv k reqs s) (i : Fin n) :
    ((s.threads i).pc.inMain = true → s.mutex = some i) ∧ ((s.threads i).pc.inTrans = true → s.transMutex = some i) :=
  ⟨(hs.mutex i).2, (hs.transMutex i).2⟩

theorem inv_step {k : Kit α} {reqs : Fin n → List Req} {s s' : Shared α n} (hs : Inv k reqs s) {i : Fin n}
    (h : s.step k i = some s') : Inv k reqs s' := by
  have hpc := hs.pc i
  have hsv := hs.served i
  have hm := hs.mutex i
  have htm := hs.transMutex i
  unfold Shared.step at h
  -- a step that changes only the position
  have stay : ∀ pc', PcOk k s.main s.trans (s.threads i).todo pc' → pc'.inMain = (s.threads i).pc.inMain →
      pc'.inTrans = (s.threads i).pc.inTrans → Inv k reqs (s.goto i pc') := by
    intro pc' h1 h2 h3
    exact threads_inv_update hs (i := i) rfl (List.prefix_refl _) (List.prefix_refl _) hs.main_ok hs.trans_ok
      ⟨by rw [show ({ s.threads i with pc := pc' } : Thread α).pc = pc' from rfl, h2]; exact hm, fun _ _ => Iff.rfl⟩
      ⟨by rw [show ({ s.threads i with pc := pc' } : Thread α).pc = pc' from rfl, h3]; exact htm, fun _ _ => Iff.rfl⟩ h1 hsv
  cases hp : (s.threads i).pc with
  | idle =>
    rw [hp] at h stay
    simp only at h
    cases ht : (s.threads i).todo with
    | nil => rw [ht] at h; cases h
    | cons r rs =>
      rw [ht] at h stay
      cases r with
      | plain p => cases h; exact stay _ rfl rfl rfl
      | transposed p => cases h; exact stay _ rfl rfl rfl
  | lockMain p b =>
    rw [hp] at h hpc hm htm
    simp only at h
    cases hmu : s.mutex with
    | some j => rw [hmu] at h; cases h
    | none =>
      rw [hmu] at h
      cases h
      refine threads_inv_update hs (i := i) rfl (List.prefix_refl _) (List.prefix_refl _) hs.main_ok hs.trans_ok
        ⟨by simp [Shared.goto, Shared.setThread, Pc.inMain], ?_⟩ ⟨htm, fun _ _ => Iff.rfl⟩ hpc hsv
      intro j hj
      simp [Shared.goto, Shared.setThread, hmu, Ne.symm hj]
  | findMain p b =>
    rw [hp] at h hpc stay
    simp only at h
    cases hf : findRef s.main p with
    | some ref => rw [hf] at h; cases h; exact stay _ ⟨hpc, findRef_some hf⟩ rfl rfl
    | none => rw [hf] at h; cases h; exact stay _ hpc rfl rfl
  | build p b =>
    rw [hp] at h hpc stay
    simp only at h
    cases hf : buildStack k (paddedShape p) p with
    | ok st => rw [hf] at h; cases h; exact stay _ ⟨hpc, hf⟩ rfl rfl
    | throw => rw [hf] at h; cases h; exact stay _ ⟨hpc, hf⟩ rfl rfl
    | ub => rw [hf] at h; cases h; exact stay _ ⟨hpc, hf⟩ rfl rfl
  | insertMain p b st =>
    rw [hp] at h hpc hm htm
    cases h
    obtain ⟨i1, i2, i3⟩ := insertRef_spec s.main p st
    refine threads_inv_update hs (i := i) rfl i1 (List.prefix_refl _) ?_ hs.trans_ok ⟨hm, fun _ _ => Iff.rfl⟩ ⟨htm, fun _ _ => Iff.rfl⟩
      ⟨hpc.1, i3⟩ hsv
    intro e he
    rcases i2 e he with h' | h'
    · exact hs.main_ok e h'
    · subst h'; exact hpc.2
  | unlockMain p b r =>
    rw [hp] at h hpc hm htm
    simp only at h
    have hmi : s.mutex = some i := hm.2 rfl
    have hoth : ∀ j ≠ i, ((none : Option (Fin n)) = some j ↔ s.mutex = some j) := by
      intro j hj; rw [hmi]; simp [Ne.symm hj]
    have go : ∀ pc', PcOk k s.main s.trans (s.threads i).todo pc' → pc'.inMain = false → pc'.inTrans = b →
        Inv k reqs ({ s with mutex := none }.goto i pc') := by
      intro pc' h1 h2 h3
      refine threads_inv_update hs (i := i) rfl (List.prefix_refl _) (List.prefix_refl _) hs.main_ok hs.trans_ok
        ⟨by simp [Shared.goto, Shared.setThread, h2], hoth⟩ ⟨?_, fun _ _ => Iff.rfl⟩ h1 hsv
      show s.transMutex = some i ↔ pc'.inTrans = true
      rw [h3]; exact htm
    have fin : ∀ x, b = false → freshAnswer k (reqOf p b) = x → (s.threads i).todo.head? = some (reqOf p b) →
        Inv k reqs ({ s with mutex := none }.setThread i ((s.threads i).finish x)) := by
      intro x hb hx hh
      refine threads_inv_update hs (i := i) rfl (List.prefix_refl _) (List.prefix_refl _) hs.main_ok hs.trans_ok
        ⟨by simp [Shared.setThread, Thread.finish, Pc.inMain], hoth⟩ ⟨?_, fun _ _ => Iff.rfl⟩ trivial (served_finish hsv hh hx)
      show s.transMutex = some i ↔ false = true
      rw [htm, ← hb]; rfl
    cases r with
    | ok ref => cases h; exact go _ hpc rfl rfl
    | throw =>
      cases b with
      | true =>
        cases h
        exact go _ ⟨p, hpc.1, by unfold freshTrans; rw [hpc.2]; rfl⟩ rfl rfl
      | false => cases h; exact fin .throw rfl (show freshStack k p = .throw from hpc.2) hpc.1
    | ub =>
      cases b with
      | true =>
        cases h
        exact go _ ⟨p, hpc.1, by unfold freshTrans; rw [hpc.2]; rfl⟩ rfl rfl
      | false => cases h; exact fin .ub rfl (show freshStack k p = .ub from hpc.2) hpc.1
  | copyMain p b ref =>
    rw [hp] at h hpc stay hm htm
    simp only at h
    obtain ⟨hh, st, he⟩ := hpc
    have hfr : freshStack k p = .ok st := hs.main_ok (p, st) (List.mem_of_getElem? he)
    have hc : copyRef s.main ref = .ok st := by simp [copyRef, rd, he]
    rw [hc] at h
    cases b with
    | true => cases h; exact stay _ ⟨hh, hfr⟩ rfl rfl
    | false =>
      cases h
      exact threads_inv_update hs (i := i) rfl (List.prefix_refl _) (List.prefix_refl _) hs.main_ok hs.trans_ok
        ⟨hm, fun _ _ => Iff.rfl⟩ ⟨htm, fun _ _ => Iff.rfl⟩ trivial (served_finish hsv hh hfr)
  | lockTrans p =>
    rw [hp] at h hpc hm htm
    simp only at h
    cases hmu : s.transMutex with
    | some j => rw [hmu] at h; cases h
    | none =>
      rw [hmu] at h
      cases h
      refine threads_inv_update hs (i := i) rfl (List.prefix_refl _) (List.prefix_refl _) hs.main_ok hs.trans_ok
        ⟨hm, fun _ _ => Iff.rfl⟩ ⟨by simp [Shared.goto, Shared.setThread, Pc.inTrans], ?_⟩ hpc hsv
      intro j hj
      simp [Shared.goto, Shared.setThread, hmu, Ne.symm hj]
  | findTrans p =>
    rw [hp] at h hpc stay
    simp only at h
    cases hf : findRef s.trans p with
    | some ref => rw [hf] at h; cases h; exact stay _ ⟨p, hpc, findRef_some hf⟩ rfl rfl
    | none => rw [hf] at h; cases h; exact stay _ hpc rfl rfl
  | transpose p st =>
    rw [hp] at h hpc stay
    cases h
    exact stay _ ⟨hpc.1, by unfold freshTrans; rw [hpc.2]; rfl⟩ rfl rfl
  | insertTrans p st =>
    rw [hp] at h hpc hm htm
    cases h
    obtain ⟨i1, i2, i3⟩ := insertRef_spec s.trans p st
    refine threads_inv_update hs (i := i) rfl (List.prefix_refl _) i1 hs.main_ok ?_ ⟨hm, fun _ _ => Iff.rfl⟩ ⟨htm, fun _ _ => Iff.rfl⟩
      ⟨p, hpc.1, i3⟩ hsv
    intro e he
    rcases i2 e he with h' | h'
    · exact hs.trans_ok e h'
    · subst h'; exact hpc.2
  | unlockTrans r =>
    rw [hp] at h hpc hm htm
    simp only at h
    have hmi : s.transMutex = some i := htm.2 rfl
    have hoth : ∀ j ≠ i, ((none : Option (Fin n)) = some j ↔ s.transMutex = some j) := by
      intro j hj; rw [hmi]; simp [Ne.symm hj]
    have fin : ∀ q x, freshAnswer k (.transposed q) = x → (s.threads i).todo.head? = some (.transposed q) →
        Inv k reqs ({ s with transMutex := none }.setThread i ((s.threads i).finish x)) := by
      intro q x hx hh
      exact threads_inv_update hs (i := i) rfl (List.prefix_refl _) (List.prefix_refl _) hs.main_ok hs.trans_ok
        ⟨hm, fun _ _ => Iff.rfl⟩ ⟨by simp [Shared.setThread, Thread.finish, Pc.inTrans], hoth⟩ trivial (served_finish hsv hh hx)
    cases r with
    | ok ref =>
      cases h
      exact threads_inv_update hs (i := i) rfl (List.prefix_refl _) (List.prefix_refl _) hs.main_ok hs.trans_ok
        ⟨hm, fun _ _ => Iff.rfl⟩ ⟨by simp [Shared.goto, Shared.setThread, Pc.inTrans], hoth⟩ hpc hsv
    | throw => cases h; obtain ⟨q, a1, a2⟩ := hpc; exact fin q .throw (show freshTrans k q = .throw from a2) a1
    | ub => cases h; obtain ⟨q, a1, a2⟩ := hpc; exact fin q .ub (show freshTrans k q = .ub from a2) a1
  | copyTrans ref =>
    rw [hp] at h hpc hm htm
    cases h
    obtain ⟨q, hh, st, he⟩ := hpc
    have hfr : freshTrans k q = .ok st := hs.trans_ok (q, st) (List.mem_of_getElem? he)
    have hc : copyRef s.trans ref = .ok st := by simp [copyRef, rd, he]
    rw [hc]
    exact threads_inv_update hs (i := i) rfl (List.prefix_refl _) (List.prefix_refl _) hs.main_ok hs.trans_ok
      ⟨hm, fun _ _ => Iff.rfl⟩ ⟨htm, fun _ _ => Iff.rfl⟩ trivial (served_finish hsv hh hfr)

theorem inv_runs {k : Kit α} {reqs : Fin n → List Req} {s s' : Shared α n} {l : List (Fin n)} (hs : Inv k reqs s)
    (h : Runs k s l s') : Inv k reqs s' := by
  induction h with
  | nil => exact hs
  | cons h1 _ ih => exact ih (inv_step hs h1)

/-- A step only appends to the maps. -/
theorem step_prefix {k : Kit α} {s s' : Shared α n} {i : Fin n} (h : s.step k i = some s') :
    s.main <+: s'.main ∧ s.trans <+: s'.trans := by
  unfold Shared.step at h
  cases hp : (s.threads i).pc with
  | insertMain p b st => rw [hp] at h; cases h; exact ⟨(insertRef_spec s.main p st).1, List.prefix_refl _⟩
  | insertTrans p st => rw [hp] at h; cases h; exact ⟨List.prefix_refl _, (insertRef_spec s.trans p st).1⟩
  | _ =>
    rw [hp] at h
    simp only at h
    try repeat' split at h
    all_goals first
      | (cases h; exact ⟨List.prefix_refl _, List.prefix_refl _⟩)
      | cases h

/-- A thread that waits for no held mutex and has something to do can step. -/
theorem enabled {k : Kit α} {s : Shared α n} {i : Fin n} (h1 : (s.threads i).pc ≠ .idle ∨ (s.threads i).todo ≠ [])
    (h2 : ∀ p b, (s.threads i).pc = .lockMain p b → s.mutex = none) (h3 : ∀ p, (s.threads i).pc = .lockTrans p → s.transMutex = none) :
    ∃ s', s.step k i = some s' := by
  unfold Shared.step
  cases hp : (s.threads i).pc with
  | idle =>
    simp only
    cases ht : (s.threads i).todo with
    | nil => rw [hp, ht] at h1; simp at h1
    | cons r rs => cases r <;> exact ⟨_, rfl⟩
  | lockMain p b => simp only; rw [h2 p b hp]; exact ⟨_, rfl⟩
  | lockTrans p => simp only; rw [h3 p hp]; exact ⟨_, rfl⟩
  | _ =>
    simp only
    try repeat' split
    all_goals exact ⟨_, rfl⟩

theorem progress {k : Kit α} {reqs : Fin n → List Req} {s : Shared α n} (hs : Inv k reqs s)
    (h : ∃ i, (s.threads i).pc ≠ .idle ∨ (s.threads i).todo ≠ []) : ∃ i s', s.step k i = some s' := by
  cases hm : s.mutex with
  | some j =>
    have hj := (hs.mutex j).1 hm
    refine ⟨j, enabled (.inl ?_) ?_ ?_⟩
    · intro e; rw [e] at hj; cases hj
    · intro p b e; rw [e] at hj; cases hj
    · intro p e; rw [e] at hj; cases hj
  | none =>
    cases ht : s.transMutex with
    | some j =>
      have hj := (hs.transMutex j).1 ht
      refine ⟨j, enabled (.inl ?_) (fun _ _ _ => hm) ?_⟩
      · intro e; rw [e] at hj; cases hj
      · intro p e; rw [e] at hj; cases hj
    | none =>
      obtain ⟨i, hi⟩ := h
      exact ⟨i, enabled hi (fun _ _ _ => hm) (fun _ _ => ht)⟩

/-! ### every schedule is finite -/

/-- Steps a thread needs at most before its request is served. -/
def Pc.rank : Pc α → ℕ
  | .idle => 0
  | .lockTrans _ => 12
  | .findTrans _ => 11
  | .lockMain .. => 10
  | .findMain .. => 9
  | .build .. => 8
  | .insertMain .. => 7
  | .unlockMain .. => 6
  | .copyMain .. => 5
  | .transpose .. => 4
  | .insertTrans .. => 3
  | .unlockTrans _ => 2
  | .copyTrans _ => 1

/-- Bound on the remaining steps of a thread. -/
def Thread.cost (t : Thread α) : ℕ := match t.pc with
  | .idle => 13 * t.todo.length
  | pc => 13 * (t.todo.length - 1) + pc.rank

theorem cost_goto {s : Shared α n} {i : Fin n} {pc : Pc α} (s0 : Shared α n) (h0 : s0.threads = s.threads)
    (h1 : pc.rank < (s.threads i).pc.rank) (h2 : pc ≠ .idle) :
    (s0.goto i pc).threads = Function.update s.threads i { s.threads i with pc := pc } ∧
    ({ s.threads i with pc := pc } : Thread α).cost < (s.threads i).cost := by
  refine ⟨by simp [Shared.goto, Shared.setThread, h0], ?_⟩
  have e1 : ({ s.threads i with pc := pc } : Thread α).cost = 13 * ((s.threads i).todo.length - 1) + pc.rank := by
    unfold Thread.cost; cases pc <;> first | rfl | exact absurd rfl h2
  have e2 : (s.threads i).cost = 13 * ((s.threads i).todo.length - 1) + (s.threads i).pc.rank := by
    unfold Thread.cost
    cases hp : (s.threads i).pc with
    | idle => rw [hp] at h1; simp [Pc.rank] at h1
    | _ => rfl
  omega

theorem cost_finish {s : Shared α n} {i : Fin n} {x : Outcome (Stack α)} (s0 : Shared α n) (h0 : s0.threads = s.threads)
    (h1 : 0 < (s.threads i).pc.rank) :
    (s0.setThread i ((s.threads i).finish x)).threads = Function.update s.threads i ((s.threads i).finish x) ∧
    ((s.threads i).finish x).cost < (s.threads i).cost := by
  refine ⟨by simp [Shared.setThread, h0], ?_⟩
  have e2 : (s.threads i).cost = 13 * ((s.threads i).todo.length - 1) + (s.threads i).pc.rank := by
    unfold Thread.cost
    cases hp : (s.threads i).pc with
    | idle => rw [hp] at h1; simp [Pc.rank] at h1
    | _ => rfl
  rw [e2]
  simp only [Thread.cost, Thread.finish, List.length_tail]
  omega

theorem step_cost {k : Kit α} {s s' : Shared α n} {i : Fin n} (h : s.step k i = some s') :
    ∃ t, s'.threads = Function.update s.threads i t ∧ t.cost < (s.threads i).cost := by
  unfold Shared.step at h
  cases hp : (s.threads i).pc with
  | idle =>
    rw [hp] at h
    simp only at h
    cases ht : (s.threads i).todo with
    | nil => rw [ht] at h; cases h
    | cons r rs =>
      rw [ht] at h
      cases r <;> cases h <;> refine ⟨_, rfl, ?_⟩ <;> simp [Thread.cost, hp, ht, Pc.rank] <;> omega
  | _ =>
    rw [hp] at h
    simp only at h
    try repeat' split at h
    all_goals first
      | (cases h; exact ⟨_, cost_goto _ rfl (by rw [hp]; simp [Pc.rank]) (by simp)⟩)
      | (cases h; exact ⟨_, cost_finish _ rfl (by rw [hp]; simp [Pc.rank])⟩)
      | cases h

theorem sum_update_lt {f : Fin n → Thread α} {i : Fin n} {t : Thread α} (h : t.cost < (f i).cost) :
    ∑ j, (Function.update f i t j).cost < ∑ j, (f j).cost := by
  apply Finset.sum_lt_sum
  · intro j _
    by_cases hj : j = i
    · subst hj; rw [Function.update_self]; exact h.le
    · rw [Function.update_of_ne hj]
  · exact ⟨i, Finset.mem_univ i, by rw [Function.update_self]; exact h⟩

theorem runs_length {k : Kit α} {s s' : Shared α n} {l : List (Fin n)} (h : Runs k s l s') :
    l.length + ∑ j, (s'.threads j).cost ≤ ∑ j, (s.threads j).cost := by
  induction h with
  | nil => simp
  | cons h1 _ ih =>
    obtain ⟨t, e, hlt⟩ := step_cost h1
    have := sum_update_lt hlt
    rw [← e] at this
    simp only [List.length_cons]
    omega

end

end WB
