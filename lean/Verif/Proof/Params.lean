import Verif.Model.Buffer
import Verif.Spec.Params
import Mathlib.Tactic.Common

namespace WB

open Spec

variable {α : Type}

theorem shortest_le {l : List ℕ} : ∀ n ∈ l, Params.shortest l ≤ n := by
  induction l with
  | nil => simp
  | cons a l ih =>
    intro n hn
    cases l with
    | nil => simp at hn; simp [Params.shortest, hn]
    | cons b l =>
      simp only [Params.shortest]
      rcases List.mem_cons.mp hn with h | h
      · subst h; exact Nat.min_le_left _ _
      · exact le_trans (Nat.min_le_right _ _) (ih n h)

theorem shortest_mem {l : List ℕ} (h : l ≠ []) : Params.shortest l ∈ l := by
  induction l with
  | nil => simp at h
  | cons a l ih =>
    cases l with
    | nil => simp [Params.shortest]
    | cons b l =>
      simp only [Params.shortest]
      rcases Nat.le_total a (Params.shortest (b :: l)) with h1 | h1
      · rw [Nat.min_eq_left h1]; simp
      · rw [Nat.min_eq_right h1]; exact List.mem_cons_of_mem _ (ih (by simp))

theorem le_shortest_iff {l : List ℕ} (h : l ≠ []) (m : ℕ) : m ≤ Params.shortest l ↔ ∀ n ∈ l, m ≤ n :=
  ⟨fun hm n hn => le_trans hm (shortest_le n hn), fun hm => hm _ (shortest_mem h)⟩

theorem subbands_eq (p : Params) : subbandsPerWT p = detailsPerStep p := rfl

theorem decompositionSize_eq (p : Params) : decompositionSize p = subbandCount p := rfl

/-- The buffer the constructor makes from valid parameters. -/
def emptyBuffer (p : Params) : Buffer α :=
  ⟨p, List.replicate p.signalNumber (List.replicate (subbandCount p) Mat.empty)⟩

theorem steps_le_maxSteps_iff {p : Params} (h : p.shape ≠ []) (ht : p.wtype ≠ 0)
    (hm : 2 * p.wtype ≤ Params.shortest p.shape) :
    p.steps ≤ maxSteps p.wtype p.shape ↔ ∀ n ∈ p.shape, 2 ^ p.steps * (2 * p.wtype - 1) ≤ n := by
  rw [← le_shortest_iff h]
  unfold maxSteps
  rw [if_neg ht, Nat.le_log2]
  · rw [Nat.le_div_iff_mul_le (by omega)]
  · have : 0 < Params.shortest p.shape / (2 * p.wtype - 1) := Nat.div_pos (by omega) (by omega)
    omega

theorem ctor_ok_of_valid {p : Params} (hv : ValidParams p) (hr : RepresentableType p) :
    ctor (α := α) p = .ok (emptyBuffer p) := by
  obtain ⟨hd, hs, hst⟩ := hv
  have hne : p.shape ≠ [] := by rintro h; simp [h] at hd
  have hmin : 2 * p.wtype ≤ Params.shortest p.shape := (le_shortest_iff hne _).2 hs
  unfold ctor
  have hd' : ¬ (p.dimension ≠ 2 ∧ p.dimension ≠ 1) := by unfold Params.dimension; omega
  unfold RepresentableType at hr
  rw [if_neg hd', if_neg (by omega), if_neg (by omega)]
  have hle : p.steps ≤ maxSteps p.wtype p.shape := by
    by_cases ht : p.wtype = 0
    · simp only [ht, if_true] at hst; omega
    · rw [if_neg ht] at hst
      exact (steps_le_maxSteps_iff hne ht hmin).2 hst
  rw [if_neg (by omega)]
  have hst' : (if p.wtype ≠ 0 then p.steps else 0) = p.steps := by
    by_cases ht : p.wtype = 0
    · simp only [ht, if_true] at hst; simp [ht, hst]
    · simp [ht]
  simp only [hst']
  rfl

theorem ctor_throw_of_not_valid {p : Params} (hv : ¬ ValidParams p) (hr : RepresentableType p) :
    ctor (α := α) p = .throw := by
  unfold ctor
  by_cases hd : p.dimension ≠ 2 ∧ p.dimension ≠ 1
  · rw [if_pos hd]
  · rw [if_neg hd]
    have hd' : p.shape.length = 1 ∨ p.shape.length = 2 := by unfold Params.dimension at hd; omega
    have hne : p.shape ≠ [] := by rintro h; simp [h] at hd'
    unfold RepresentableType at hr
    rw [if_neg (by omega)]
    by_cases hm : Params.shortest p.shape < p.wtype * 2
    · rw [if_pos hm]
    · rw [if_neg hm]
      rw [if_pos]
      by_contra hcon
      apply hv
      have hmin : 2 * p.wtype ≤ Params.shortest p.shape := by omega
      refine ⟨hd', (le_shortest_iff hne _).1 hmin, ?_⟩
      by_cases ht : p.wtype = 0
      · simp only [ht, if_true]
        have : maxSteps p.wtype p.shape = 0 := by simp [maxSteps, ht]
        omega
      · rw [if_neg ht]
        exact (steps_le_maxSteps_iff hne ht hmin).1 (by omega)

theorem ctor_eq {p : Params} (hr : RepresentableType p) :
    (ValidParams p ∧ ctor (α := α) p = .ok (emptyBuffer p)) ∨ (¬ ValidParams p ∧ ctor (α := α) p = .throw) := by
  by_cases h : ValidParams p
  · exact .inl ⟨h, ctor_ok_of_valid h hr⟩
  · exact .inr ⟨h, ctor_throw_of_not_valid h hr⟩

theorem ctor_valid_of_ok {p : Params} {b : Buffer α} (h : ctor p = .ok b) :
    ValidParams p ∧ RepresentableType p ∧ b = emptyBuffer p := by
  by_cases hr : RepresentableType p
  · rcases ctor_eq (α := α) hr with ⟨hv, he⟩ | ⟨_, he⟩
    · rw [he] at h; cases h; exact ⟨hv, hr, rfl⟩
    · rw [he] at h; cases h
  · exfalso
    unfold ctor at h
    unfold RepresentableType at hr
    split_ifs at h <;> omega

theorem getD_replicate_lt {β : Type} {n i : ℕ} (a d : β) (h : i < n) : (List.replicate n a).getD i d = a := by
  simp [List.getD, h]

theorem ctorWith_ok_iff {p : Params} (hr : RepresentableType p) (decs : Decs α) (b : Buffer α) :
    ctorWith p decs = .ok b ↔
      ValidParams p ∧ decs.length = p.signalNumber ∧ (∀ c ∈ decs, c.length = subbandCount p) ∧ b = ⟨p, decs⟩ := by
  unfold ctorWith
  rcases ctor_eq (α := α) hr with ⟨hv, he⟩ | ⟨hv, he⟩
  · rw [he]
    simp only [Outcome.bind_ok, emptyBuffer, hv, true_and]
    by_cases hl : p.signalNumber ≠ decs.length
    · rw [if_pos hl]; simp; intro h; exact absurd h.symm hl
    · rw [if_neg hl]
      push Not at hl
      by_cases hany : ((List.range (List.replicate p.signalNumber (List.replicate (subbandCount p)
          (Mat.empty : Mat α))).length).any (fun n =>
        ((List.replicate p.signalNumber (List.replicate (subbandCount p) (Mat.empty : Mat α))).getD n []).length ≠
          (decs.getD n []).length)) = true
      · rw [if_pos hany]
        constructor
        · intro h; cases h
        · rintro ⟨_, h2, _⟩
          exfalso
          rw [List.any_eq_true] at hany
          obtain ⟨n, hn, hh⟩ := hany
          simp only [List.length_replicate, List.mem_range] at hn
          rw [getD_replicate_lt _ _ hn] at hh
          have hn' : n < decs.length := by omega
          have := h2 (decs[n]) (List.getElem_mem hn')
          simp [List.getD, hn'] at hh
          exact hh this.symm
      · rw [if_neg hany]
        constructor
        · intro h
          cases h
          refine ⟨hl.symm, ?_, rfl⟩
          intro c hc
          obtain ⟨n, hn, rfl⟩ := List.getElem_of_mem hc
          by_contra hne
          apply hany
          rw [List.any_eq_true]
          refine ⟨n, by simp; omega, ?_⟩
          rw [getD_replicate_lt _ _ (by omega)]
          simp [List.getD, hn]
          omega
        · rintro ⟨_, _, rfl⟩; rfl
  · rw [he]
    simp [hv]

theorem ctorWith_throw {p : Params} (hr : RepresentableType p) (decs : Decs α)
    (h : ¬ (ValidParams p ∧ decs.length = p.signalNumber ∧ ∀ c ∈ decs, c.length = subbandCount p)) :
    ctorWith p decs = .throw := by
  have key : ∀ b, ctorWith p decs ≠ .ok b := by
    intro b hb
    rw [ctorWith_ok_iff hr] at hb
    exact h ⟨hb.1, hb.2.1, hb.2.2.1⟩
  have hub : ctorWith p decs ≠ .ub := by
    unfold ctorWith
    rcases ctor_eq (α := α) hr with ⟨hv, he⟩ | ⟨hv, he⟩ <;> rw [he]
    · simp only [Outcome.bind_ok]
      split_ifs <;> simp
    · simp
  cases hc : ctorWith p decs with
  | ok b => exact absurd hc (key b)
  | throw => rfl
  | ub => exact absurd hc hub

/-! ### padded size -/

theorem paddedDim_spec (steps n : ℕ) (h : 0 < n) :
    2 ^ steps ∣ paddedDim steps n ∧ n ≤ paddedDim steps n ∧ paddedDim steps n < n + 2 ^ steps := by
  unfold paddedDim
  have hp : 0 < 2 ^ steps := by positivity
  generalize 2 ^ steps = m at *
  have h1 := Nat.div_add_mod (n - 1) m
  have h2 := Nat.mod_lt (n - 1) hp
  refine ⟨Dvd.intro _ rfl, ?_, ?_⟩ <;> rw [Nat.mul_add] <;> omega

theorem paddedDim_least (steps n m : ℕ) (h : 0 < n) (hd : 2 ^ steps ∣ m) (hm : n ≤ m) : paddedDim steps n ≤ m := by
  obtain ⟨h1, h2, h3⟩ := paddedDim_spec steps n h
  have hp : 0 < 2 ^ steps := by positivity
  obtain ⟨a, ha⟩ := h1
  obtain ⟨b, hb⟩ := hd
  rw [ha] at h3 ⊢
  subst hb
  by_contra hcon
  have : b + 1 ≤ a := by
    by_contra h
    have : a ≤ b := by omega
    have := Nat.mul_le_mul_left (2 ^ steps) this
    omega
  have := Nat.mul_le_mul_left (2 ^ steps) this
  rw [Nat.mul_add] at this
  omega

/-! ### comparison -/

theorem vecLt_irrefl (a : List ℕ) : Params.vecLt a a = false := by
  induction a with
  | nil => rfl
  | cons x a ih => simp [Params.vecLt, ih]

theorem vecLt_trans {a b c : List ℕ} (h1 : Params.vecLt a b = true) (h2 : Params.vecLt b c = true) :
    Params.vecLt a c = true := by
  induction a generalizing b c with
  | nil =>
    cases c with
    | nil => cases b <;> simp [Params.vecLt] at h2
    | cons z c => rfl
  | cons x a ih =>
    cases b with
    | nil => simp [Params.vecLt] at h1
    | cons y b =>
      cases c with
      | nil => simp [Params.vecLt] at h2
      | cons z c =>
        simp only [Params.vecLt] at h1 h2 ⊢
        by_cases hxz : x < z
        · simp [hxz]
        · split_ifs at h1 h2 <;> try omega
          rw [if_neg hxz, if_neg (by omega)]
          exact ih h1 h2

theorem vecLt_total (a b : List ℕ) : Params.vecLt a b = true ∨ a = b ∨ Params.vecLt b a = true := by
  induction a generalizing b with
  | nil => cases b <;> simp [Params.vecLt]
  | cons x a ih =>
    cases b with
    | nil => simp [Params.vecLt]
    | cons y b =>
      simp only [Params.vecLt]
      rcases Nat.lt_trichotomy x y with h | h | h
      · simp [h]
      · subst h; simpa using ih b
      · simp [h]

theorem vecLt_asymm {a b : List ℕ} (h : Params.vecLt a b = true) : Params.vecLt b a = false := by
  by_contra hc
  have := vecLt_trans h (by simpa using hc)
  rw [vecLt_irrefl] at this
  cases this

theorem ltOp_iff (a b : Params) : Params.ltOp a b = true ↔
    Params.vecLt a.shape b.shape = true ∨ (a.shape = b.shape ∧ (a.signalNumber < b.signalNumber ∨
      (a.signalNumber = b.signalNumber ∧ (a.steps < b.steps ∨ (a.steps = b.steps ∧ a.wtype < b.wtype))))) := by
  unfold Params.ltOp
  rcases vecLt_total a.shape b.shape with h | h | h
  · simp [h]
  · rw [h, vecLt_irrefl]
    simp only [Bool.false_eq_true, if_false, false_or, true_and]
    split_ifs <;> simp <;> omega
  · have h' := vecLt_asymm h
    have hne : a.shape ≠ b.shape := by
      intro he; rw [he, vecLt_irrefl] at h; cases h
    simp [h, h', hne]

end WB
