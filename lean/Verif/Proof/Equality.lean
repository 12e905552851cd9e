import Verif.Model.Equality
import Mathlib.Data.List.Forall2

/-!
Helper lemmas for C54.
-/

namespace WB

variable {α : Type}

theorem zipWith_all_iff {β : Type} (eq : β → β → Bool) : ∀ a b : List β, a.length = b.length →
    ((List.zipWith eq a b).all id = true ↔ List.Forall₂ (fun x y => eq x y = true) a b)
  | [], [], _ => by simp
  | x :: a, y :: b, h => by
    have := zipWith_all_iff eq a b (by simpa using h)
    simp only [List.zipWith_cons_cons, List.all_cons, Bool.and_eq_true, id, this, List.forall₂_cons]
  | [], _ :: _, h => by simp at h
  | _ :: _, [], h => by simp at h

theorem vecEq_iff {β : Type} (eq : β → β → Bool) (a b : List β) :
    vecEq eq a b = true ↔ List.Forall₂ (fun x y => eq x y = true) a b := by
  unfold vecEq
  rw [Bool.and_eq_true, beq_iff_eq]
  constructor
  · rintro ⟨h1, h2⟩
    exact (zipWith_all_iff eq a b h1).1 h2
  · intro h
    exact ⟨h.length_eq, (zipWith_all_iff eq a b h.length_eq).2 h⟩

theorem forall₂_getD {β : Type} {R : β → β → Prop} [Inhabited β] {a b : List β} :
    List.Forall₂ R a b ↔ a.length = b.length ∧ ∀ k < a.length, R (a.getD k default) (b.getD k default) := by
  rw [List.forall₂_iff_get]
  constructor
  · rintro ⟨h1, h2⟩
    refine ⟨h1, fun k hk => ?_⟩
    have := h2 k hk (h1 ▸ hk)
    simpa [List.getD, hk, (h1 ▸ hk : k < b.length)] using this
  · rintro ⟨h1, h2⟩
    refine ⟨h1, fun k hk hk' => ?_⟩
    have := h2 k hk
    simpa [List.getD, hk, hk'] using this

theorem matEq_iff [Inhabited α] (eq : α → α → Bool) (a b : Mat α) :
    matEq eq a b = true ↔ a.rows = b.rows ∧ a.cols = b.cols ∧
      ∀ i < a.rows, ∀ j < a.cols, eq (a.get i j) (b.get i j) = true := by
  unfold matEq
  rw [Bool.and_eq_true, Bool.and_eq_true, beq_iff_eq, beq_iff_eq, and_assoc]
  refine and_congr_right fun hr => and_congr_right fun hc => ?_
  have hl : a.data.length = b.data.length := by rw [a.wf, b.wf, hr, hc]
  rw [zipWith_all_iff _ _ _ hl, forall₂_getD]
  constructor
  · rintro ⟨_, h⟩ i hi j hj
    have := h (i * a.cols + j) (by rw [a.wf]; exact Mat.idx_lt hi hj)
    unfold Mat.get
    rw [← hc]; exact this
  · intro h
    refine ⟨hl, fun k hk => ?_⟩
    rw [a.wf] at hk
    have hc0 : 0 < a.cols := by
      rcases Nat.eq_zero_or_pos a.cols with h0 | h0
      · rw [h0] at hk; simp at hk
      · exact h0
    have := h (k / a.cols) (Nat.div_lt_of_lt_mul (by rwa [Nat.mul_comm])) (k % a.cols) (Nat.mod_lt _ hc0)
    unfold Mat.get at this
    rw [← hc, Nat.mul_comm, Nat.div_add_mod] at this
    exact this

end WB
