import Verif.Proof.Equality
import Verif.Props.Params

/-!
Property C54: equality of buffers.
-/

namespace WB.Props

open WB

variable {α : Type}

/-- Two matrices of the same size whose corresponding samples are related. -/
def SamplesRelated [Inhabited α] (R : α → α → Prop) (a b : Mat α) : Prop :=
  a.rows = b.rows ∧ a.cols = b.cols ∧ ∀ i < a.rows, ∀ j < a.cols, R (a.get i j) (b.get i j)

/-- C54. Two buffers compare equal exactly when parameters are equal, the layouts agree and corresponding samples compare
equal. -/
theorem C54_equality_meaning [Inhabited α] (eq : α → α → Bool) (a b : Buffer α) :
    Buffer.eqOp eq a b = true ↔
      a.params = b.params ∧
      List.Forall₂ (List.Forall₂ (SamplesRelated (fun x y => eq x y = true))) a.decs b.decs := by
  unfold Buffer.eqOp
  rw [Bool.and_eq_true, C35_params_total_order.2.2.2.1, vecEq_iff]
  refine and_congr_right fun _ => ?_
  have : (fun x y => vecEq (matEq eq) x y = true) =
      List.Forall₂ (SamplesRelated (fun x y : α => eq x y = true)) := by
    funext x y
    rw [vecEq_iff]
    congr 1
    funext m n
    exact propext (matEq_iff eq m n)
  rw [this]

/-- C54. Equality is reflexive on buffers whose samples equal themselves, symmetric whenever the comparison of samples is,
and then `!=` is its negation; equal buffers have equal parameters. -/
theorem C54_reflexive_symmetric [Inhabited α] (eq : α → α → Bool) (a b : Buffer α) :
    ((∀ x, eq x x = true) → Buffer.eqOp eq a a = true) ∧
    ((∀ x y, eq x y = eq y x) → Buffer.eqOp eq a b = Buffer.eqOp eq b a ∧
      Buffer.neOp eq a b = !(Buffer.eqOp eq a b)) ∧
    (Buffer.neOp eq a b = true ↔ ¬ Buffer.eqOp eq b a = true) := by
  have hsym : (∀ x y, eq x y = eq y x) → ∀ a b : Buffer α, Buffer.eqOp eq a b = true → Buffer.eqOp eq b a = true := by
    intro h a b hab
    rw [C54_equality_meaning] at hab ⊢
    refine ⟨hab.1.symm, ?_⟩
    refine (hab.2.imp ?_).flip
    intro c d hcd
    refine (hcd.imp ?_).flip
    rintro m n ⟨h1, h2, h3⟩
    refine ⟨h1.symm, h2.symm, fun i hi j hj => ?_⟩
    show eq _ _ = true
    rw [h]
    exact h3 i (h1 ▸ hi) j (h2 ▸ hj)
  refine ⟨fun h => ?_, fun h => ?_, by simp [Buffer.neOp]⟩
  · rw [C54_equality_meaning]
    refine ⟨rfl, List.forall₂_same.2 fun c _ => List.forall₂_same.2 fun m _ => ⟨rfl, rfl, fun i _ j _ => h _⟩⟩
  · have : Buffer.eqOp eq a b = Buffer.eqOp eq b a :=
      Bool.eq_iff_iff.2 ⟨hsym h a b, hsym h b a⟩
    exact ⟨this, by simp [Buffer.neOp, this]⟩

/-- The comparison Blaze uses for floats is not symmetric in general; the statement is about the buffers as they are. -/
example : ∃ (eq : ℕ → ℕ → Bool) (a b : Buffer ℕ),
    Buffer.eqOp eq a b = true ∧ Buffer.eqOp eq b a = false ∧ a.params = b.params := by
  refine ⟨fun x y => decide (x ≤ y), ⟨⟨[2], 1, 0, 0⟩, [[Mat.ofCol [1, 2]]]⟩,
    ⟨⟨[2], 1, 0, 0⟩, [[Mat.ofCol [1, 3]]]⟩, by decide, by decide, rfl⟩

end WB.Props
