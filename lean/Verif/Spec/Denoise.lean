import Verif.Model.Denoise
import Mathlib.Data.Finset.Card

/-!
Vocabulary for statements about the denoisers.
-/

namespace WB.Spec

/-- What `std::nth_element` with the comparison "larger key first" promises: the same elements in another order, and no
element from position `n` on has a larger key than one before position `n`. -/
def NthContract {α β : Type} [LT α] (key : β → α) (input : List β) (n : ℕ) (out : List β) : Prop :=
  out.Perm input ∧ ∀ (i j : ℕ) (x y : β), i < n → n ≤ j → out[i]? = some x → out[j]? = some y → ¬ key x < key y

/-- `r` is `data` with the entries outside `kept` replaced by zero; `kept` has `count` entries and no dropped entry is larger
in magnitude than a kept one. -/
structure KeepsLargest {α : Type} [Zero α] [Inhabited α] [LT α] (abs : α → α) (count : ℕ) (data r : Mat α) : Prop where
  rows : r.rows = data.rows
  cols : r.cols = data.cols
  kept : ∃ kept : Finset (ℕ × ℕ), (∀ p ∈ kept, p.1 < data.rows ∧ p.2 < data.cols) ∧ kept.card = count ∧
    (∀ i < data.rows, ∀ j < data.cols, r.get i j = if (i, j) ∈ kept then data.get i j else 0) ∧
    ∀ p ∈ kept, ∀ i < data.rows, ∀ j < data.cols, (i, j) ∉ kept → ¬ abs (data.get p.1 p.2) < abs (data.get i j)

end WB.Spec
