import Verif.Model.FloatMetrics

/-!
Vocabulary for the rounding errors of distances and energies.
-/

namespace WB.Spec

/-- The number of subbands of all channels. -/
def bandCount {α : Type} (d : Decs α) : ℕ := (d.map List.length).sum

/-- The number of values in all subbands of all channels. -/
def valueCount {α : Type} (d : Decs α) : ℕ := (d.map fun c => (c.map fun m => m.rows * m.cols).sum).sum

/-- All values are finite and at most `M` in size. -/
def FiniteWithin (M : ℝ) (b : Buffer F32) : Prop :=
  ∀ c ∈ b.decs, ∀ m ∈ c, ∀ i < m.rows, ∀ j < m.cols, finiteBits (m.get i j) ∧ |((number (m.get i j) : ℚ) : ℝ)| ≤ M

/-- For every subband that is not empty, an order of adding up its values, each exactly once, with at most `k` additions one after the other. -/
def OrdersFor (order : ℕ → ℕ → SumOrder) (k : ℕ) (d : Decs F32) : Prop :=
  ∀ (ch l : ℕ) (c : List (Mat F32)) (m : Mat F32), d[ch]? = some c → c[l]? = some m → 0 < m.rows * m.cols →
    (order ch l).Covers (m.rows * m.cols) ∧ (order ch l).depth ≤ k

/-- The largest factor by which rounding can change a mean of squares: `k` additions one after the other in `float`, ten more operations in `float`, and
`s + 2` operations in `double`. -/
noncomputable def roundGrowth (k s : ℕ) : ℝ := (1 + 1 / 2 ^ 24) ^ (k + 10) * (1 + 1 / 2 ^ 52) ^ (s + 2)

end WB.Spec
