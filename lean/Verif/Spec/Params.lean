import Verif.Model.Params

/-!
What a valid parameter set is, in the words of the user: no reference to the constructor or its helpers.
-/

namespace WB.Spec

/-- Valid parameters: one or two dimensions, every side at least twice the order of the wavelet, and
`2^steps * (2 order - 1)` not above any side (no steps at all without a wavelet). -/
def ValidParams (p : Params) : Prop :=
  (p.shape.length = 1 ∨ p.shape.length = 2) ∧
  (∀ n ∈ p.shape, 2 * p.wtype ≤ n) ∧
  (if p.wtype = 0 then p.steps = 0 else ∀ n ∈ p.shape, 2 ^ p.steps * (2 * p.wtype - 1) ≤ n)

/-- Number of detail subbands per step: one for signals, three for images. -/
def detailsPerStep (p : Params) : ℕ := if p.shape.length = 1 then 1 else 3

/-- Number of subbands of a channel. -/
def subbandCount (p : Params) : ℕ := p.steps * detailsPerStep p + 1

/-- The wavelet type is a value whose double fits in a C++ `int` (the enum holds 0..5). -/
def RepresentableType (p : Params) : Prop := p.wtype < 2 ^ 30

end WB.Spec
