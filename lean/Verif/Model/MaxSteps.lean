import Mathlib.Analysis.SpecialFunctions.Log.Base
import Verif.Model.Buffer

/-!
The greatest number of steps as it is computed, in `double`.
-/

namespace WB

variable {α : Type}

/-- `CalculateMaxDecompositionSteps`, sources/wavelet_utils.cc:119-133, for a wavelet and a shape for which the result is not negative: the
shortest side (`size_t`) is converted to `double`, divided by `2 * type - 1` (exact), and `std::log2` of the quotient is rounded down. `rnd` is
the rounding of the conversion and of the division, `log2` the function of the library. -/
noncomputable def maxStepsDouble (rnd log2 : ℝ → ℝ) (wtype : ℕ) (shape : List ℕ) : ℤ :=
  if wtype = 0 then 0 else ⌊log2 (rnd (rnd (Params.shortest shape) / (2 * wtype - 1)))⌋

/-- `Impl(WaveletParameters)`, sources/wavelet_buffer.cc:28-65, as `ctor`, but with the number of steps as it is computed. -/
noncomputable def ctorDouble (rnd log2 : ℝ → ℝ) (p : Params) : Outcome (Buffer α) :=
  if p.dimension ≠ 2 ∧ p.dimension ≠ 1 then .throw
  else if 2 ^ 30 ≤ p.wtype then .ub
  else if Params.shortest p.shape < p.wtype * 2 then .throw
  else if (p.steps : ℤ) > maxStepsDouble rnd log2 p.wtype p.shape then .throw
  else
    let p' := { p with steps := if p.wtype ≠ 0 then p.steps else 0 }
    .ok { params := p'
          decs := List.replicate p'.signalNumber (List.replicate (decompositionSize p') Mat.empty) }

end WB
