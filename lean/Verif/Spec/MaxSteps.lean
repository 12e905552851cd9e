import Mathlib.Analysis.SpecialFunctions.Log.Base
import Verif.Spec.Pixel

/-!
Vocabulary for the number of steps as it is computed.
-/

namespace WB.Spec

/-- What is used of `std::log2`: it does not fall short of a whole number that the logarithm reaches (for instance because it is exact at powers of
two and monotone), and for arguments from 1 to 2^64 it is at most 2^-47 too large (one unit in the last place of results from 32 to 64). -/
structure Log2Accurate (log2 : ℝ → ℝ) : Prop where
  reaches : ∀ (k : ℕ) (x : ℝ), 2 ^ k ≤ x → (k : ℝ) ≤ log2 x
  near : ∀ x : ℝ, 1 ≤ x → x ≤ 2 ^ 64 → log2 x ≤ Real.logb 2 x + 2 ^ (-47 : ℤ)

end WB.Spec
