import Verif.Model.FloatDenoise
import Verif.Model.Callback

/-!
`SimpleDenoiseAlgorithm<float>` with what `std::nth_element` requires of its comparison, and as a denoiser that `Decompose` calls.
-/

namespace WB

/-- What the sorting functions of the C++ library require of a comparison on the elements they are given (`[alg.sorting]`): a strict weak
ordering. Otherwise the call is undefined, and implementations may leave the range. (The requirement holds for every call; implementations that
return at once when the position is the end of the range do not use the comparison when the compression level is 0.) -/
structure StrictWeakOn {β : Type} (less : β → β → Prop) (v : List β) : Prop where
  irrefl : ∀ x ∈ v, ¬ less x x
  trans : ∀ x ∈ v, ∀ y ∈ v, ∀ z ∈ v, less x y → less y z → less x z
  tie : ∀ x ∈ v, ∀ y ∈ v, ∀ z ∈ v, ¬ less x y → ¬ less y x → ¬ less y z → ¬ less z y → ¬ less x z ∧ ¬ less z x

/-- The comparison `std::get<0>(a) > std::get<0>(b)`, wavelet_buffer/denoise_algorithms.h:155 and 189. -/
def largerFirst (o : FloatOps) {δ : Type} (a b : F32 × δ) : Prop := @LT.lt (Bits o) _ b.1 a.1

/-- The array `values`, wavelet_buffer/denoise_algorithms.h:175-178. -/
def values1 (data : List F32) : List (F32 × ℕ) := (List.range data.length).map fun i => (absBits (data.getD i default), i)

/-- The array `values`, wavelet_buffer/denoise_algorithms.h:138-144. The order of its elements does not matter for the comparison. -/
def values2 (data : Mat F32) : List (F32 × ℕ × ℕ) :=
  (List.range data.rows).flatMap fun i => (List.range data.cols).map fun j => (absBits (data.get i j), i, j)

section
variable (o : FloatOps) (nth1 : List (F32 × ℕ) → ℕ → List (F32 × ℕ)) (nth2 : List (F32 × ℕ × ℕ) → ℕ → List (F32 × ℕ × ℕ))

/-- `SimpleDenoiseAlgorithm<float>::Denoise(Signal1D)`, wavelet_buffer/denoise_algorithms.h:173-201, as `simple1`, undefined where the call of
`std::nth_element` is. -/
noncomputable def simple1Checked (level : F32) (data : List F32) : Outcome (List F32) :=
  open Classical in
  if StrictWeakOn (largerFirst o) (values1 data) then simple1 (α := Bits o) (bitsSimple o nth1 nth2) level data else .ub

/-- `SimpleDenoiseAlgorithm<float>::Denoise(Signal2D)`, wavelet_buffer/denoise_algorithms.h:136-167, as `simple2`, undefined where the call of
`std::nth_element` is. -/
noncomputable def simple2Checked (level : F32) (data : Mat F32) : Outcome (Mat F32) :=
  open Classical in
  if StrictWeakOn (largerFirst o) (values2 data) then simple2 (α := Bits o) (bitsSimple o nth1 nth2) level data else .ub

/-- `SimpleDenoiseAlgorithm<float>(level)` as `Decompose` calls it; the step is not used. -/
noncomputable def simpleCallback (level : F32) : Callback Unit (Bits o) :=
  ⟨fun _ v _ => ((), simple1Checked o nth1 nth2 level v), fun _ m _ => ((), simple2Checked o nth1 nth2 level m)⟩

end

end WB
