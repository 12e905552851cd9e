import Verif.Model.FloatFlags
import Verif.Model.FloatDenoise

/-!
The threshold denoiser on bit patterns with marks.
-/

namespace WB

open Spec

/-- `GetThreshold(step) < std::abs(x)`, wavelet_buffer/denoise_algorithms.h:83, 103 and 112, on bit patterns. -/
def AboveThreshold (o : FloatOps) (a b : F32) (s : ℕ) (x : F32) : Prop := LT.lt (α := Bits o) (getThreshold (α := Bits o) a b s) (absBits x)

/-- `GetThreshold`, wavelet_buffer/denoise_algorithms.h:112, with a mark. -/
noncomputable def marksGetThreshold (r : Rounding) (o : FloatOps) (a b : F32) (s : ℕ) : Marked r o :=
  Marked.plain a * Marked.plain (o.store (s : ℝ)) + Marked.plain b

/-- Zero, with the mark of the value that it replaces: the value decided on what it was replaced with. -/
def Marked.cleared {r : Rounding} {o : FloatOps} (x : Marked r o) : Marked r o := ((0#32 : F32), x.mark)

open Classical in
/-- What the denoiser makes of one value. -/
noncomputable def Marked.keepIf {r : Rounding} {o : FloatOps} (p : F32 → Prop) (x : Marked r o) : Marked r o := if p x.bits then x else x.cleared

/-- `ThresholdAbsDenoiseAlgorithm<float>(a, b)`, wavelet_buffer/denoise_algorithms.h:76-112, as in `bitsThreshold`, with marks. -/
noncomputable def marksThreshold (r : Rounding) (o : FloatOps) (a b : F32) : Denoiser (Marked r o) :=
  ⟨fun v s => v.map (Marked.keepIf (AboveThreshold o a b s)), fun m s => m.map (Marked.keepIf (AboveThreshold o a b s))⟩

end WB
