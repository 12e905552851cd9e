import Verif.Model.Outcome

/-!
Model of `wavelet_buffer/wavelet_parameters.h` and of the size computations in `sources/wavelet_utils.cc`.
-/

namespace WB

/-- `WaveletParameters`, wavelet_buffer/wavelet_parameters.h:34-38.
`wtype` is the integer value of the enum (0 = none, `n` = Daubechies `n`). Negative values can only come out of
`Parse`; they are dealt with there. -/
structure Params where
  shape : List ℕ
  signalNumber : ℕ
  steps : ℕ
  wtype : ℕ
  deriving DecidableEq, Repr

namespace Params

/-- `dimension()`, wavelet_parameters.h:62. -/
def dimension (p : Params) : ℕ := p.shape.length

/-- `*std::min_element(begin, end)` of a non-empty shape. -/
def shortest : List ℕ → ℕ
  | [] => 0
  | [n] => n
  | n :: l => min n (shortest l)

/-- `operator==`, wavelet_parameters.h:40-45. -/
def eqOp (a b : Params) : Bool :=
  a.shape == b.shape && a.signalNumber == b.signalNumber && a.steps == b.steps && a.wtype == b.wtype

/-- `operator!=`, wavelet_parameters.h:47-49. -/
def neOp (a b : Params) : Bool := !(eqOp b a)

/-- `std::vector<size_t>` comparison `a < b`: lexicographic, a proper prefix is smaller. -/
def vecLt : List ℕ → List ℕ → Bool
  | _, [] => false
  | [], _ :: _ => true
  | x :: xs, y :: ys => if x < y then true else if y < x then false else vecLt xs ys

/-- `operator<` through `std::tie`, wavelet_parameters.h:51-56: the first component that differs decides. -/
def ltOp (a b : Params) : Bool :=
  if vecLt a.shape b.shape then true else if vecLt b.shape a.shape then false
  else if a.signalNumber < b.signalNumber then true else if b.signalNumber < a.signalNumber then false
  else if a.steps < b.steps then true else if b.steps < a.steps then false
  else decide (a.wtype < b.wtype)

/-- `operator>`, wavelet_parameters.h:58. -/
def gtOp (a b : Params) : Bool := ltOp b a
/-- `operator<=`, wavelet_parameters.h:59. -/
def leOp (a b : Params) : Bool := !(ltOp b a)
/-- `operator>=`, wavelet_parameters.h:60. -/
def geOp (a b : Params) : Bool := !(ltOp a b)

end Params

/-- `CalculateMaxDecompositionSteps`, sources/wavelet_utils.cc:119-133.
`floor(log2(min / (2 type - 1)))`, computed there in `double`, is computed exactly here: it equals
`Nat.log2 (min / (2 type - 1))` as long as `min ≥ 2 type - 1`, which the constructor has checked before. (In doubles the
two can only differ for sides around 2^49 and larger.) -/
def maxSteps (wtype : ℕ) (shape : List ℕ) : ℕ :=
  if wtype = 0 then 0 else Nat.log2 (Params.shortest shape / (2 * wtype - 1))

/-- `CalcPaddedSize` for one dimension, sources/wavelet_utils.cc:150-154. The callers pass the buffer's own
`decomposition_steps`, which is never negative, so `actual_steps` is that number. -/
def paddedDim (steps n : ℕ) : ℕ := 2 ^ steps * ((n - 1) / 2 ^ steps + 1)

/-- `CalcPaddedSize`, sources/wavelet_utils.cc:139-160. -/
def paddedShape (p : Params) : List ℕ :=
  if p.wtype ≠ 0 then p.shape.map (paddedDim p.steps) else p.shape

/-- `SubbandsPerWaveletTransform`, sources/wavelet_utils.cc:442-444. -/
def subbandsPerWT (p : Params) : ℕ := if p.dimension = 1 then 1 else 3

/-- `DecompositionSize`, sources/wavelet_utils.cc:491-494. -/
def decompositionSize (p : Params) : ℕ := p.steps * subbandsPerWT p + 1

end WB
