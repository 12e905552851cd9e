import Verif.Model.Transform

/-!
Model of the denoisers in `wavelet_buffer/denoise_algorithms.h` (`NullDenoiseAlgorithm` is in `Model/Transform`).
-/

namespace WB

variable {α : Type}

section Threshold
variable [Zero α] [Add α] [Mul α] [NatCast α] [LT α] [DecidableLT α]

/-- `GetThreshold`, wavelet_buffer/denoise_algorithms.h:112. -/
def getThreshold (a b : α) (step : ℕ) : α := a * step + b

/-- `ThresholdAbsDenoiseAlgorithm::Denoise(Signal1D)`, wavelet_buffer/denoise_algorithms.h:98-109: a zero vector in which the
large entries are copied. `abs` is `std::abs` of the sample type. -/
def threshold1 (abs : α → α) (a b : α) (data : List α) (step : ℕ) : List α :=
  data.map fun x => if getThreshold a b step < abs x then x else 0

/-- `ThresholdAbsDenoiseAlgorithm::Denoise(Signal2D)`, wavelet_buffer/denoise_algorithms.h:76-90. -/
def threshold2 (abs : α → α) (a b : α) (data : Mat α) (step : ℕ) : Mat α :=
  data.map fun x => if getThreshold a b step < abs x then x else 0

/-- `ThresholdAbsDenoiseAlgorithm(a, b)`. -/
def thresholdDenoiser (abs : α → α) (a b : α) : Denoiser α := ⟨threshold1 abs a b, threshold2 abs a b⟩

end Threshold

/-! ### `SimpleDenoiseAlgorithm` -/

/-- What the simple denoiser takes from the language and the library: magnitude, conversion of a number to `size_t`
(undefined outside its range) and `std::nth_element` with the comparison by decreasing magnitude (first component). -/
structure SimpleExt (α : Type) where
  abs : α → α
  toSize : α → Outcome ℕ
  nth1 : List (α × ℕ) → ℕ → List (α × ℕ)
  nth2 : List (α × ℕ × ℕ) → ℕ → List (α × ℕ × ℕ)

/-- Write one element of a vector that was allocated without initial values. -/
def putCell {β : Type} (v : List (Option β)) (i : ℕ) (x : β) : Outcome (List (Option β)) :=
  if i < v.length then .ok (v.set i (some x)) else .ub

/-- Hand out a vector all of whose elements must have been written. -/
def cells {β : Type} (v : List (Option β)) : Outcome (List β) :=
  v.mapM fun x => match x with
    | some y => .ok y
    | none => .ub

/-- `slice_index`, wavelet_buffer/denoise_algorithms.h:148-150 and 182-184, in `size_t` arithmetic: for an empty subband
`values.size() - 1` is the largest `size_t`. -/
def sliceIndex [Mul α] [NatCast α] (ext : SimpleExt α) (level : α) (n : ℕ) : Outcome ℕ := do
  let cut ← ext.toSize ((n : α) * level)
  pure (n - min cut (if n = 0 then 2 ^ 64 - 1 else n - 1))

/-- `SimpleDenoiseAlgorithm::Denoise(Signal1D)`, wavelet_buffer/denoise_algorithms.h:173-201. -/
def simple1 [Zero α] [Mul α] [NatCast α] (ext : SimpleExt α) (level : α) (data : List α) : Outcome (List α) := do
  let raw ← (List.range data.length).foldlM (fun v i => do
    let x ← rd data i
    putCell v i (ext.abs x, i)) (List.replicate data.length none)
  let values ← cells raw
  let slice ← sliceIndex ext level values.length
  let sorted := ext.nth1 values slice
  (List.range slice).foldlM (fun r c => do
    let t ← rd sorted c
    let x ← rd data t.2
    if t.2 < r.length then .ok (r.set t.2 x) else .ub) (List.replicate data.length 0)

/-- Element `(i, j)` of a matrix; out of range is undefined behaviour. -/
def matAt [Inhabited α] (m : Mat α) (i j : ℕ) : Outcome α :=
  if i < m.rows ∧ j < m.cols then .ok (m.get i j) else .ub

/-- `m(i, j) = x`; out of range is undefined behaviour. -/
def matPut [Inhabited α] (m : Mat α) (i j : ℕ) (x : α) : Outcome (Mat α) :=
  if i < m.rows ∧ j < m.cols then .ok (Mat.ofFn m.rows m.cols fun a b => if a = i ∧ b = j then x else m.get a b) else .ub

/-- `SimpleDenoiseAlgorithm::Denoise(Signal2D)`, wavelet_buffer/denoise_algorithms.h:136-167. -/
def simple2 [Zero α] [Mul α] [NatCast α] [Inhabited α] (ext : SimpleExt α) (level : α) (data : Mat α) :
    Outcome (Mat α) := do
  let raw ← (List.range data.rows).foldlM (fun v i => (List.range data.cols).foldlM (fun v j => do
    let x ← matAt data i j
    putCell v (i + j * data.rows) (ext.abs x, i, j)) v) (List.replicate (data.rows * data.cols) none)
  let values ← cells raw
  let slice ← sliceIndex ext level values.length
  let sorted := ext.nth2 values slice
  (List.range slice).foldlM (fun r c => do
    let t ← rd sorted c
    let x ← matAt data t.2.1 t.2.2
    matPut r t.2.1 t.2.2 x) (Mat.ofFn data.rows data.cols fun _ _ => 0)

end WB
