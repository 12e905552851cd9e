import Verif.Model.Buffer
import Mathlib.Analysis.Real.Sqrt
import Mathlib.Order.WithBot

/-!
Model of `Distance` and `EnergyDistribution` (`sources/wavelet_utils.cc:447-522`) and of `GetValueRange`
(`sources/wavelet_buffer.cc:265-278`), over the real numbers: samples and intermediate results are exact.
-/

namespace WB

/-- A floating point result: a number, infinity or NaN. -/
inductive FloatRes where
  | val (x : ℝ)
  | inf
  | nan

/-- `b - a` of two matrices; Blaze throws when the sizes differ. -/
def matSub (b a : Mat ℝ) : Outcome (List ℝ) :=
  if b.rows = a.rows ∧ b.cols = a.cols then .ok (List.zipWith (· - ·) b.data a.data) else .throw

/-- `blaze::norm`: the square root of the sum of the squares. -/
noncomputable def norm2 (xs : List ℝ) : ℝ := Real.sqrt (xs.map (fun x => x * x)).sum

/-- The lambda `CalcDistance`, sources/wavelet_utils.cc:456-468, for one channel from subband 0 on. The loops run over the
left operand; reading a missing subband of the right one is undefined behaviour. -/
noncomputable def channelDistance (a b : Channel ℝ) : Outcome ℝ :=
  (List.range a.length).foldlM (fun acc i => do
    let x ← rd a i
    let y ← rd b i
    let d ← matSub y x
    pure (acc + norm2 d ^ 2)) 0

/-- All channels. -/
noncomputable def calcDistance (a b : Decs ℝ) : Outcome ℝ :=
  (List.range a.length).foldlM (fun acc ch => do
    let x ← rd a ch
    let y ← rd b ch
    let d ← channelDistance x y
    pure (acc + d)) 0

/-- Conversion to a 32-bit `int` (modulo 2^32). -/
def toInt32 (x : ℤ) : ℤ := (x + 2 ^ 31) % 2 ^ 32 - 2 ^ 31

/-- `std::accumulate(begin, end, 1, multiplies<>)`: the accumulator is an `int`, each product is computed in `size_t`
and cut to `int`; the result is converted back to `size_t`. Sources/wavelet_utils.cc:483-485. -/
def signalSize (shape : List ℕ) : ℕ :=
  ((shape.foldl (fun (acc : ℤ) (n : ℕ) => toInt32 (((acc % 2 ^ 64) * n) % 2 ^ 64)) 1) % 2 ^ 64).toNat

/-- Division of a non-negative number by a `size_t`. -/
noncomputable def floatDiv (x : ℝ) (n : ℕ) : FloatRes :=
  if n = 0 then (if x = 0 then .nan else .inf) else .val (x / n)

/-- `Distance`, sources/wavelet_utils.cc:447-489. -/
noncomputable def distance (l r : Buffer ℝ) : Outcome FloatRes :=
  if l.params.steps = r.params.steps then do
    let ret ← calcDistance l.decs r.decs
    pure (floatDiv ret (l.params.signalNumber * signalSize l.params.shape % 2 ^ 64))
  else .ok .nan

/-- `EnergyDistribution`, sources/wavelet_utils.cc:496-522: the subband is copied into a sparse matrix (its nonzeros), squared
entry by entry and summed. -/
noncomputable def energyDistribution (b : Buffer ℝ) : List (List ℝ) :=
  if b.isEmpty then [] else b.decs.map (fun c => c.map (fun m =>
    open Classical in ((m.data.filter (fun x => x ≠ 0)).map (fun x => x * x)).sum))

/-- `GetValueRange`, sources/wavelet_buffer.cc:265-278. Lower and upper factor; `none` as upper factor is infinity
(`pow(2, steps - 1)` with zero steps has the exponent 2^64 - 1). A buffer without channels has no `decompositions_[0]`. -/
noncomputable def getValueRange (b : Buffer ℝ) (index : ℕ) : Outcome (ℝ × Option ℝ) := do
  let c ← rd b.decs 0
  let isApprox := decide (index + 1 = c.length)
  if isApprox then
    (if b.params.steps = 0 then .ok (0, none) else .ok (0, some (2 * 2 ^ (b.params.steps - 1))))
  else .ok (-2 ^ (index / subbandsPerWT b.params), some (2 ^ (index / subbandsPerWT b.params)))

end WB
