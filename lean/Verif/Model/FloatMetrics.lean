import Verif.Model.FloatBits
import Verif.Model.Metrics

/-!
`Distance` and `EnergyDistribution` (sources/wavelet_utils.cc:447-522) with rounding, on the stored bit patterns. Blaze adds up in an order of its own
(several partial sums side by side, in vector registers); the order of every sum is a parameter.
-/

namespace WB

open Spec

/-- An order of adding up terms. Adding to a partial sum that is still the initial 0 is exact and not an addition here. -/
inductive SumOrder where
  | term (k : ℕ)
  | plus (a b : SumOrder)

namespace SumOrder

/-- The numbers of the terms. -/
def terms : SumOrder → List ℕ
  | term k => [k]
  | plus a b => a.terms ++ b.terms

/-- The longest chain of additions. -/
def depth : SumOrder → ℕ
  | term _ => 0
  | plus a b => max a.depth b.depth + 1

/-- Every one of `n` terms is added exactly once. -/
def Covers (o : SumOrder) (n : ℕ) : Prop := o.terms.Perm (List.range n)

/-- The sum computed in that order. -/
def eval {β : Type} [Add β] [Inhabited β] (xs : List β) : SumOrder → β
  | term k => xs.getD k default
  | plus a b => a.eval xs + b.eval xs

end SumOrder

/-- A stored value as a number with overflow. -/
noncomputable def floatOf (r : Rounding) (x : F32) : Ov r.toFloat maxFloat :=
  open Classical in if finiteBits x then Ov.of (number x : ℚ) else none

/-- `b - a` of two matrices of `float`; Blaze throws when the sizes differ. -/
noncomputable def floatSub (r : Rounding) (b a : Mat F32) : Outcome (List (Ov r.toFloat maxFloat)) :=
  if b.rows = a.rows ∧ b.cols = a.cols then .ok (List.zipWith (fun y x => floatOf r y + -floatOf r x) b.data a.data) else .throw

/-- `blaze::norm` of a matrix of `float`: squares and their sum in `float`, correctly rounded square root; 0 for an empty matrix. -/
noncomputable def floatNorm (r : Rounding) (o : SumOrder) (d : List (Ov r.toFloat maxFloat)) : Option ℝ :=
  if d.isEmpty then some 0 else Option.map (fun s => r.toFloat (Real.sqrt s)) (o.eval (β := Ov r.toFloat maxFloat) (d.map fun x => x * x))

/-- `result += std::pow(norm, 2)` in `double`, sources/wavelet_utils.cc:463; `sq` is `std::pow(·, 2)`. An infinity or NaN stays one. The numbers are
far below the largest `double`. -/
noncomputable def addSquare (r : Rounding) (sq : ℝ → ℝ) : Option ℝ → Option ℝ → Option ℝ
  | some acc, some n => some (r.toDouble (acc + sq n))
  | _, _ => none

/-- `Distance`, sources/wavelet_utils.cc:447-489; `none` is an infinity or NaN. `order ch i` is the order of the sum for subband `i` of channel `ch`. -/
noncomputable def floatDistance (r : Rounding) (sq : ℝ → ℝ) (order : ℕ → ℕ → SumOrder) (a b : Buffer F32) : Outcome (Option ℝ) :=
  if a.params.steps = b.params.steps then do
    let ret ← (List.range a.decs.length).foldlM (fun acc ch => do
      let x ← rd a.decs ch
      let y ← rd b.decs ch
      (List.range x.length).foldlM (fun acc i => do
        let m ← rd x i
        let n ← rd y i
        let d ← floatSub r n m
        pure (addSquare r sq acc (floatNorm r (order ch i) d))) acc) (some 0)
    let n : ℕ := a.params.signalNumber * signalSize a.params.shape % 2 ^ 64
    pure (if n = 0 then none else ret.bind fun s => Ov.round r.toFloat maxFloat (r.toDouble (s / r.toDouble (n : ℝ))))
  else .ok none

/-- Numbers of type `double`, rounded by `rnd`; `none` is an infinity or NaN. Results are far below the largest `double`. -/
def Dbl (_rnd : ℝ → ℝ) : Type := Option ℝ

namespace Dbl
variable {rnd : ℝ → ℝ}

noncomputable instance : Add (Dbl rnd) := ⟨fun x y => Option.bind x fun s => Option.map (fun t => rnd (s + t)) y⟩
noncomputable instance : Mul (Dbl rnd) := ⟨fun x y => Option.bind x fun s => Option.map (fun t => rnd (s * t)) y⟩
noncomputable instance : Inhabited (Dbl rnd) := ⟨some (0 : ℝ)⟩

end Dbl

/-- A stored value converted to `double`. -/
noncomputable def doubleOf {rnd : ℝ → ℝ} (x : F32) : Dbl rnd :=
  open Classical in if finiteBits x then (some ((number x : ℚ) : ℝ) : Option ℝ) else none

/-- One entry of `EnergyDistribution`, sources/wavelet_utils.cc:511-514: the subband is copied into a sparse matrix of `double` (a value that is not 0
is kept), multiplied with itself entry by entry and added up in `double`, and converted to `float`. -/
noncomputable def floatEnergy (r : Rounding) (o : SumOrder) (m : Mat F32) : Ov r.toFloat maxFloat :=
  let kept := m.data.filter fun x => number x != 0
  Option.bind (if kept.isEmpty then some (0 : ℝ) else o.eval (β := Dbl r.toDouble) (kept.map fun x => doubleOf x * doubleOf x))
    fun s => Ov.round r.toFloat maxFloat s

/-- `EnergyDistribution`, sources/wavelet_utils.cc:496-522. -/
noncomputable def floatEnergies (r : Rounding) (order : ℕ → ℕ → SumOrder) (b : Buffer F32) : List (List (Ov r.toFloat maxFloat)) :=
  if b.isEmpty then [] else b.decs.mapIdx fun ch c => c.mapIdx fun i m => floatEnergy r (order ch i) m

end WB
