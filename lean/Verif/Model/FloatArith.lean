import Verif.Spec.Pixel
import Verif.Model.Coeffs

/-!
Arithmetic with rounding. The transforms are written for every scalar type; with `Fl a` as scalar type they are the loops of the C++
code with the additions and multiplications of `a` in the order of the loops (sources/wavelet.cc:321-399). In two dimensions (sources/wavelet.cc:271-318) the
loops are those of Blaze: sparse matrix times dense vector, read as the sum of the products in storage order. Multiply-and-add instructions
and sums kept in registers of higher precision are not covered. The numbers `Fl a` are real numbers: there is no overflow. The numbers
`Ov rnd Ω` further below have it.
-/

namespace WB

/-- Addition and multiplication of a floating point arithmetic. -/
structure Arith where
  add : ℝ → ℝ → ℝ
  mul : ℝ → ℝ → ℝ

/-- The numbers an arithmetic works with. -/
def Fl (_ : Arith) : Type := ℝ

namespace Fl
variable {a : Arith}

/-- The real number. -/
def val (x : Fl a) : ℝ := x

/-- A real number as a number of the arithmetic. -/
def of (x : ℝ) : Fl a := x

noncomputable instance : Zero (Fl a) := ⟨(0 : ℝ)⟩
instance : Add (Fl a) := ⟨a.add⟩
instance : Mul (Fl a) := ⟨a.mul⟩
noncomputable instance : Neg (Fl a) := ⟨fun x => (-x.val : ℝ)⟩
noncomputable instance : Inhabited (Fl a) := ⟨(0 : ℝ)⟩

end Fl

/-- Every result is the exact one rounded by `rnd`. -/
noncomputable def Arith.rounded (rnd : ℝ → ℝ) : Arith := ⟨fun x y => rnd (x + y), fun x y => rnd (x * y)⟩

/-- The standard model of rounding: relative error at most `u`, and an absolute error at most `ω` for results that are too small. -/
def Arith.Std (a : Arith) (u ω : ℝ) : Prop :=
  (∀ x y, |a.add x y - (x + y)| ≤ u * |x + y| + ω) ∧ ∀ x y, |a.mul x y - x * y| ≤ u * |x * y| + ω

/-- The coefficients as the program has them: the decimals of `dbwavf` are `double` literals stored in a vector of `float`
(sources/wavelet.cc:158-217); `std::sqrt(2) * x[i]` is computed in `double` and stored as `float` (line 249). The division by the gain
(sources/wavelet_utils.cc:428-435) is only used for scales above 0; it is read as one correctly rounded division. -/
noncomputable def floatKit (r : Rounding) : Kit (Fl (Arith.rounded r.toFloat)) where
  dbwavf t := (dbCoeffs t).map (fun q : ℚ => Fl.of (r.toFloat (r.toDouble (q : ℝ))))
  mulSqrt2 x := Fl.of (r.toFloat (r.toDouble (r.toDouble (Real.sqrt 2) * x.val)))
  divFactor flag s x := Fl.of (r.toFloat (x.val / (if flag then 2 else Real.sqrt 2) ^ s))

/-- Numbers with overflow: `none` stands for the infinities and NaN. -/
def Ov (_rnd : ℝ → ℝ) (_Ω : ℝ) : Type := Option ℝ

/-- A result rounded by `rnd`, which has no upper limit; it is not finite when it exceeds the largest number `Ω` (IEEE 754, 7.4). -/
noncomputable def Ov.round (rnd : ℝ → ℝ) (Ω x : ℝ) : Ov rnd Ω := if |rnd x| ≤ Ω then some (rnd x) else none

namespace Ov
variable {rnd : ℝ → ℝ} {Ω : ℝ}

/-- A number of the arithmetic. -/
def of (x : ℝ) : Ov rnd Ω := some x

/-- The value, 0 for infinities and NaN. -/
noncomputable def val (x : Ov rnd Ω) : ℝ := Option.getD x 0

/-- Neither infinity nor NaN. -/
def Finite (x : Ov rnd Ω) : Prop := Option.isSome x = true

/-- Sums and products with an infinity or NaN are an infinity or NaN. -/
noncomputable def add : Ov rnd Ω → Ov rnd Ω → Ov rnd Ω
  | some x, some y => Ov.round rnd Ω (x + y)
  | _, _ => none

noncomputable def mul : Ov rnd Ω → Ov rnd Ω → Ov rnd Ω
  | some x, some y => Ov.round rnd Ω (x * y)
  | _, _ => none

noncomputable def neg : Ov rnd Ω → Ov rnd Ω
  | some x => some (-x)
  | none => none

noncomputable instance : Zero (Ov rnd Ω) := ⟨of 0⟩
noncomputable instance : Add (Ov rnd Ω) := ⟨add⟩
noncomputable instance : Mul (Ov rnd Ω) := ⟨mul⟩
noncomputable instance : Neg (Ov rnd Ω) := ⟨neg⟩
noncomputable instance : Inhabited (Ov rnd Ω) := ⟨of 0⟩

end Ov

/-- The largest `float`. -/
def maxFloat : ℝ := (2 ^ 24 - 1) * 2 ^ 104

/-- `floatKit` for numbers with overflow. The coefficients are far from the limits; `mulSqrt2` of an infinity and the division are only
there to be complete. -/
noncomputable def overflowKit (r : Rounding) : Kit (Ov r.toFloat maxFloat) where
  dbwavf t := (dbCoeffs t).map (fun q : ℚ => Ov.round r.toFloat maxFloat (r.toDouble (q : ℝ)))
  mulSqrt2 x := Option.bind x (fun v => Ov.round r.toFloat maxFloat (r.toDouble (r.toDouble (Real.sqrt 2) * v)))
  divFactor flag s x := Option.bind x (fun v => Ov.round r.toFloat maxFloat (v / (if flag then 2 else Real.sqrt 2) ^ s))

end WB
