import Verif.Model.Buffer
import Verif.Spec.Params
import Mathlib.Algebra.BigOperators.Group.Finset.Basic
import Mathlib.Algebra.Ring.Defs

/-!
Vocabulary for statements about decomposition and composition, written without the helpers of the model.
-/

namespace WB.Spec

open Finset

variable {α : Type}

/-- A matrix holds a signal of the given shape: `n` samples in one column, or an image of width `w` and height `h`. -/
def HasShape : List ℕ → Mat α → Prop
  | [n], m => m.rows = n ∧ m.cols = 1
  | [w, h], m => m.rows = h ∧ m.cols = w
  | _, _ => False

/-- The data are a signal for these parameters: right number of channels, every channel of the declared shape. -/
def IsSignal (p : Params) (data : List (Mat α)) : Prop :=
  data.length = p.signalNumber ∧ ∀ m ∈ data, HasShape p.shape m

/-- The denoiser does not change sizes. -/
def KeepsSizes (den : Denoiser α) : Prop :=
  (∀ v s, (den.d1 v s).length = v.length) ∧ ∀ m s, (den.d2 m s).rows = m.rows ∧ (den.d2 m s).cols = m.cols

/-- The layout of a buffer: valid parameters, one list of subbands per channel, each of the prescribed length. -/
def WellFormed (b : Buffer α) : Prop :=
  ValidParams b.params ∧ b.decs.length = b.params.signalNumber ∧ ∀ c ∈ b.decs, c.length = subbandCount b.params

/-- The filter table has the `2 order` coefficients of the wavelet in use. -/
def FilterPresent (k : Kit α) (p : Params) : Prop := p.wtype ≠ 0 → (k.dbwavf p.wtype).length = 2 * p.wtype

/-- The scaling filter the transforms use: the tabulated one times √2. -/
def scalingFilter (k : Kit α) (p : Params) : List α := (k.dbwavf p.wtype).map k.mulSqrt2

/-- Orthonormal with respect to even shifts: `Σ h_k h_{k+2m}` is 1 for `m = 0` and 0 otherwise. -/
def EvenShiftOrthonormal {R : Type} [CommRing R] (h : List R) : Prop :=
  ∀ m : ℕ, ∑ k ∈ range h.length, h.getD k 0 * h.getD (k + 2 * m) 0 = if m = 0 then 1 else 0

/-- Side after padding: the least multiple of `2^steps` that is not smaller (unchanged without a wavelet). -/
def paddedSide (p : Params) (n : ℕ) : ℕ :=
  if p.wtype = 0 then n else (n + 2 ^ p.steps - 1) / 2 ^ p.steps * 2 ^ p.steps

/-- Every subband of a channel has the size of its step: details of step `s` the padded size over `2^(s+1)`, the last
subband the padded size over `2^steps`. -/
def PrescribedShapes (p : Params) (c : List (Mat α)) : Prop :=
  c.length = subbandCount p ∧
  (∀ s < p.steps, ∀ j < detailsPerStep p, ∀ m, c[s * detailsPerStep p + j]? = some m →
    HasShape (p.shape.map (fun n => paddedSide p n / 2 ^ (s + 1))) m) ∧
  (∀ m, c[p.steps * detailsPerStep p]? = some m → HasShape (p.shape.map (fun n => paddedSide p n / 2 ^ p.steps)) m)

end WB.Spec
