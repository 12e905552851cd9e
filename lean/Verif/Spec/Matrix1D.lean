import Verif.Model.Matrix1D
import Verif.Spec.Signal

/-!
Vocabulary for statements about the 1D transforms with a matrix argument.
-/

namespace WB.Spec

open Finset

variable {R : Type} [CommRing R]

/-- The two-row matrix whose rows are the given filters. -/
def filterPair {α : Type} (lo hi : List α) : SpMat α :=
  { cols := lo.length, rowsE := [lo.zipIdx.map (fun e => (e.2, e.1)), hi.zipIdx.map (fun e => (e.2, e.1))] }

/-- High-pass coefficient `k` that belongs to the scaling filter `h`: alternating signs, reversed order. -/
def mirrored (h : List R) (k : ℕ) : R := (-1) ^ k * h.getD (h.length - 1 - k) 0

/-- The filter `f` (of length `L`) at position `i`, on the signal continued periodically. -/
def periodicAt (f : ℕ → R) (L : ℕ) (x : List R) (i : ℕ) : R := ∑ k ∈ range L, f k * x.getD ((2 * i + k) % x.length) 0

/-- Index of the sample that continues a signal of `n` samples at position `z`: the nearest one. -/
def nearest (n : ℕ) (z : ℤ) : ℕ := (max 0 (min z (n - 1))).toNat

/-- The filter `f` (of length `L`), centred at `2 i`, on the signal continued by its first and last samples. -/
def borderAt (f : ℕ → R) (L : ℕ) (x : List R) (i : ℕ) : R :=
  ∑ k ∈ range L, f k * x.getD (nearest x.length (2 * i + k - ((L - 1) / 2 : ℕ))) 0

end WB.Spec
