import Verif.Spec.Signal

/-! Vocabulary for statements about shifted, transposed and separable signals. -/

namespace WB.Spec

variable {α : Type} [Inhabited α]

/-- Circular shift by `a` rows and `c` columns. -/
def roll (a c : ℕ) (m : Mat α) : Mat α := Mat.ofFn m.rows m.cols fun i j => m.get ((i + a) % m.rows) ((j + c) % m.cols)

/-- The transposed matrix. -/
def transposed (m : Mat α) : Mat α := Mat.ofFn m.cols m.rows fun i j => m.get j i

/-- The image `u vᵀ` of two signals in one column each. -/
def outer [Mul α] (u v : Mat α) : Mat α := Mat.ofFn u.rows v.rows fun i j => u.get i 0 * v.get j 0

/-- Two padded channels agree on all samples that a coefficient at `(i, j)` after `s` steps depends on. -/
def AgreeNear (p : Params) (s i j : ℕ) (x y : Mat α) : Prop :=
  ∀ t ≤ (2 * p.wtype - 1) * (2 ^ s - 1), ∀ t' ≤ (2 * p.wtype - 1) * (2 ^ s - 1),
    x.get ((2 ^ s * i + t) % x.rows) ((2 ^ s * j + t') % x.cols) = y.get ((2 ^ s * i + t) % x.rows) ((2 ^ s * j + t') % x.cols)

/-- Around the coefficient `(i, j)` after `s` steps the padded channel is a polynomial of degree less than the order of the wavelet (in
each of the two coordinates, counted from the beginning of the window). -/
def LocallyPolynomial {R : Type} [CommRing R] [Inhabited R] (p : Params) (s i j : ℕ) (m : Mat R) : Prop :=
  ∃ c : ℕ → ℕ → R, ∀ t ≤ (2 * p.wtype - 1) * (2 ^ s - 1), ∀ t' ≤ (2 * p.wtype - 1) * (2 ^ s - 1),
    m.get ((2 ^ s * i + t) % m.rows) ((2 ^ s * j + t') % m.cols) =
      ∑ a ∈ Finset.range p.wtype, ∑ b ∈ Finset.range p.wtype, c a b * (t : R) ^ a * (t' : R) ^ b

/-- The alternating moments of the filter of `2 N` taps vanish up to order `N - 1`. -/
def VanishingMoments {R : Type} [CommRing R] (N : ℕ) (f : List R) : Prop :=
  ∀ m < N, ∑ u ∈ Finset.range (2 * N), (-1) ^ u * f.getD u 0 * (u : R) ^ m = 0

end WB.Spec
