import Verif.Spec.Signal

/-! Vocabulary for statements about how far a sample or a coefficient reaches. -/

namespace WB.Spec

variable {α : Type} [Inhabited α]

/-- On a ring of `n` samples, the coefficient at `c`, `k` steps further down, reaches the sample at `i`: it is one of the
`(2 · order - 1)(2^k - 1) + 1` samples from `2^k · c` on. -/
def Reaches (order n k c i : ℕ) : Prop := ∃ t ≤ (2 * order - 1) * (2 ^ k - 1), (2 ^ k * c + t) % n = i

/-- On a ring of `n` samples, `a` and `i` are at most `d` apart. -/
def RingWithin (d n a i : ℕ) : Prop := ∃ t ≤ d, (a + t) % n = i % n ∨ (i + t) % n = a % n

/-- Rows and columns of the approximation of `s` steps: the padded sides over `2^s`. -/
def levelSides (p : Params) (s : ℕ) : ℕ × ℕ :=
  match p.shape with
  | [n] => (paddedSide p n / 2 ^ s, 1)
  | [w, h] => (paddedSide p h / 2 ^ s, paddedSide p w / 2 ^ s)
  | _ => (0, 0)

/-- A denoiser that replaces each coefficient by a value that depends on this coefficient and the step alone. -/
def Pointwise (den : Denoiser α) : Prop :=
  ∃ g : ℕ → α → α, (∀ v s, den.d1 v s = v.map (g s)) ∧ ∀ m s, den.d2 m s = m.map (g s)

/-- The coefficients of two channels agree wherever they reach the sample `(i, j)` of the approximation of `s` steps, which has `r` rows
and `c` columns. -/
def SameReaching (p : Params) (s r c i j : ℕ) (x y : List (Mat α)) : Prop :=
  (∀ s', s ≤ s' → s' < p.steps → ∀ q < detailsPerStep p, ∀ mx my, x[s' * detailsPerStep p + q]? = some mx →
    y[s' * detailsPerStep p + q]? = some my → ∀ a < mx.rows, ∀ b < mx.cols, Reaches p.wtype r (s' + 1 - s) a i →
    Reaches p.wtype c (s' + 1 - s) b j → mx.get a b = my.get a b) ∧
  ∀ mx my, x[p.steps * detailsPerStep p]? = some mx → y[p.steps * detailsPerStep p]? = some my → ∀ a < mx.rows, ∀ b < mx.cols,
    Reaches p.wtype r (p.steps - s) a i → Reaches p.wtype c (p.steps - s) b j → mx.get a b = my.get a b

end WB.Spec
