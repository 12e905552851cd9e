import Verif.Spec.Pixel

/-! Vocabulary for statements about the quality of the JPEG codecs. -/

namespace WB

/-- A quality of k percent as a user writes it: the exact number (of a literal) or the `double` next to it (in Python). -/
def IsPercent (r : Rounding) (k : ℕ) (q : ℝ) : Prop := q = k / 100 ∨ q = r.toDouble (k / 100)

/-- `float`: the middle between two numbers is rounded to the one with an even significand. -/
def TiesToEven (f : ℝ → ℝ) : Prop :=
  ∀ n e : ℤ, 2 ^ 23 < n → n < 2 ^ 24 → Even n → -149 ≤ e →
    f ((n : ℝ) * 2 ^ e - 2 ^ e / 2) = n * 2 ^ e ∧ f ((n : ℝ) * 2 ^ e + 2 ^ e / 2) = n * 2 ^ e

end WB
