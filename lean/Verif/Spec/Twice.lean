import Verif.Spec.Signal

/-!
Vocabulary for signals that are denoised more than once.
-/

namespace WB.Spec

variable {α : Type}

/-- Applying `first` and then `second` to a detail subband of a signal with parameters `p` is the same as applying `both` alone. -/
def Merges (p : Params) (first second both : Denoiser α) : Prop := ∀ s < p.steps,
  (∀ v : List α, v.length ≤ p.shape.prod → second.d1 (first.d1 v s) s = both.d1 v s) ∧
  ∀ m : Mat α, m.rows * m.cols ≤ p.shape.prod → second.d2 (first.d2 m s) s = both.d2 m s

/-- `y` is `x` after `n` rounds of `Decompose` with the denoiser and `Compose` at full size, in a buffer like `b`. -/
def Rounds [Zero α] [Add α] [Mul α] [Neg α] [Inhabited α] (k : Kit α) (b : Buffer α) (den : Denoiser α) :
    ℕ → List (Mat α) → List (Mat α) → Prop
  | 0, x, y => y = x
  | n + 1, x, y => ∃ d z, b.decompose k x den = .ok d true ∧ (Buffer.mk b.params d).compose k 0 = .ok z ∧ Rounds k b den n z y

end WB.Spec
