import Verif.Spec.Optimal
import Verif.Spec.Signal
import Verif.Model.Metrics
import Verif.Model.Denoise
import Verif.Spec.Linear

/-! Vocabulary for statements that compare two denoisers. -/

namespace WB.Spec

/-- The second denoiser keeps no more than the first and gives no better copy. Both calls and the call without denoising succeed. Every detail
subband has the same size in both buffers and no more coefficients that are not zero in the second. The last subbands agree. The `Distance` of the
second buffer to the one without denoising is not smaller. If the filter is orthonormal and nothing is padded, the second composed signal is no
closer to the input, in any channel. -/
def KeepsNoMore (k : Kit ℝ) (b : Buffer ℝ) (data : List (Mat ℝ)) (den den' : Denoiser ℝ) : Prop :=
  ∃ d0 d d' y y' r r', b.decompose k data nullDenoiser = .ok d0 true ∧ b.decompose k data den = .ok d true ∧
    b.decompose k data den' = .ok d' true ∧ (Buffer.mk b.params d).compose k 0 = .ok y ∧ (Buffer.mk b.params d').compose k 0 = .ok y' ∧
    d.length = data.length ∧ d'.length = data.length ∧ y.length = data.length ∧ y'.length = data.length ∧
    (∀ (ch : ℕ) (e e' : List (Mat ℝ)), d[ch]? = some e → d'[ch]? = some e' →
      e.length = subbandCount b.params ∧ e'.length = subbandCount b.params ∧ e.getLast? = e'.getLast? ∧
      ∀ s < b.params.steps, ∀ q < detailsPerStep b.params, ∀ m m' : Mat ℝ,
        e[s * detailsPerStep b.params + q]? = some m → e'[s * detailsPerStep b.params + q]? = some m' →
        SameSize m m' ∧ nonzeros m' ≤ nonzeros m) ∧
    distance ⟨b.params, d⟩ ⟨b.params, d0⟩ = .ok (.val r) ∧ distance ⟨b.params, d'⟩ ⟨b.params, d0⟩ = .ok (.val r') ∧ r ≤ r' ∧
    ((b.params.wtype ≠ 0 → EvenShiftOrthonormal (scalingFilter k b.params)) → (∀ n ∈ b.params.shape, 2 ^ b.params.steps ∣ n) →
      ∀ (n : ℕ) (x z z' : Mat ℝ), data[n]? = some x → y[n]? = some z → y'[n]? = some z' → sqDist z x ≤ sqDist z' x)

end WB.Spec
