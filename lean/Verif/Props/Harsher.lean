import Verif.Proof.Harsher
import Verif.Props.Denoise

/-!
C143: a higher threshold and a higher level keep no more and give no better copy.
-/

set_option linter.unusedSectionVars false

namespace WB.Props

open Finset Spec

/-- C143 for thresholds: with a threshold that is at least as high at every step, no more coefficients are left in any subband, the buffer is no
closer to the one without denoising, and without padding the composed signal is no closer to the input. -/
theorem C143_thresholds (k : Kit ℝ) (b : Buffer ℝ) (hb : WellFormed b) (hk : FilterPresent k b.params) (hcs : CountableSamples b.params)
    (data : List (Mat ℝ)) (hd : IsSignal b.params data) (a c a' c' : ℝ) (hle : ∀ s < b.params.steps, a * s + c ≤ a' * s + c') :
    KeepsNoMore k b data (thresholdDenoiser (fun x => |x|) a c) (thresholdDenoiser (fun x => |x|) a' c') :=
  keepsNoMore hb hk hcs hd (threshold_sizes_kept _ _ _) (threshold_sizes_kept _ _ _) (threshold_noMore _ hle)

/-- C143 for the simple denoiser: the same for a level that is at least as high. -/
theorem C143_levels (ext : SimpleExt ℝ) (ha : ExactCast ext) (hnth : NthOk ext) (level level' : ℝ) (h0 : 0 ≤ level) (hl : level ≤ level')
    (h1 : level' ≤ 1) (den den' : Denoiser ℝ) (hden : IsSimple ext level den) (hden' : IsSimple ext level' den') (k : Kit ℝ) (b : Buffer ℝ)
    (hb : WellFormed b) (hk : FilterPresent k b.params) (hcs : CountableSamples b.params)
    (hN : (b.params.shape.map (paddedSide b.params)).prod < 2 ^ 64) (data : List (Mat ℝ)) (hd : IsSignal b.params data) :
    KeepsNoMore k b data den den' :=
  keepsNoMore hb hk hcs hd hden.1 hden'.1 (simple_noMore ha hnth h0 hl h1 hden hden' hN)

/-- C143 for thresholds in the arithmetic of the machine, whatever it is: if what passes the second threshold of a step passes the first, every
coefficient after the second denoiser is the one after the first or zero. -/
theorem C143_nested {α : Type} [Zero α] [Add α] [Mul α] [Neg α] [NatCast α] [LT α] [DecidableLT α] [Inhabited α] (k : Kit α) (b : Buffer α) (hb : WellFormed b)
    (hk : FilterPresent k b.params) (hch : 0 < b.params.signalNumber) (data : List (Mat α)) (hd : IsSignal b.params data) (abs : α → α)
    (a c a' c' : α) (hle : ∀ s < b.params.steps, ∀ x : α, a' * s + c' < abs x → a * s + c < abs x) :
    ∃ d d', b.decompose k data (thresholdDenoiser abs a c) = .ok d true ∧ b.decompose k data (thresholdDenoiser abs a' c') = .ok d' true ∧
      d.length = data.length ∧ d'.length = data.length ∧
      ∀ (ch : ℕ) (x x' : List (Mat α)), d[ch]? = some x → d'[ch]? = some x' →
        x.length = subbandCount b.params ∧ x'.length = subbandCount b.params ∧ x.getLast? = x'.getLast? ∧
        ∀ s < b.params.steps, ∀ j < detailsPerStep b.params, ∀ m m' : Mat α,
          x[s * detailsPerStep b.params + j]? = some m → x'[s * detailsPerStep b.params + j]? = some m' →
          m'.rows = m.rows ∧ m'.cols = m.cols ∧ ∀ i < m.rows, ∀ l < m.cols, m'.get i l = m.get i l ∨ m'.get i l = 0 := by
  obtain ⟨d, d0, g1, g2, g3, g4, g5⟩ := C18_threshold_after_decompose k b hb hk hch data hd abs a c
  obtain ⟨d', d0', f1, f2, f3, f4, f5⟩ := C18_threshold_after_decompose k b hb hk hch data hd abs a' c'
  rw [g2] at f2
  injection f2 with f2
  subst f2
  refine ⟨d, d', g1, f1, g3, f3, ?_⟩
  intro ch x x' hx hx'
  have hlt : ch < d0.length := by rw [g4, ← g3]; exact (List.getElem?_eq_some_iff.1 hx).1
  obtain ⟨p1, p2, p3, p4⟩ := g5 ch x _ hx (List.getElem?_eq_getElem hlt)
  obtain ⟨q1, q2, q3, q4⟩ := f5 ch x' _ hx' (List.getElem?_eq_getElem hlt)
  refine ⟨p1, q1, p3.trans q3.symm, ?_⟩
  intro s hs j hj m m' hm hm'
  have hlt2 : s * detailsPerStep b.params + j < (d0[ch]).length := by rw [p2, ← p1]; exact (List.getElem?_eq_some_iff.1 hm).1
  obtain ⟨r1, r2, r3⟩ := p4 s hs j hj m _ hm (List.getElem?_eq_getElem hlt2)
  obtain ⟨t1, t2, t3⟩ := q4 s hs j hj m' _ hm' (List.getElem?_eq_getElem hlt2)
  refine ⟨t1.trans r1.symm, t2.trans r2.symm, ?_⟩
  intro i hi l hl
  rw [r1] at hi
  rw [r2] at hl
  by_cases h : a' * s + c' < abs ((d0[ch])[s * detailsPerStep b.params + j].get i l)
  · left
    rw [(t3 i hi l hl).1 h, (r3 i hi l hl).1 (hle s hs _ h)]
  · exact Or.inr ((t3 i hi l hl).2 h)

/-! ### Concrete cases -/

/-- The hypotheses of C143: 8 × 4 samples, two steps of the Haar wavelet of the code, thresholds 1/2, 3/4 against 1, 1. -/
example : let p : Params := ⟨[8, 4], 1, 2, 1⟩
    WellFormed (Buffer.mk p [List.replicate 7 Mat.empty] : Buffer ℝ) ∧ FilterPresent codeKit p ∧ CountableSamples p ∧
      EvenShiftOrthonormal (scalingFilter codeKit p) ∧ (∀ n ∈ p.shape, 2 ^ p.steps ∣ n) ∧ (p.shape.map (paddedSide p)).prod < 2 ^ 64 ∧
      IsSignal p [Mat.ofFn 4 8 (fun i j => (i * j : ℝ))] ∧ ∀ s < p.steps, (1 / 4 : ℝ) * s + 1 / 2 ≤ 0 * s + 1 := by
  intro p
  refine ⟨⟨⟨by simp [p], by simp [p], by simp [p]⟩, by simp [p], by simp [p, subbandCount, detailsPerStep]⟩, codeKit_present (by simp [p]),
    ⟨by simp [p], by simp [p], by simp [p], by simp [p]⟩, haar_ortho p rfl, ?_, by decide +kernel, ⟨by simp [p], by simp [p, HasShape]⟩, ?_⟩
  · intro n hn
    simp only [p, List.mem_cons, List.not_mem_nil, or_false] at hn
    rcases hn with rfl | rfl <;> decide
  · intro s hs
    have : s ≤ 1 := Nat.lt_succ_iff.1 hs
    have : (s : ℝ) ≤ 1 := by exact_mod_cast this
    linarith

/-- Thresholds for which `C143_nested` compares, over the integers. -/
example : ∀ s : ℕ, s < 2 → ∀ x : ℤ, 3 * (s : ℤ) + 2 < |x| → 1 * (s : ℤ) + 1 < |x| := by
  intro s _ x h
  omega

end WB.Props
