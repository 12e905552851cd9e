import Verif.Proof.Fading
import Verif.Props.Stability
import Verif.Props.Twice

/-!
C144: a preview holds the energy of the subbands that it is made of and fades with the scale.
-/

set_option linter.unusedSectionVars false

namespace WB.Props

open Finset Spec

/-- C144: the energy of a composition at scale `s`, of whatever stands in the subbands, is that of the subbands it reads divided by the square of
the gain; cropping can only lower it. -/
theorem C144_preview_energy (k : Kit ℝ) (hr : RealArithmetic k) (b : Buffer ℝ) (hb : WellFormed b) (hk : FilterPresent k b.params)
    (ho : b.params.wtype ≠ 0 → EvenShiftOrthonormal (scalingFilter k b.params)) (hc : ∀ c ∈ b.decs, PrescribedShapes b.params c)
    (s : ℕ) (hs : s ≤ b.params.steps) :
    ∃ out, b.compose k s = .ok out ∧ out.length = b.decs.length ∧
      ∀ (n : ℕ) (c : List (Mat ℝ)) (y : Mat ℝ), b.decs[n]? = some c → out[n]? = some y →
        energy y ≤ contents b.params s c / 2 ^ (b.params.shape.length * s) ∧
        ((∀ n ∈ b.params.shape, 2 ^ b.params.steps ∣ n) → energy y = contents b.params s c / 2 ^ (b.params.shape.length * s)) := by
  have hv := hb.1
  have hok : OrthoKit k b.params := fun ht => ortho_of hk (ho ht) ht
  have hz : ∀ c ∈ b.decs, SizedChan b.params c := fun c h => (sized_iff hv c).2 (hc c h)
  refine ⟨_, compose_ok hv hb.2.1 hk hz hs, by simp, ?_⟩
  intro n c y hcn hy
  simp only [List.getElem?_map, hcn, Option.map_some, Option.some.injEq] at hy
  subst hy
  have zc := hz c (List.mem_of_getElem? hcn)
  have fit := reconP_fits (h := scaling k b.params) hv zc hs
  have hg : ∀ f s (x : ℝ), k.divFactor f s x = x / (if f then 2 else Real.sqrt 2) ^ s := fun f s x => by rw [hr.2]; rfl
  unfold outP
  rw [← energy_contents hv hk hok zc hs]
  exact ⟨energy_finish hv hg fit, fun hdvd => energy_finish_eq hv hdvd hg fit⟩

/-- C144: with nothing padded the mean square of the samples never rises from one scale to the next, and what it loses is the energy of the
details that the smaller preview leaves out, per sample of the signal. -/
theorem C144_fading (k : Kit ℝ) (hr : RealArithmetic k) (b : Buffer ℝ) (hb : WellFormed b) (hk : FilterPresent k b.params)
    (ho : b.params.wtype ≠ 0 → EvenShiftOrthonormal (scalingFilter k b.params)) (hc : ∀ c ∈ b.decs, PrescribedShapes b.params c)
    (hdvd : ∀ n ∈ b.params.shape, 2 ^ b.params.steps ∣ n) (s : ℕ) (hs : s < b.params.steps) :
    ∃ large small, b.compose k s = .ok large ∧ b.compose k (s + 1 : ℕ) = .ok small ∧ large.length = b.decs.length ∧
      small.length = b.decs.length ∧
      ∀ (n : ℕ) (c : List (Mat ℝ)) (y z : Mat ℝ), b.decs[n]? = some c → large[n]? = some y → small[n]? = some z →
        meanSquare z ≤ meanSquare y ∧
        meanSquare y = meanSquare z +
          (∑ q ∈ range (detailsPerStep b.params), energy (c.getD (s * detailsPerStep b.params + q) default)) / (b.params.shape.prod : ℕ) := by
  have hv := hb.1
  have hok : OrthoKit k b.params := fun ht => ortho_of hk (ho ht) ht
  have hz : ∀ c ∈ b.decs, SizedChan b.params c := fun c h => (sized_iff hv c).2 (hc c h)
  refine ⟨_, _, compose_ok hv hb.2.1 hk hz hs.le, compose_ok hv hb.2.1 hk hz hs, by simp, by simp, ?_⟩
  intro n c y z hcn hy hzn
  simp only [List.getElem?_map, hcn, Option.map_some, Option.some.injEq] at hy hzn
  subst hy hzn
  have zc := hz c (List.mem_of_getElem? hcn)
  have hg : ∀ f s (x : ℝ), k.divFactor f s x = x / (if f then 2 else Real.sqrt 2) ^ s := fun f s x => by rw [hr.2]; rfl
  have ms : ∀ t ≤ b.params.steps, meanSquare (outP k b.params t c) = contents b.params t c / (b.params.shape.prod : ℕ) := by
    intro t ht
    have fit := reconP_fits (h := scaling k b.params) hv zc ht
    unfold meanSquare outP
    rw [energy_finish_eq hv hdvd hg fit, energy_contents hv hk hok zc ht, ← preview_count (k := k) hv hdvd ht fit, div_div]
    push_cast
    rw [mul_comm]
  have e : meanSquare (outP k b.params s c) = meanSquare (outP k b.params (s + 1) c) +
      (∑ q ∈ range (detailsPerStep b.params), energy (c.getD (s * detailsPerStep b.params + q) default)) / (b.params.shape.prod : ℕ) := by
    rw [ms s hs.le, ms (s + 1) hs, ← add_div]
    congr 1
    unfold contents
    rw [sum_eq_sum_Ico_succ_bot hs]
    ring
  refine ⟨?_, e⟩
  rw [e]
  have : 0 ≤ (∑ q ∈ range (detailsPerStep b.params), energy (c.getD (s * detailsPerStep b.params + q) default)) / (b.params.shape.prod : ℕ) :=
    div_nonneg (sum_nonneg fun q _ => energy_nonneg _) (Nat.cast_nonneg _)
  linarith

/-- Parameters with padding: three samples, one step. -/
def three : Params := ⟨[3], 1, 1, 1⟩

/-- With padding the mean square can rise: the subbands of the samples 1, 1, 0, whose preview is the single sample 1. -/
theorem C144_padding_counterexample : let h : ℝ := Real.sqrt 2 / 2
    let b : Buffer ℝ := ⟨three, [[Mat.ofCol [0, 0], Mat.ofCol [h * 2, 0]]]⟩
    WellFormed b ∧ FilterPresent codeKit b.params ∧ EvenShiftOrthonormal (scalingFilter codeKit b.params) ∧
    (∀ c ∈ b.decs, PrescribedShapes b.params c) ∧
    b.compose codeKit 0 = .ok [Mat.ofCol [1, 1, 0]] ∧ b.compose codeKit (1 : ℕ) = .ok [Mat.ofCol [1]] ∧
    meanSquare (Mat.ofCol [1, 1, 0]) < meanSquare (Mat.ofCol [(1 : ℝ)]) := by
  intro h b
  have hh : Real.sqrt 2 * Real.sqrt 2 = 2 := Real.mul_self_sqrt (by norm_num)
  have h2 : h * h = 1 / 2 := by simp only [h]; linear_combination hh / 4
  have hv : ValidParams three := ⟨by simp [three], by simp [three], by simp [three]⟩
  have hb : WellFormed b := ⟨hv, by simp [b, three], by simp [b, three, subbandCount, detailsPerStep]⟩
  have hk : FilterPresent codeKit three := codeKit_present (by simp [three])
  have sz : ∀ c ∈ b.decs, SizedChan three c := by
    intro c hc
    obtain rfl : c = [Mat.ofCol [0, 0], Mat.ofCol [h * 2, 0]] := by simpa [b] using hc
    have e1 : matRows (paddedShape three) = 4 := by decide +kernel
    refine ⟨rfl, ?_, ?_⟩
    · intro s hs j hj
      obtain rfl : s = 0 := by simp [three] at hs; omega
      obtain rfl : j = 0 := by simp [subbandsPerWT, three, Params.dimension] at hj; omega
      exact ⟨by rw [e1]; rfl, rfl⟩
    · exact ⟨by rw [e1]; rfl, rfl⟩
  have hs : scaling codeKit three = [h, h] := haar_scaling rfl
  have dim : three.dimension = 1 := rfl
  have up : synthStep three [h, h] (Mat.ofCol [h * 2, 0]) [Mat.ofCol [0, 0]] = Mat.ofCol [1, 1, 0, 0] := by
    have e : h * (h * 2) = 1 := by linear_combination 2 * h2
    unfold synthStep
    rw [if_pos dim]
    simp [synP, qmf, List.range, List.range.loop, Mat.col_ofCol, e]
  have sw : subbandsPerWT three = 1 := rfl
  have st : three.steps = 1 := rfl
  have r1 : List.range 1 = [0] := rfl
  refine ⟨hb, hk, haar_ortho three rfl, fun c hc => (sized_iff hv c).1 (sz c hc), ?_, ?_, ?_⟩
  · refine (compose_ok hv hb.2.1 hk sz (Nat.zero_le _)).trans ?_
    congr 1
    show [outP codeKit three 0 [Mat.ofCol [0, 0], Mat.ofCol [h * 2, 0]]] = _
    congr 1
    unfold outP finishP reconP
    rw [if_neg (by omega), hs, st]
    simp only [reconFrom, detailsAt, sw, r1, List.map_cons, List.map_nil]
    simp only [Nat.mul_one, Nat.add_zero, List.getD_cons_zero, List.getD_cons_succ, Nat.reduceSub]
    rw [up]
    unfold cropOf
    simp [three, matRows, matCols]
    rw [Mat.eq_iff]
    refine ⟨rfl, rfl, ?_⟩
    simp [Mat.ofFn, Mat.get, Mat.ofCol, padOffset, List.range, List.range.loop]
  · refine (compose_ok hv hb.2.1 hk sz le_rfl).trans ?_
    congr 1
    show [outP codeKit three 1 [Mat.ofCol [0, 0], Mat.ofCol [h * 2, 0]]] = _
    congr 1
    unfold outP finishP reconP
    rw [if_pos (by omega), hs, st]
    simp only [reconFrom, sw, Nat.sub_self]
    have hg : ∀ f s (x : ℝ), codeKit.divFactor f s x = x / (if f then 2 else Real.sqrt 2) ^ s := fun f s x => rfl
    have s0 : Real.sqrt 2 ≠ 0 := by positivity
    unfold cropOf
    simp [three, matRows, matCols]
    rw [Mat.eq_iff]
    refine ⟨rfl, rfl, ?_⟩
    simp [Mat.map, Mat.ofFn, Mat.get, Mat.ofCol, padOffset, List.range, List.range.loop, hg, Params.dimension]
    simp only [h]
    field_simp
  · simp [meanSquare, energy, Mat.get, Mat.ofCol, Finset.sum_range_succ]
    norm_num

/-! ### Concrete cases -/

/-- The hypotheses of C144: 4 × 2 samples, one step of the Haar wavelet of the code, subbands that are not zero. -/
example : let p : Params := ⟨[4, 2], 1, 1, 1⟩
    let c : List (Mat ℝ) := [Mat.ofFn 1 2 fun _ j => j, Mat.ofFn 1 2 fun _ _ => 1, Mat.ofFn 1 2 fun _ _ => -1, Mat.ofFn 1 2 fun _ _ => 3]
    WellFormed (Buffer.mk p [c] : Buffer ℝ) ∧ RealArithmetic codeKit ∧ FilterPresent codeKit p ∧
      EvenShiftOrthonormal (scalingFilter codeKit p) ∧ PrescribedShapes p c ∧ (∀ n ∈ p.shape, 2 ^ p.steps ∣ n) ∧ contents p 0 c = 23 ∧
      contents p 1 c = 18 := by
  intro p c
  have hv : ValidParams p := ⟨by simp [p], by simp [p], by simp [p]⟩
  refine ⟨⟨hv, by simp [p], by simp [p, c, subbandCount, detailsPerStep]⟩, ⟨rfl, rfl⟩, codeKit_present (by simp [p]),
    haar_ortho p rfl, ?_, ?_, ?_, ?_⟩
  · refine (sized_iff hv c).1 ⟨rfl, ?_, ?_⟩
    · intro s hs j hj
      obtain rfl : s = 0 := by simp [p] at hs; omega
      have : j < 3 := hj
      have e1 : matRows (paddedShape p) = 2 := by decide +kernel
      have e2 : matCols (paddedShape p) = 4 := by decide +kernel
      unfold Fits
      rw [e1, e2]
      rcases (by omega : j = 0 ∨ j = 1 ∨ j = 2) with rfl | rfl | rfl <;> exact ⟨rfl, rfl⟩
    · have e1 : matRows (paddedShape p) = 2 := by decide +kernel
      have e2 : matCols (paddedShape p) = 4 := by decide +kernel
      unfold Fits
      rw [e1, e2]
      exact ⟨by show (1 : ℕ) = _; decide, by show (2 : ℕ) = _; decide⟩
  · intro n hn
    simp only [p, List.mem_cons, List.not_mem_nil, or_false] at hn
    rcases hn with rfl | rfl <;> decide
  · simp [contents, p, c, detailsPerStep, energy, Mat.get, Mat.ofFn, Finset.sum_range_succ, List.range, List.range.loop]
    norm_num
  · simp [contents, p, c, detailsPerStep, energy, Mat.get, Mat.ofFn, Finset.sum_range_succ, List.range, List.range.loop]
    norm_num

end WB.Props
