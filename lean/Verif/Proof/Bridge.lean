import Verif.Proof.Compose
import Verif.Spec.Signal

/-!
From the vocabulary of the statements to that of the proofs.
-/

set_option linter.unusedSectionVars false

namespace WB

open Spec

variable {α : Type}

theorem subbandsPerWT_eq (p : Params) : subbandsPerWT p = detailsPerStep p := rfl

theorem paddedSide_eq {p : Params} {n : ℕ} (hn : 0 < n) :
    paddedSide p n = if p.wtype = 0 then n else paddedDim p.steps n := by
  unfold paddedSide paddedDim
  split_ifs
  · rfl
  · have hp : 0 < 2 ^ p.steps := by positivity
    have : n + 2 ^ p.steps - 1 = (n - 1) + 2 ^ p.steps := by omega
    rw [this, Nat.add_div_right _ (by positivity), Nat.mul_comm]

theorem shaped_of {p : Params} {m : Mat α} (h : HasShape p.shape m) : Shaped p m := by
  unfold Shaped
  match hs : p.shape, h with
  | [n], h => exact ⟨h.1, h.2⟩
  | [w, hh], h => exact ⟨h.1, h.2⟩

theorem of_shaped {p : Params} (hv : ValidParams p) {m : Mat α} (h : Shaped p m) : HasShape p.shape m := by
  unfold Shaped at h
  rcases shape_cases hv with ⟨n, hsh, hd⟩ | ⟨w, hh, hsh, hd⟩
  · rw [hsh] at h ⊢; exact h
  · rw [hsh] at h ⊢; exact h

theorem paddedShape_map {p : Params} (hv : ValidParams p) (d : ℕ) :
    (paddedShape p).map (· / d) = p.shape.map (fun n => paddedSide p n / d) := by
  unfold paddedShape
  by_cases ht : p.wtype = 0
  · simp [ht, paddedSide]
  · rw [if_pos ht, List.map_map]
    apply List.map_congr_left
    intro n hn
    have := (valid_side hv ht hn).1
    rw [paddedSide_eq (by omega), if_neg ht]
    rfl

theorem fits_iff {p : Params} (hv : ValidParams p) (s : ℕ) (m : Mat α) :
    Fits p s m ↔ HasShape (p.shape.map (fun n => paddedSide p n / 2 ^ s)) m := by
  rw [← paddedShape_map hv]
  unfold Fits
  have hl : (paddedShape p).length = p.shape.length := by unfold paddedShape; split_ifs <;> simp
  rcases shape_cases hv with ⟨n, hsh, hd⟩ | ⟨w, hh, hsh, hd⟩
  · rw [hsh] at hl
    obtain ⟨a, ha⟩ := List.length_eq_one_iff.1 hl
    rw [ha, if_pos hd]
    simp [matRows, HasShape]
  · rw [hsh] at hl
    obtain ⟨a, b, ha⟩ := List.length_eq_two.1 hl
    rw [ha, if_neg (by omega)]
    simp [matRows, matCols, HasShape]

theorem sized_iff {p : Params} (hv : ValidParams p) (c : Channel α) : SizedChan p c ↔ PrescribedShapes p c := by
  unfold SizedChan PrescribedShapes
  rw [decompositionSize_eq, subbandsPerWT_eq]
  apply and_congr_right
  intro hl
  have hidx : ∀ s < p.steps, ∀ j < detailsPerStep p, s * detailsPerStep p + j < c.length := by
    intro s hs j hj
    have := Nat.mul_le_mul_right (detailsPerStep p) (Nat.succ_le_of_lt hs)
    rw [Nat.succ_mul] at this
    rw [hl, subbandCount]; omega
  have hlast : p.steps * detailsPerStep p < c.length := by rw [hl, subbandCount]; omega
  constructor
  · rintro ⟨h1, h2⟩
    refine ⟨?_, ?_⟩
    · intro s hs j hj m hm
      rw [← fits_iff hv]
      have := h1 s hs j hj
      rwa [List.getD, hm] at this
    · intro m hm
      rw [← fits_iff hv]
      rwa [List.getD, hm] at h2
  · rintro ⟨h1, h2⟩
    refine ⟨?_, ?_⟩
    · intro s hs j hj
      rw [fits_iff hv]
      apply h1 s hs j hj
      simp [List.getD, hidx s hs j hj]
    · rw [fits_iff hv]
      apply h2
      simp [List.getD, hlast]

section
variable [Zero α] [Add α] [Mul α] [Neg α] [Inhabited α]

/-- Decomposition through the buffer. -/
theorem decompose_ok {k : Kit α} {b : Buffer α} (hb : WellFormed b) (hf : FilterPresent k b.params)
    (hch : 0 < b.params.signalNumber) {data : List (Mat α)} (hd : IsSignal b.params data) {den : Denoiser α}
    (hden : 0 < b.params.steps → KeepsSizes den) :
    b.decompose k data den = .ok (data.map (chanP b.params (scaling k b.params) den)) true := by
  unfold Buffer.decompose
  obtain ⟨hv, hl, hc⟩ := hb
  obtain ⟨hn, hs⟩ := hd
  rw [← hn]
  have h := decomposeImpl_ok hv hf hden (d := b.decs) hc (data := data) (by omega) (fun m hm => shaped_of (hs m hm)) 0 (by omega)
  rw [Nat.cast_zero] at h
  rw [h, splice_zero_full (by simp; omega)]

/-- Composition through the buffer. -/
theorem compose_ok {k : Kit α} {b : Buffer α} (hv : ValidParams b.params) (hl : b.decs.length = b.params.signalNumber)
    (hf : FilterPresent k b.params) (hc : ∀ c ∈ b.decs, SizedChan b.params c) {s : ℕ} (hs : s ≤ b.params.steps) :
    b.compose k s = .ok (b.decs.map (outP k b.params s)) := by
  unfold Buffer.compose
  have h := composeImpl_ok (start := 0) (count := b.params.signalNumber) hv hf hs (d := b.decs) (by omega) (by
    intro ch _ hch
    have : ch < b.decs.length := by omega
    have e : b.decs.getD ch [] = b.decs[ch] := by simp [List.getD, this]
    rw [e]; exact hc _ (List.getElem_mem this))
  rw [Nat.cast_zero] at h
  rw [h]
  congr 1
  apply List.ext_getElem
  · simp [hl]
  · intro i h1 h2
    have : i < b.decs.length := by simpa using h2
    simp [List.getD, this]

end

theorem ortho_of {R : Type} [CommRing R] {k : Kit R} {p : Params} (hf : FilterPresent k p)
    (ho : EvenShiftOrthonormal (scalingFilter k p)) : OrthoKit k p := by
  intro ht s
  have := ho s
  have hl : (scalingFilter k p).length = 2 * p.wtype := by simp [scalingFilter, hf ht]
  rw [hl] at this
  exact this

end WB
