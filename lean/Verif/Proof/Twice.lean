import Verif.Spec.Twice
import Verif.Proof.Reverse
import Verif.Proof.Means
import Verif.Props.Optimal

/-!
Denoising what has been denoised.
-/

set_option linter.unusedSectionVars false

namespace WB

open Spec

section Any
variable {α : Type} [Zero α] [Add α] [Mul α] [Neg α] [Inhabited α]

/-- One detail subband after the denoiser. -/
def cleanOne (p : Params) (den : Denoiser α) (s : ℕ) (m : Mat α) : Mat α :=
  if p.dimension = 1 then Mat.ofCol (den.d1 (m.col 0) s) else den.d2 m s

theorem detailStep_clean (p : Params) (h : List α) (den : Denoiser α) (s : ℕ) (m : Mat α) :
    detailStep p h den s m = (detailStep p h nullDenoiser s m).map (cleanOne p den s) := by
  unfold detailStep cleanOne
  split_ifs with hd
  · simp [nullDenoiser, Mat.col_ofCol]
  · simp [nullDenoiser]

/-- Two channels with the same approximation whose details agree. -/
theorem chanP_ext {p : Params} {h : List α} {d1 d2 : Denoiser α} {x y : Mat α}
    (hs : ∀ s < p.steps, detailStep p h d1 s (sig p h (padOf p x) s) = detailStep p h d2 s (sig p h (padOf p y) s))
    (hl : sig p h (padOf p x) p.steps = sig p h (padOf p y) p.steps) : chanP p h d1 x = chanP p h d2 y := by
  unfold chanP
  rw [hl]
  congr 1
  rw [List.flatMap_def, List.flatMap_def]
  congr 1
  apply List.map_congr_left
  intro s h
  exact hs s (List.mem_range.1 h)

end Any

section Ring
variable {R : Type} [CommRing R] [Inhabited R]

/-- The details and the approximation of a composed channel. -/
theorem composed_parts {k : Kit R} {p : Params} (hv : ValidParams p) (hf : FilterLen k p) (ho : OrthoKit k p)
    (hdvd : ∀ n ∈ p.shape, 2 ^ p.steps ∣ n) {den : Denoiser R} (hden : den.Sized) {x : Mat R} (hx : Shaped p x) :
    (∀ s < p.steps, detailStep p (scaling k p) nullDenoiser s (sig p (scaling k p) (padOf p (outP k p 0 (chanP p (scaling k p) den x))) s) =
        detailStep p (scaling k p) den s (sig p (scaling k p) (padOf p x) s)) ∧
      sig p (scaling k p) (padOf p (outP k p 0 (chanP p (scaling k p) den x))) p.steps = sig p (scaling k p) (padOf p x) p.steps := by
  have e := (chanP_outP hv hf ho hdvd (chanP_sized (k := k) hv hden hx)).2
  constructor
  · intro s hs
    rw [← detailsAt_chanP p _ nullDenoiser _ hs, ← detailsAt_chanP p _ den _ hs, e]
  · rw [← chanP_last p _ nullDenoiser _ default, ← chanP_last p _ den x default, e]

/-- Subbands are no larger than the signal if nothing is padded. -/
theorem subband_small {p : Params} (hv : ValidParams p) (hdvd : ∀ n ∈ p.shape, 2 ^ p.steps ∣ n) {s : ℕ} (hs : s ≤ p.steps) {m : Mat R}
    (hm : Fits p s m) : m.rows * m.cols ≤ p.shape.prod := by
  rw [show m.rows = _ from hm.1, show m.cols = _ from hm.2]
  refine (Props.level_le hv hs).trans (le_of_eq ?_)
  congr 1
  conv_rhs => rw [← List.map_id p.shape]
  apply List.map_congr_left
  intro n hn
  unfold paddedSide
  split_ifs
  · rfl
  · obtain ⟨c, rfl⟩ := hdvd n hn
    have h2 : 0 < 2 ^ p.steps := by positivity
    have : (2 ^ p.steps * c + 2 ^ p.steps - 1) / 2 ^ p.steps = c := by
      rw [Nat.add_sub_assoc h2, Nat.mul_add_div h2, Nat.div_eq_of_lt (by omega)]; rfl
    rw [this, Nat.mul_comm]; rfl

/-- The second pass over one channel. -/
theorem chanP_merge {k : Kit R} {p : Params} (hv : ValidParams p) (hf : FilterLen k p) (ho : OrthoKit k p)
    (hdvd : ∀ n ∈ p.shape, 2 ^ p.steps ∣ n) {d1 d2 d3 : Denoiser R} (h1 : d1.Sized) (hm : Merges p d1 d2 d3) {x : Mat R} (hx : Shaped p x) :
    chanP p (scaling k p) d2 (outP k p 0 (chanP p (scaling k p) d1 x)) = chanP p (scaling k p) d3 x := by
  obtain ⟨e1, e2⟩ := composed_parts hv hf ho hdvd h1 hx
  refine chanP_ext ?_ e2
  intro s hs
  rw [detailStep_clean, e1 s hs, detailStep_clean _ _ d1, detailStep_clean _ _ d3, List.map_map]
  apply List.map_congr_left
  intro m hmem
  obtain ⟨j, hj, rfl⟩ := List.getElem_of_mem hmem
  have hj' : j < subbandsPerWT p := by simpa [length_detailStep] using hj
  have fit := detailStep_fits (k := k) hv nullDenoiser_sized hs (fits_sig (k := k) hv (fits_padOf hv hx) hs.le) hj'
  rw [List.getD, List.getElem?_eq_getElem hj, Option.getD_some] at fit
  have small := subband_small hv hdvd (show s + 1 ≤ p.steps by omega) fit
  generalize (detailStep p (scaling k p) nullDenoiser s (sig p (scaling k p) (padOf p x) s))[j] = m at fit small ⊢
  unfold cleanOne
  simp only [Function.comp]
  split_ifs with hd
  · have hc : m.cols = 1 := by rw [fit.2, if_pos hd]
    rw [Mat.col_ofCol, (hm s hs).1 _ (by simpa [hc] using small)]
  · exact (hm s hs).2 _ small

end Ring

/-! ### Thresholds -/

section Threshold
variable {α : Type} [Zero α] [Add α] [Mul α] [NatCast α] [LT α] [DecidableLT α]

theorem threshold_merge (abs : α → α) {a b a' b' a'' b'' : α} {p : Params}
    (h : ∀ s < p.steps, ∀ x : α, getThreshold a'' b'' s < abs x ↔ getThreshold a b s < abs x ∧ getThreshold a' b' s < abs x) :
    Merges p (thresholdDenoiser abs a b) (thresholdDenoiser abs a' b') (thresholdDenoiser abs a'' b'') := by
  have one : ∀ s < p.steps, ∀ x : α, (if getThreshold a' b' s < abs (if getThreshold a b s < abs x then x else 0) then
      (if getThreshold a b s < abs x then x else 0) else 0) = if getThreshold a'' b'' s < abs x then x else 0 := by
    intro s hs x
    by_cases h1 : getThreshold a b s < abs x
    · simp only [if_pos h1]
      by_cases h2 : getThreshold a' b' s < abs x
      · rw [if_pos h2, if_pos ((h s hs x).2 ⟨h1, h2⟩)]
      · rw [if_neg h2, if_neg (fun h3 => h2 ((h s hs x).1 h3).2)]
    · simp only [if_neg h1]
      rw [if_neg (fun h3 => h1 ((h s hs x).1 h3).1)]
      split_ifs <;> rfl
  intro s hs
  constructor
  · intro v _
    simp only [thresholdDenoiser, threshold1, List.map_map]
    exact List.map_congr_left fun x _ => one s hs x
  · intro m _
    simp only [thresholdDenoiser, threshold2]
    rw [Mat.eq_iff]
    refine ⟨rfl, rfl, ?_⟩
    simp only [Mat.map, List.map_map]
    exact List.map_congr_left fun x _ => one s hs x

end Threshold

/-! ### The largest coefficients -/

open Finset in
/-- Keeping the largest of what has at most that many non-zero entries changes nothing. -/
theorem keepsLargest_same {data r : Mat ℝ} {count : ℕ} (h : KeepsLargest (fun x : ℝ => |x|) count data r) (hn : nonzeros data ≤ count) :
    r = data := by
  classical
  obtain ⟨hr, hc, kept, hin, hcard, hval, hmax⟩ := h
  rw [← Mat.ofFn_get r, ← Mat.ofFn_get data, hr, hc]
  apply Mat.ofFn_congr
  intro i hi j hj
  rw [hval i hi j hj]
  split_ifs with hk
  · rfl
  by_contra hne
  have hne : data.get i j ≠ 0 := fun e => hne e.symm
  have sub : insert (i, j) kept ⊆ ((range data.rows ×ˢ range data.cols).filter fun q => data.get q.1 q.2 ≠ 0) := by
    intro q hq
    rw [mem_insert] at hq
    rw [mem_filter, mem_product, mem_range, mem_range]
    rcases hq with rfl | hq
    · exact ⟨⟨hi, hj⟩, hne⟩
    · refine ⟨hin q hq, ?_⟩
      intro h0
      have := hmax q hq i hi j hj hk
      rw [h0, abs_zero] at this
      exact this (abs_pos.2 hne)
  have := card_le_card sub
  rw [card_insert_of_notMem hk, hcard] at this
  unfold nonzeros at hn
  omega

end WB
