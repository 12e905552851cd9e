import Verif.Proof.Denoise
import Verif.Proof.Bridge
import Verif.Proof.Compose
import Mathlib.Algebra.Order.Floor.Ring
import Mathlib.Algebra.Order.Archimedean.Real.Basic

/-!
Properties C18 and C19: the denoisers.
-/

namespace WB.Props

open WB WB.Spec

section Threshold
variable {α : Type} [Zero α] [Add α] [Mul α] [NatCast α] [LT α] [DecidableLT α]

/-- C18. On one subband of step `s`: the size is kept, an entry is kept when its magnitude exceeds `a s + b`, otherwise it
becomes zero, and a second application changes nothing. Nothing is assumed about the arithmetic or the comparison, so this
holds for floats with NaN and ties as they are. -/
theorem C18_threshold_entries [Inhabited α] (abs : α → α) (a b : α) (m : Mat α) (s : ℕ) :
    let r := (thresholdDenoiser abs a b).d2 m s
    r.rows = m.rows ∧ r.cols = m.cols ∧
    (∀ i < m.rows, ∀ j < m.cols, (a * s + b < abs (m.get i j) → r.get i j = m.get i j) ∧
      (¬ a * s + b < abs (m.get i j) → r.get i j = 0)) ∧
    (thresholdDenoiser abs a b).d2 r s = r := by
  refine ⟨rfl, rfl, ?_, ?_⟩
  · intro i hi j hj
    have : ((thresholdDenoiser abs a b).d2 m s).get i j =
        if getThreshold a b s < abs (m.get i j) then m.get i j else 0 := Mat.get_map _ m hi hj
    rw [this]
    exact ⟨fun h => if_pos h, fun h => if_neg h⟩
  · rw [Mat.eq_iff]
    refine ⟨rfl, rfl, ?_⟩
    show (m.data.map _).map _ = m.data.map _
    rw [List.map_map]
    apply List.map_congr_left
    intro x _
    simp only [Function.comp]
    by_cases h : getThreshold a b s < abs x
    · rw [if_pos h, if_pos h]
    · rw [if_neg h]; split_ifs <;> rfl

/-- C18 for vectors. -/
theorem C18_threshold_entries_1D (abs : α → α) (a b : α) (v : List α) (s : ℕ) :
    let r := (thresholdDenoiser abs a b).d1 v s
    r.length = v.length ∧
    (∀ (i : ℕ) (x : α), v[i]? = some x → (a * s + b < abs x → r[i]? = some x) ∧ (¬ a * s + b < abs x → r[i]? = some 0)) ∧
    (thresholdDenoiser abs a b).d1 r s = r := by
  refine ⟨by simp [thresholdDenoiser, threshold1], ?_, ?_⟩
  · intro i x hx
    have : ((thresholdDenoiser abs a b).d1 v s)[i]? = some (if getThreshold a b s < abs x then x else 0) := by
      simp [thresholdDenoiser, threshold1, hx]
    rw [this]
    exact ⟨fun h => congrArg some (if_pos h), fun h => congrArg some (if_neg h)⟩
  · show (v.map _).map _ = v.map _
    rw [List.map_map]
    apply List.map_congr_left
    intro x _
    simp only [Function.comp]
    by_cases h : getThreshold a b s < abs x
    · rw [if_pos h, if_pos h]
    · rw [if_neg h]; split_ifs <;> rfl

/-- C18. After a `Decompose` with the threshold denoiser: the approximation is that of the decomposition without denoising,
and every detail coefficient of step `s` is the undenoised one if that exceeds `a s + b` in magnitude, and zero
otherwise. -/
theorem C18_threshold_after_decompose [Neg α] [Inhabited α] (k : Kit α) (b : Buffer α) (hb : WellFormed b)
    (hk : FilterPresent k b.params) (hch : 0 < b.params.signalNumber) (data : List (Mat α))
    (hd : IsSignal b.params data) (abs : α → α) (a c : α) :
    ∃ d d0, b.decompose k data (thresholdDenoiser abs a c) = .ok d true ∧
      b.decompose k data nullDenoiser = .ok d0 true ∧ d.length = data.length ∧ d0.length = data.length ∧
      ∀ (ch : ℕ) (x x0 : List (Mat α)), d[ch]? = some x → d0[ch]? = some x0 →
        x.length = subbandCount b.params ∧ x0.length = subbandCount b.params ∧ x.getLast? = x0.getLast? ∧
        ∀ s < b.params.steps, ∀ j < detailsPerStep b.params, ∀ m m0 : Mat α,
          x[s * detailsPerStep b.params + j]? = some m → x0[s * detailsPerStep b.params + j]? = some m0 →
          m.rows = m0.rows ∧ m.cols = m0.cols ∧
          ∀ i < m0.rows, ∀ l < m0.cols, (a * s + c < abs (m0.get i l) → m.get i l = m0.get i l) ∧
            (¬ a * s + c < abs (m0.get i l) → m.get i l = 0) := by
  have hden : KeepsSizes (thresholdDenoiser abs a c) := ⟨fun v s => by simp [thresholdDenoiser, threshold1],
    fun m s => ⟨rfl, rfl⟩⟩
  refine ⟨_, _, decompose_ok hb hk hch hd (fun _ => hden), decompose_ok hb hk hch hd (fun _ => nullDenoiser_sized),
    by simp, by simp, ?_⟩
  intro ch x x0 hx hx0
  rw [List.getElem?_map] at hx hx0
  obtain ⟨y, hy⟩ : ∃ y, data[ch]? = some y := by
    rcases h : data[ch]? with _ | y
    · rw [h] at hx; simp at hx
    · exact ⟨y, rfl⟩
  rw [hy] at hx hx0
  simp only [Option.map_some, Option.some.injEq] at hx hx0
  subst hx hx0
  refine ⟨chanP_length _ _ _ _, chanP_length _ _ _ _, by simp [chanP], ?_⟩
  intro s hs j hj m m0 hm hm0
  have h1 := chanP_detail b.params (scaling k b.params) (thresholdDenoiser abs a c) y hs hj default
  have h2 := chanP_detail b.params (scaling k b.params) nullDenoiser y hs hj default
  have hsub : subbandsPerWT b.params = detailsPerStep b.params := rfl
  rw [List.getD, hsub, hm, Option.getD_some] at h1
  rw [List.getD, hsub, hm0, Option.getD_some] at h2
  have hmap : m = m0.map (fun x => if getThreshold a c s < abs x then x else 0) := by
    rw [h1, h2]
    unfold detailStep
    split_ifs with hdim
    · have hj0 : j = 0 := by rw [← hsub, subbandsPerWT, if_pos hdim] at hj; omega
      subst hj0
      rw [Mat.eq_iff]
      exact ⟨by simp [thresholdDenoiser, threshold1, nullDenoiser], rfl, rfl⟩
    · have hj3 : j < 3 := by rw [← hsub, subbandsPerWT, if_neg hdim] at hj; omega
      rcases (by omega : j = 0 ∨ j = 1 ∨ j = 2) with rfl | rfl | rfl <;> rfl
  subst hmap
  refine ⟨rfl, rfl, ?_⟩
  intro i hi l hl
  rw [Mat.get_map _ m0 hi hl]
  exact ⟨fun h => if_pos h, fun h => if_neg h⟩

end Threshold

section Simple
variable {α : Type} [Zero α] [Mul α] [NatCast α] [LT α] [Inhabited α]

/-- C19. Images: whatever partition `std::nth_element` produces, the simple denoiser succeeds and keeps exactly
`n - min (trunc (n * level)) (n - 1)` entries, none of which is smaller in magnitude than a dropped one; the rest is zero.
`cut` is the number `n * level` converted to `size_t`. Nothing is assumed about the arithmetic. (The claim about level 1 is
false, see `C19_level_one_keeps_one`.) -/
theorem C19_simple_2D_partial (ext : SimpleExt α) (level : α) (data : Mat α) (cut : ℕ)
    (hcut : ext.toSize (((data.rows * data.cols : ℕ) : α) * level) = .ok cut)
    (hnth : ∀ v n, n ≤ v.length → NthContract Prod.fst v n (ext.nth2 v n)) :
    ∃ r, simple2 ext level data = .ok r ∧
      KeepsLargest ext.abs (data.rows * data.cols - min cut (data.rows * data.cols - 1)) data r :=
  simple2_ok ext level data cut hcut hnth

/-- C19 for vectors. -/
theorem C19_simple_1D_partial (ext : SimpleExt α) (level : α) (data : List α) (cut : ℕ)
    (hcut : ext.toSize ((data.length : α) * level) = .ok cut)
    (hnth : ∀ v n, n ≤ v.length → NthContract Prod.fst v n (ext.nth1 v n)) :
    ∃ r, simple1 ext level data = .ok r ∧
      KeepsLargest ext.abs (data.length - min cut (data.length - 1)) (Mat.ofCol data) (Mat.ofCol r) :=
  simple1_ok ext level data cut hcut hnth

omit [Mul α] [NatCast α] in
/-- Keeping all entries is doing nothing. -/
theorem keepsLargest_all {abs : α → α} {data r : Mat α} (h : KeepsLargest abs (data.rows * data.cols) data r) :
    r = data := by
  obtain ⟨hr, hc, kept, hin, hcard, hval, _⟩ := h
  have hall : kept = Finset.range data.rows ×ˢ Finset.range data.cols := by
    apply Finset.eq_of_subset_of_card_le
    · intro p hp
      have := hin p hp
      simp [this.1, this.2]
    · rw [hcard]; simp
  refine Mat.ext' hr hc ?_
  intro i hi j hj
  rw [hval i (by omega) j (by omega), if_pos]
  rw [hall]; simp; omega

end Simple

section Real

/-- The arithmetic of the reals with conversion to `size_t` by truncation. -/
def ExactCast (ext : SimpleExt ℝ) : Prop :=
  (∀ x, ext.abs x = |x|) ∧ ∀ x, 0 ≤ x → x < 2 ^ 64 → ext.toSize x = .ok ⌊x⌋₊

/-- C19 with a level in `[0, 1]`, over the reals; level 0 changes nothing. -/
theorem C19_simple_levels_partial (ext : SimpleExt ℝ) (harith : ExactCast ext) (level : ℝ) (h0 : 0 ≤ level)
    (h1 : level ≤ 1) (data : Mat ℝ) (hsize : data.rows * data.cols < 2 ^ 64)
    (hnth : ∀ v n, n ≤ v.length → NthContract Prod.fst v n (ext.nth2 v n)) :
    ∃ r, simple2 ext level data = .ok r ∧
      KeepsLargest (fun x => |x|)
        (data.rows * data.cols - min ⌊((data.rows * data.cols : ℕ) : ℝ) * level⌋₊ (data.rows * data.cols - 1)) data r ∧
      (level = 0 → r = data) := by
  have hprod : 0 ≤ ((data.rows * data.cols : ℕ) : ℝ) * level := by positivity
  have hlt : ((data.rows * data.cols : ℕ) : ℝ) * level < 2 ^ 64 := by
    have h2 : ((data.rows * data.cols : ℕ) : ℝ) < 2 ^ 64 := by exact_mod_cast hsize
    have h3 : (0 : ℝ) ≤ ((data.rows * data.cols : ℕ) : ℝ) := by positivity
    nlinarith
  obtain ⟨r, hr, hk⟩ := simple2_ok ext level data _ (harith.2 _ hprod hlt) hnth
  have habs : ext.abs = fun x => |x| := funext harith.1
  rw [habs] at hk
  refine ⟨r, hr, hk, ?_⟩
  rintro rfl
  rw [mul_zero, Nat.floor_zero, Nat.zero_min, Nat.sub_zero] at hk
  exact keepsLargest_all hk

/-- The documentation says that at level 1 all values are zero. They are not: one entry, of the largest magnitude, is always
kept, so a subband with a nonzero entry never becomes zero. -/
theorem C19_level_one_keeps_one (ext : SimpleExt ℝ) (harith : ExactCast ext) (data : Mat ℝ)
    (hsize : data.rows * data.cols < 2 ^ 64) (hne : ∃ i < data.rows, ∃ j < data.cols, data.get i j ≠ 0)
    (hnth : ∀ v n, n ≤ v.length → NthContract Prod.fst v n (ext.nth2 v n)) :
    ∃ r, simple2 ext 1 data = .ok r ∧ ∃ i < data.rows, ∃ j < data.cols, r.get i j ≠ 0 := by
  obtain ⟨r, hr, ⟨_, _, kept, hin, hcard, hval, hmax⟩, _⟩ :=
    C19_simple_levels_partial ext harith 1 zero_le_one le_rfl data hsize hnth
  refine ⟨r, hr, ?_⟩
  obtain ⟨i, hi, j, hj, hij⟩ := hne
  have hpos : 0 < data.rows * data.cols := Nat.mul_pos (by omega) (by omega)
  rw [mul_one, Nat.floor_natCast] at hcard
  have hone : 0 < kept.card := by rw [hcard]; omega
  obtain ⟨p, hp⟩ := Finset.card_pos.1 hone
  have hp' := hin p hp
  by_cases hk : (i, j) ∈ kept
  · exact ⟨i, hi, j, hj, by rw [hval i hi j hj, if_pos hk]; exact hij⟩
  · refine ⟨p.1, hp'.1, p.2, hp'.2, ?_⟩
    rw [hval _ hp'.1 _ hp'.2, if_pos hp]
    intro h0
    apply hmax p hp i hi j hj hk
    simp only [h0, abs_zero]
    exact abs_pos.2 hij

end Real

/-! ### Concrete cases -/

/-- Threshold `2·1 + 1 = 3` at step 1: a tie is dropped. -/
example : (thresholdDenoiser (α := ℤ) (fun x => |x|) 2 1).d2 ⟨2, 2, [3, -4, 0, 5], rfl⟩ 1 = ⟨2, 2, [0, -4, 0, 5], rfl⟩ := by
  rfl

/-- A buffer for `C18_threshold_after_decompose`. -/
example : WellFormed (Buffer.mk ⟨[4], 1, 1, 1⟩ [[Mat.empty, Mat.empty]] : Buffer ℤ) ∧
    IsSignal ⟨[4], 1, 1, 1⟩ [Mat.ofCol [1, 2, 3, (7 : ℤ)]] ∧
    FilterPresent (⟨fun o => if o = 1 then [1, 1] else [], id, fun _ _ x => x⟩ : Kit ℤ) ⟨[4], 1, 1, 1⟩ := by
  refine ⟨⟨⟨Or.inl rfl, by simp, by simp⟩, rfl, ?_⟩, ⟨rfl, ?_⟩, fun _ => rfl⟩
  · intro c hc; simp at hc; subst hc; rfl
  · intro m hm; simp at hm; subst hm; exact ⟨rfl, rfl⟩

/-- An `nth_element` that sorts completely meets the contract, and truncation meets the arithmetic. -/
noncomputable def sortingExt : SimpleExt ℝ :=
  ⟨fun x => |x|, fun x => if 0 ≤ x ∧ x < 2 ^ 64 then .ok ⌊x⌋₊ else .ub,
   fun v _ => v.insertionSort (fun a b => b.1 ≤ a.1), fun v _ => v.insertionSort (fun a b => b.1 ≤ a.1)⟩

example : ExactCast sortingExt := ⟨fun _ => rfl, fun _ h0 h1 => if_pos ⟨h0, h1⟩⟩

theorem sort_contract {δ : Type} (v : List (ℝ × δ)) (n : ℕ) :
    NthContract Prod.fst v n (v.insertionSort (fun a b => b.1 ≤ a.1)) := by
  refine ⟨List.perm_insertionSort _ _, ?_⟩
  intro i j x y hi hj hx hy
  have htot : Std.Total (fun a b : ℝ × δ => b.1 ≤ a.1) := ⟨fun a b => le_total _ _⟩
  have htr : IsTrans (ℝ × δ) (fun a b => b.1 ≤ a.1) := ⟨fun a b c h1 h2 => le_trans h2 h1⟩
  have hs := List.pairwise_insertionSort (fun a b : ℝ × δ => b.1 ≤ a.1) v
  rw [List.getElem?_eq_some_iff] at hx hy
  obtain ⟨h1, rfl⟩ := hx
  obtain ⟨h2, rfl⟩ := hy
  have := List.pairwise_iff_getElem.1 hs i j h1 h2 (by omega)
  simpa using this

/-- Both hypotheses of C19 hold for `sortingExt`; half of a 2×2 image is dropped, level 1 keeps one entry. -/
example : ∃ r, simple2 sortingExt (1 / 2) ⟨2, 2, [1, -4, 3, 0], rfl⟩ = .ok r ∧
    KeepsLargest (fun x : ℝ => |x|) 2 ⟨2, 2, [1, -4, 3, 0], rfl⟩ r := by
  obtain ⟨r, h1, h2, _⟩ := C19_simple_levels_partial sortingExt ⟨fun _ => rfl, fun _ h0 h1 => if_pos ⟨h0, h1⟩⟩ (1 / 2)
    (by norm_num) (by norm_num) ⟨2, 2, [1, -4, 3, 0], rfl⟩ (by norm_num) (fun v n _ => sort_contract v n)
  refine ⟨r, h1, ?_⟩
  have : ⌊(((2 * 2 : ℕ)) : ℝ) * (1 / 2)⌋₊ = 2 := by
    rw [show (((2 * 2 : ℕ)) : ℝ) * (1 / 2) = ((2 : ℕ) : ℝ) by norm_num, Nat.floor_natCast]
  simp only [this] at h2
  exact h2

end WB.Props
