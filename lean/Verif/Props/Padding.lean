import Verif.Proof.Padding
import Verif.Spec.Signal

/-!
Property C17: padding and cropping.
-/

namespace WB.Props

open WB WB.Spec

variable {α : Type}

/-- C17, zero-derivative padding. The result has the requested size; there is an offset per axis (0 when padding on
the right, half of the added samples rounded down when padding on both sides) such that every sample of the result
is the source sample nearest to its position; original samples are unaltered and cropping with the same
location returns the original matrix. -/
theorem C17_extend_replicates_edges [Inhabited α] (src : Mat α) (rows cols : ℕ) (loc : PadLoc)
    (hr0 : 0 < src.rows) (hc0 : 0 < src.cols) (hr : src.rows ≤ rows) (hc : src.cols ≤ cols) :
    ∃ top left : ℕ,
      (top = match loc with | .right => 0 | .both => (rows - src.rows) / 2) ∧
      (left = match loc with | .right => 0 | .both => (cols - src.cols) / 2) ∧
      ∃ m, extend rows cols loc src = .ok m ∧ m.rows = rows ∧ m.cols = cols ∧
      (∀ i < rows, ∀ j < cols, ∃ i' < src.rows, ∃ j' < src.cols, m.get i j = src.get i' j' ∧
        (∀ q < src.rows, ((i : ℤ) - (top + i' : ℕ)).natAbs ≤ ((i : ℤ) - (top + q : ℕ)).natAbs) ∧
        (∀ q < src.cols, ((j : ℤ) - (left + j' : ℕ)).natAbs ≤ ((j : ℤ) - (left + q : ℕ)).natAbs)) ∧
      (∀ i < src.rows, ∀ j < src.cols, m.get (top + i) (left + j) = src.get i j) ∧
      crop src.rows src.cols loc m = .ok src := by
  refine ⟨padOffset loc rows src.rows, padOffset loc cols src.cols, by cases loc <;> rfl, by cases loc <;> rfl,
    _, extend_ok rows cols loc src hr hc hr0 hc0, rfl, rfl, ?_, ?_, ?_⟩
  · intro i hi j hj
    refine ⟨clampIdx (padOffset loc rows src.rows) src.rows i, by unfold clampIdx; omega,
      clampIdx (padOffset loc cols src.cols) src.cols j, by unfold clampIdx; omega, ?_, ?_, ?_⟩
    · rw [Mat.get_ofFn hi hj]
    · intro q hq; unfold clampIdx; omega
    · intro q hq; unfold clampIdx; omega
  · intro i hi j hj
    have h1 := padOffset_add_le loc hr
    have h2 := padOffset_add_le loc hc
    rw [Mat.get_ofFn (by omega) (by omega)]
    congr 1 <;> unfold clampIdx <;> omega
  · have := crop_extend rows cols loc src hr hc hr0 hc0
    rw [extend_ok rows cols loc src hr hc hr0 hc0, Outcome.bind_ok] at this
    exact this

example : extend 3 4 .both (⟨2, 2, [1, 2, 3, 4], rfl⟩ : Mat ℕ) =
    .ok ⟨3, 4, [1, 1, 2, 2, 3, 3, 4, 4, 3, 3, 4, 4], rfl⟩ := by
  rw [extend_ok _ _ _ _ (by simp) (by simp) (by simp) (by simp)]
  congr 1

/-- C17, zero padding. Inside the rectangle at the offset are the original samples, everywhere else zeros; cropping
returns the original matrix. -/
theorem C17_zero_padding [Inhabited α] (zero : α) (src : Mat α) (rows cols : ℕ) (loc : PadLoc)
    (hr0 : 0 < src.rows) (hc0 : 0 < src.cols) (hr : src.rows ≤ rows) (hc : src.cols ≤ cols) :
    ∃ top left : ℕ,
      (top = match loc with | .right => 0 | .both => (rows - src.rows) / 2) ∧
      (left = match loc with | .right => 0 | .both => (cols - src.cols) / 2) ∧
      ∃ m, zeroExtend zero rows cols loc src = .ok m ∧ m.rows = rows ∧ m.cols = cols ∧
      (∀ i < src.rows, ∀ j < src.cols, m.get (top + i) (left + j) = src.get i j) ∧
      (∀ i < rows, ∀ j < cols, (i < top ∨ top + src.rows ≤ i ∨ j < left ∨ left + src.cols ≤ j) →
        m.get i j = zero) ∧
      crop src.rows src.cols loc m = .ok src := by
  have hne : rows * cols ≠ 0 := by
    have h1 : 0 < rows := by omega
    have h2 : 0 < cols := by omega
    positivity
  have h1 := padOffset_add_le loc hr
  have h2 := padOffset_add_le loc hc
  refine ⟨padOffset loc rows src.rows, padOffset loc cols src.cols, by cases loc <;> rfl, by cases loc <;> rfl,
    _, zeroExtend_ok zero rows cols loc src hr hc hne, rfl, rfl, ?_, ?_, ?_⟩
  · intro i hi j hj
    rw [Mat.get_ofFn (by omega) (by omega)]
    simp only
    rw [if_pos (by omega)]
    congr 1 <;> omega
  · intro i hi j hj hout
    rw [Mat.get_ofFn hi hj]
    simp only
    rw [if_neg (by omega)]
  · rw [crop_ok _ _ _ _ (by simpa using hr) (by simpa using hc) (by positivity)]
    congr 1
    refine Mat.ext' rfl rfl ?_
    intro i hi j hj
    simp only [Mat.rows_ofFn, Mat.cols_ofFn] at hi hj
    rw [Mat.get_ofFn hi hj]
    simp only [Mat.rows_ofFn, Mat.cols_ofFn]
    rw [Mat.get_ofFn (by omega) (by omega), if_pos (by omega)]
    congr 1 <;> omega

example : zeroExtend 0 3 2 .both (⟨1, 2, [1, 2], rfl⟩ : Mat ℕ) = .ok ⟨3, 2, [0, 0, 1, 2, 0, 0], rfl⟩ := by
  rw [zeroExtend_ok _ _ _ _ _ (by simp) (by simp) (by simp)]
  congr 1

/-- C17, as the buffer uses it: padding a non-empty signal to any larger shape and cropping to its own shape returns it. -/
theorem C17_buffer_crop_undoes_padding [Inhabited α] (m : Mat α) (shape padded : List ℕ) (hm : HasShape shape m)
    (hpos : ∀ n ∈ shape, 0 < n) (hlen : padded.length = shape.length)
    (hle : ∀ i n k : ℕ, shape[i]? = some n → padded[i]? = some k → n ≤ k) :
    ∃ m', addPadding m padded = .ok m' ∧ HasShape padded m' ∧ cropPadding m' shape = .ok m := by
  have key : ∀ r c, m.rows ≤ r → m.cols ≤ c → 0 < m.rows → 0 < m.cols → matRows padded = r → matCols padded = c →
      matRows shape = m.rows → matCols shape = m.cols →
      ∃ m', addPadding m padded = .ok m' ∧ (m'.rows = r ∧ m'.cols = c) ∧ cropPadding m' shape = .ok m := by
    intro r c hr hc hr0 hc0 h1 h2 h3 h4
    have he := extend_ok r c .both m hr hc hr0 hc0
    have hcr := crop_extend r c .both m hr hc hr0 hc0
    rw [he, Outcome.bind_ok] at hcr
    have hpad := he
    rw [← h1, ← h2] at hpad
    exact ⟨_, hpad, ⟨h1, h2⟩, by unfold cropPadding; rw [h3, h4, h1, h2]; exact hcr⟩
  match shape, padded, hm, hlen, hpos, hle with
  | [n], [k], hm, _, hpos, hle =>
    obtain ⟨hr, hc⟩ := hm
    have hnk := hle 0 n k rfl rfl
    have h0 := hpos n (by simp)
    obtain ⟨m', h1, h2, h3⟩ := key k 1 (by omega) (by omega) (by omega) (by omega) rfl rfl hr.symm hc.symm
    exact ⟨m', h1, h2, h3⟩
  | [w, h], [w', h'], hm, _, hpos, hle =>
    obtain ⟨hr, hc⟩ := hm
    have hw := hle 0 w w' rfl rfl
    have hh := hle 1 h h' rfl rfl
    have hw0 := hpos w (by simp)
    have hh0 := hpos h (by simp)
    obtain ⟨m', h1, h2, h3⟩ := key h' w' (by omega) (by omega) (by omega) (by omega) rfl rfl hr.symm hc.symm
    exact ⟨m', h1, h2, h3⟩

/-- An image of width 3 and height 2, padded to width 4 and height 4. -/
example : HasShape [3, 2] (⟨2, 3, [1, 2, 3, 4, 5, 6], rfl⟩ : Mat ℕ) ∧
    addPadding (⟨2, 3, [1, 2, 3, 4, 5, 6], rfl⟩ : Mat ℕ) [4, 4] =
      .ok ⟨4, 4, [1, 2, 3, 3, 1, 2, 3, 3, 4, 5, 6, 6, 4, 5, 6, 6], rfl⟩ := by
  refine ⟨⟨rfl, rfl⟩, ?_⟩
  unfold addPadding
  rw [extend_ok _ _ _ _ (by simp [matRows]) (by simp [matCols]) (by simp) (by simp)]
  congr 1
end WB.Props
