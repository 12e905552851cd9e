import Verif.Model.Padding

namespace WB

variable {α : Type}

namespace Raw

/-- The cells after a `fill` that is inside the matrix. -/
def upd (m : Raw α) (r0 c0 nr nc : ℕ) (v : ℕ → ℕ → α) : Raw α :=
  ⟨m.rows, m.cols, fun i j =>
    if r0 ≤ i ∧ i < r0 + nr ∧ c0 ≤ j ∧ j < c0 + nc then some (v (i - r0) (j - c0)) else m.cell i j⟩

theorem fill_ok {m : Raw α} {r0 c0 nr nc : ℕ} {v : ℕ → ℕ → α} (hr : r0 + nr ≤ m.rows)
    (hc : c0 + nc ≤ m.cols) : m.fill r0 c0 nr nc v = .ok (m.upd r0 c0 nr nc v) := by
  simp [fill, upd, hr, hc]

theorem condFill_ok {m : Raw α} {r0 c0 nr nc : ℕ} {v : ℕ → ℕ → α} {c : Prop} [Decidable c]
    (hr : r0 + nr ≤ m.rows) (hc : c0 + nc ≤ m.cols) (hn : ¬ c → nr = 0 ∨ nc = 0) :
    m.fillIf c r0 c0 nr nc v = .ok (m.upd r0 c0 nr nc v) := by
  unfold fillIf
  split_ifs with h
  · exact fill_ok hr hc
  · have : m.upd r0 c0 nr nc v = m := by
      unfold upd
      cases m with
      | mk r c cell =>
        simp only [Raw.mk.injEq, true_and]
        funext i j
        rw [if_neg]
        rcases hn h with h0 | h0 <;> omega
    rw [this]

theorem done_ok [Inhabited α] {m : Raw α} {f : ℕ → ℕ → α}
    (h : ∀ i < m.rows, ∀ j < m.cols, m.cell i j = some (f i j)) :
    m.done = .ok (Mat.ofFn m.rows m.cols f) := by
  unfold done
  rw [if_pos]
  · congr 1
    apply Mat.ofFn_congr
    intro i hi j hj
    simp [h i hi j hj]
  · intro i hi j hj
    simp [h i hi j hj]

end Raw

/-- Nearest valid index: position `i` of the padded axis reads sample `min (i - pad) (n - 1)`. -/
def clampIdx (pad n i : ℕ) : ℕ := min (i - pad) (n - 1)

/-- Offset of the original in the padded matrix. -/
def padOffset (loc : PadLoc) (big small : ℕ) : ℕ := if loc = .right then 0 else (big - small) / 2

theorem extend_ok [Inhabited α] (rows cols : ℕ) (loc : PadLoc) (src : Mat α)
    (hr : src.rows ≤ rows) (hc : src.cols ≤ cols) (hr0 : 0 < src.rows) (hc0 : 0 < src.cols) :
    extend rows cols loc src = .ok (Mat.ofFn rows cols (fun i j =>
      src.get (clampIdx (padOffset loc rows src.rows) src.rows i)
        (clampIdx (padOffset loc cols src.cols) src.cols j))) := by
  have hne : rows * cols ≠ 0 := by
    have h1 : 0 < rows := by omega
    have h2 : 0 < cols := by omega
    positivity
  unfold extend
  rw [if_neg hne, if_neg (by omega), if_neg (by omega), if_neg (by omega)]
  simp only
  set top := (if loc = .right then 0 else (rows - src.rows) / 2) with htop
  set left := (if loc = .right then 0 else (cols - src.cols) / 2) with hleft
  set right := (if loc = .right then cols - src.cols else (cols - src.cols) / 2 + (cols - src.cols) % 2) with hright
  set bottom := (if loc = .right then rows - src.rows else (rows - src.rows) / 2 + (rows - src.rows) % 2) with hbottom
  have hR : top + src.rows + bottom = rows := by
    rw [htop, hbottom]; split_ifs <;> omega
  have hC : left + src.cols + right = cols := by
    rw [hleft, hright]; split_ifs <;> omega
  have ht : padOffset loc rows src.rows = top := rfl
  have hl : padOffset loc cols src.cols = left := rfl
  rw [ht, hl]
  clear_value top left right bottom
  rw [Raw.fill_ok (by simp [Raw.new]; omega) (by simp [Raw.new]; omega), Outcome.bind_ok]
  rw [Raw.condFill_ok (by simp [Raw.new, Raw.upd]; omega) (by simp [Raw.new, Raw.upd]; omega) (by omega), Outcome.bind_ok]
  rw [Raw.condFill_ok (by simp [Raw.new, Raw.upd]; omega) (by simp [Raw.new, Raw.upd]; omega) (by omega), Outcome.bind_ok]
  rw [Raw.condFill_ok (by simp [Raw.new, Raw.upd]; omega) (by simp [Raw.new, Raw.upd]; omega) (by omega), Outcome.bind_ok]
  rw [Raw.condFill_ok (by simp [Raw.new, Raw.upd]; omega) (by simp [Raw.new, Raw.upd]; omega) (by omega), Outcome.bind_ok]
  rw [Raw.condFill_ok (by simp [Raw.new, Raw.upd]; omega) (by simp [Raw.new, Raw.upd]; omega) (by omega), Outcome.bind_ok]
  rw [Raw.condFill_ok (by simp [Raw.new, Raw.upd]; omega) (by simp [Raw.new, Raw.upd]; omega) (by omega), Outcome.bind_ok]
  rw [Raw.condFill_ok (by simp [Raw.new, Raw.upd]; omega) (by simp [Raw.new, Raw.upd]; omega) (by omega), Outcome.bind_ok]
  rw [Raw.condFill_ok (by simp [Raw.new, Raw.upd]; omega) (by simp [Raw.new, Raw.upd]; omega) (by omega), Outcome.bind_ok]
  apply Raw.done_ok
  intro i hi j hj
  simp only [Raw.upd, Raw.new] at hi hj ⊢
  unfold clampIdx
  have h0 : min (i - top) (src.rows - 1) = if i < top then 0 else if i < top + src.rows then i - top else src.rows - 1 := by
    split_ifs <;> omega
  have h1 : min (j - left) (src.cols - 1) = if j < left then 0 else if j < left + src.cols then j - left else src.cols - 1 := by
    split_ifs <;> omega
  rw [h0, h1]
  clear h0 h1
  by_cases hi1 : i < top
  · by_cases hj1 : j < left
    · repeat (first | rw [if_neg (by omega)] | rw [if_pos (by omega)])
    · by_cases hj2 : j < left + src.cols
      · repeat (first | rw [if_neg (by omega)] | rw [if_pos (by omega)])
      · repeat (first | rw [if_neg (by omega)] | rw [if_pos (by omega)])
  · by_cases hi2 : i < top + src.rows
    · by_cases hj1 : j < left
      · repeat (first | rw [if_neg (by omega)] | rw [if_pos (by omega)])
      · by_cases hj2 : j < left + src.cols
        · repeat (first | rw [if_neg (by omega)] | rw [if_pos (by omega)])
        · repeat (first | rw [if_neg (by omega)] | rw [if_pos (by omega)])
    · by_cases hj1 : j < left
      · repeat (first | rw [if_neg (by omega)] | rw [if_pos (by omega)])
      · by_cases hj2 : j < left + src.cols
        · repeat (first | rw [if_neg (by omega)] | rw [if_pos (by omega)])
        · repeat (first | rw [if_neg (by omega)] | rw [if_pos (by omega)])

theorem zeroExtend_ok [Inhabited α] (zero : α) (rows cols : ℕ) (loc : PadLoc) (src : Mat α)
    (hr : src.rows ≤ rows) (hc : src.cols ≤ cols) (h0 : rows * cols ≠ 0) :
    zeroExtend zero rows cols loc src = .ok (Mat.ofFn rows cols (fun i j =>
      let r0 := padOffset loc rows src.rows
      let c0 := padOffset loc cols src.cols
      if r0 ≤ i ∧ i < r0 + src.rows ∧ c0 ≤ j ∧ j < c0 + src.cols then src.get (i - r0) (j - c0) else zero)) := by
  unfold zeroExtend
  rw [if_neg h0, if_neg (by omega)]
  have e1 : (if loc = .both then (rows - src.rows) / 2 else 0) = padOffset loc rows src.rows := by
    cases loc <;> simp [padOffset]
  have e2 : (if loc = .both then (cols - src.cols) / 2 else 0) = padOffset loc cols src.cols := by
    cases loc <;> simp [padOffset]
  have hr' : padOffset loc rows src.rows + src.rows ≤ rows := by
    cases loc <;> simp [padOffset] <;> omega
  have hc' : padOffset loc cols src.cols + src.cols ≤ cols := by
    cases loc <;> simp [padOffset] <;> omega
  simp only [e1, e2]
  rw [Raw.fill_ok (by simp [Raw.new]) (by simp [Raw.new]), Outcome.bind_ok,
    Raw.fill_ok (by simpa [Raw.new, Raw.upd] using hr') (by simpa [Raw.new, Raw.upd] using hc'), Outcome.bind_ok]
  apply Raw.done_ok
  intro i hi j hj
  simp only [Raw.upd, Raw.new] at hi hj ⊢
  split_ifs with h1 h2
  · rfl
  · rfl
  · omega

theorem crop_ok [Inhabited α] (rows cols : ℕ) (loc : PadLoc) (src : Mat α)
    (hr : rows ≤ src.rows) (hc : cols ≤ src.cols) (h0 : rows * cols ≠ 0) :
    crop rows cols loc src = .ok (Mat.ofFn rows cols (fun i j =>
      src.get (padOffset loc src.rows rows + i) (padOffset loc src.cols cols + j))) := by
  unfold crop
  rw [if_neg h0, if_neg (by omega)]
  cases loc <;> simp [padOffset]

theorem padOffset_add_le (loc : PadLoc) {big small : ℕ} (h : small ≤ big) :
    padOffset loc big small + small ≤ big := by
  cases loc <;> simp [padOffset] <;> omega

/-- Cropping to the original size undoes extending. -/
theorem crop_extend [Inhabited α] (rows cols : ℕ) (loc : PadLoc) (src : Mat α)
    (hr : src.rows ≤ rows) (hc : src.cols ≤ cols) (hr0 : 0 < src.rows) (hc0 : 0 < src.cols) :
    (extend rows cols loc src >>= fun m => crop src.rows src.cols loc m) = .ok src := by
  rw [extend_ok rows cols loc src hr hc hr0 hc0, Outcome.bind_ok,
    crop_ok _ _ _ _ (by simpa using hr) (by simpa using hc) (by positivity)]
  congr 1
  refine Mat.ext' rfl rfl ?_
  intro i hi j hj
  simp only [Mat.rows_ofFn, Mat.cols_ofFn] at hi hj
  have h1 := padOffset_add_le loc hr
  have h2 := padOffset_add_le loc hc
  rw [Mat.get_ofFn hi hj]
  simp only [Mat.rows_ofFn, Mat.cols_ofFn]
  rw [Mat.get_ofFn (by omega) (by omega)]
  have e1 : clampIdx (padOffset loc rows src.rows) src.rows (padOffset loc rows src.rows + i) = i := by
    unfold clampIdx; omega
  have e2 : clampIdx (padOffset loc cols src.cols) src.cols (padOffset loc cols src.cols + j) = j := by
    unfold clampIdx; omega
  rw [e1, e2]

end WB
