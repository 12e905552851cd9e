import Verif.Spec.Spread
import Verif.Props.Local

/-!
Values that infect what is computed from them: the path of a bad sample through decomposition and composition.
-/

namespace WB.Props

open Spec

section
set_option linter.unusedSectionVars false
variable {α : Type} [Zero α] [Add α] [Mul α] [Neg α] [Inhabited α] {bad : α → Prop} {k : Kit α}

theorem foldl_bad {β : Type} (hb : Contagious k bad) (g : β → α) : ∀ (l : List β) (a : α), (bad a ∨ ∃ e ∈ l, bad (g e)) → bad (l.foldl (fun acc e => acc + g e) a)
  | [], a, h => by
    rcases h with h | ⟨e, he, _⟩
    · exact h
    · simp at he
  | e :: l, a, h => by
    rw [List.foldl_cons]
    refine foldl_bad hb g l _ ?_
    rcases h with h | ⟨e', he, h⟩
    · exact Or.inl (hb.add _ _ (Or.inl h))
    · rcases List.mem_cons.1 he with rfl | he
      · exact Or.inl (hb.add _ _ (Or.inr h))
      · exact Or.inr ⟨e', he, h⟩

theorem anaP_bad (hb : Contagious k bad) {x f : List α} {i : ℕ} (hi : i < x.length) (hf : 2 ≤ f.length) (h : bad (x.getD i 0)) : bad (anaP x f (i / 2)) := by
  unfold anaP
  refine foldl_bad hb _ _ _ (Or.inr ⟨i % 2, by rw [List.mem_range]; omega, hb.mul _ _ (Or.inl ?_)⟩)
  rwa [Nat.div_add_mod', Nat.mod_eq_of_lt hi]

theorem synP_bad (hb : Contagious k bad) {low high lo hi : List α} {w i : ℕ} (hw : 0 < w) (hlo : lo.length = 2 * w) (hs : w ≤ low.length) (hi2 : i < 2 * low.length)
    (h : bad (low.getD (i / 2) 0)) : bad (synP low high lo hi i) := by
  unfold synP
  simp only [hlo]
  have step : ∀ (l : List ℕ) (a : α), (bad a ∨ (w - 1) ∈ l) → bad (l.foldl (fun acc jj =>
    acc + lo.getD ((if i % 2 = 0 then 1 else 0) + 2 * jj) 0 *
      low.getD ((low.length - (2 * w - 2) / 2 + i / 2 + jj) % low.length) 0
    + hi.getD ((if i % 2 = 0 then 1 else 0) + 2 * jj) 0 *
      high.getD ((low.length - (2 * w - 2) / 2 + i / 2 + jj) % low.length) 0) a) := by
    intro l
    induction l with
    | nil =>
      intro a h
      rcases h with h | h
      · exact h
      · simp at h
    | cons e l ih =>
      intro a h
      rw [List.foldl_cons]
      refine ih _ ?_
      rcases h with h | he
      · exact Or.inl (hb.add _ _ (Or.inl (hb.add _ _ (Or.inl h))))
      · rcases List.mem_cons.1 he with rfl | he
        · refine Or.inl (hb.add _ _ (Or.inl (hb.add _ _ (Or.inr (hb.mul _ _ (Or.inr ?_))))))
          rw [show low.length - (2 * w - 2) / 2 + i / 2 + (w - 1) = i / 2 + low.length by omega, Nat.add_mod_right, Nat.mod_eq_of_lt (by omega)]
          exact h
        · exact Or.inr he
  exact step _ _ (Or.inr (by rw [List.mem_range]; omega))

theorem mulP_bad (hb : Contagious k bad) {m : SpMat α} {x : List α} {r a : ℕ} (hs : m.supp r a) (h : bad (x.getD a 0)) : bad ((m.mulP x).getD r default) := by
  obtain ⟨e, he, rfl⟩ := hs
  rcases Nat.lt_or_ge r m.rowsE.length with hr | hr
  · unfold SpMat.mulP
    simp only [List.getD, List.getElem?_map, List.getElem?_eq_getElem hr, Option.map_some, Option.getD_some] at he ⊢
    exact foldl_bad hb (fun e : ℕ × α => e.2 * (x[e.1]?.getD 0)) _ _ (Or.inr ⟨e, he, hb.mul _ _ (Or.inr h)⟩)
  · rw [List.getD, List.getElem?_eq_none hr] at he
    simp at he

/-- The first two taps of a row of the low pass are at twice its number. -/
theorem supp_low {lo hi : List α} {n a : ℕ} (h2 : 2 ≤ lo.length) (hn : lo.length ≤ 2 * n) (ha : a < 2 * n) : (daubP lo hi (2 * n)).supp (a / 2) a := by
  have hdiv : 2 * n / 2 = n := by omega
  have e : (daubP lo hi (2 * n)).rowsE.getD (a / 2) [] = rowP lo (2 * n) (a / 2) := by
    unfold daubP
    simp only [hdiv]
    have h1 : a / 2 < n := by omega
    rw [List.getD, List.getElem?_append_left (by simpa using h1)]
    simp [h1]
  unfold SpMat.supp
  rw [e]
  unfold rowP
  by_cases hc : lo.length < 2 * n - 2 * (a / 2)
  · refine ⟨_, List.mem_map.2 ⟨a % 2, List.mem_range.2 (by omega), rfl⟩, ?_⟩
    show tapCol _ _ _ _ = _
    unfold tapCol
    rw [if_pos hc]
    omega
  · refine ⟨_, List.mem_map.2 ⟨lo.length + 2 * (a / 2) - 2 * n + a % 2, List.mem_range.2 (by omega), rfl⟩, ?_⟩
    show tapCol _ _ _ _ = _
    unfold tapCol
    rw [if_neg hc, if_neg (by omega)]
    omega

theorem supp_turned {m : SpMat α} {r a : ℕ} (h : m.supp a r) (hr : r < m.cols) : m.transpose.supp r a := by
  obtain ⟨e, he, rfl⟩ := h
  rcases Nat.lt_or_ge a m.rowsE.length with ha | ha
  · rw [List.getD, List.getElem?_eq_getElem ha, Option.getD_some] at he
    refine ⟨(a, e.2), ?_, rfl⟩
    unfold SpMat.transpose
    simp only
    rw [List.getD]
    simp only [List.getElem?_map, List.getElem?_range hr, Option.map_some, Option.getD_some, List.mem_flatMap, List.mem_map, List.mem_filter]
    exact ⟨(m.rowsE[a], a), List.mem_zipIdx_iff_getElem?.2 (List.getElem?_eq_getElem ha), e, ⟨he, by simp⟩, rfl⟩
  · rw [List.getD, List.getElem?_eq_none ha] at he
    simp at he

theorem sep_bad (hb : Contagious k bad) {m : Mat α} {W H : SpMat α} {r c a b : ℕ} (hr : r < m.rows) (hc : c < m.cols) (ha : a < m.rows) (hbc : b < m.cols)
    (hH : H.supp r a) (hW : W.supp c b) (h : bad (m.get a b)) : bad ((colsP (rowsP m W) H).get r c) := by
  unfold colsP
  rw [Mat.get_ofFn (by exact hr) (by exact hc)]
  refine mulP_bad hb hH ?_
  rw [col_getD _ _ (by exact ha)]
  unfold rowsP
  rw [Mat.get_ofFn ha hc]
  refine mulP_bad hb hW ?_
  rwa [row_getD _ _ hbc]

/-- A bad sample makes the approximation bad at half its place. -/
theorem approx_bad {p : Params} (hb : Contagious k bad) (hv : ValidParams p) (hf : FilterLen k p) {s : ℕ} (hs : s < p.steps) {m : Mat α} (hm : Fits p s m) {i j : ℕ}
    (hi : i < m.rows) (hj : j < m.cols) (h : bad (m.get i j)) : bad ((approxStep p (scaling k p) m).get (i / 2) (j / 2)) := by
  have ht := wavelet_of_steps hv hs
  have hw : 0 < p.wtype := by omega
  have hlen := length_scaling hf ht
  rcases fits_halves hv ht hs hm with ⟨hd, n2, h1, h2, h3, h4⟩ | ⟨hd, sh, sw, h1, h2, h3, h4, h5, h6, _⟩
  · unfold approxStep
    rw [if_pos hd]
    obtain rfl : j = 0 := by omega
    rw [Nat.zero_div, Mat.get_ofCol, getD_map_range' _ _ _ (by omega)]
    refine anaP_bad hb (by simpa [Mat.col] using hi) (by omega) ?_
    rwa [col_getD _ _ hi]
  · unfold approxStep
    rw [if_neg (by omega)]
    unfold quadOf quadP
    simp only
    rw [Mat.get_ofFn (by omega) (by omega)]
    refine sep_bad hb (by omega) (by omega) hi hj ?_ ?_ h
    · rw [h1]; exact supp_low (by omega) (by omega) (by omega)
    · rw [h2]; exact supp_low (by omega) (by omega) (by omega)

/-- Bad places of an approximation make both samples above them bad, whatever the details are. -/
theorem synth_bad {p : Params} (hb : Contagious k bad) (hv : ValidParams p) (hf : FilterLen k p) {s : ℕ} (hs : s < p.steps) {low : Mat α} (hl : Fits p (s + 1) low)
    (ds : List (Mat α)) {i j : ℕ} (hi : i < (synthStep p (scaling k p) low ds).rows) (hj : j < (synthStep p (scaling k p) low ds).cols)
    (h : bad (low.get (i / 2) (j / 2))) : bad ((synthStep p (scaling k p) low ds).get i j) := by
  have ht := wavelet_of_steps hv hs
  have hw : 0 < p.wtype := by omega
  have hlen := length_scaling hf ht
  rcases fits_up hv hs hl with ⟨hd, h1, h2, h3⟩ | ⟨hd, h1, h2, h3, h4, h5⟩
  · unfold synthStep at hi hj ⊢
    simp only [if_pos hd] at hi hj ⊢
    have hi2 : i < low.rows * 2 := by simpa using hi
    obtain rfl : j = 0 := by simp at hj; omega
    rw [Mat.get_ofCol, getD_map_range' _ _ _ hi2]
    have e : (low.col 0).length = low.rows := by simp [Mat.col]
    refine synP_bad hb hw (by simpa using hlen) (by omega) (by omega) ?_
    rwa [col_getD _ _ (by omega)]
  · unfold synthStep at hi hj ⊢
    simp only [if_neg (show ¬ p.dimension = 1 by omega)] at hi hj ⊢
    have hi2 : i < 2 * low.rows := by simpa [colsP, rowsP, assemble] using hi
    have hj2 : j < 2 * low.cols := by simpa [colsP, rowsP, assemble] using hj
    refine sep_bad hb (a := i / 2) (b := j / 2) (by simpa [assemble] using hi2) (by simpa [assemble] using hj2) (by simp [assemble]; omega) (by simp [assemble]; omega)
      (supp_turned (supp_low (by omega) (by omega) hi2) hi2) (supp_turned (supp_low (by omega) (by omega) hj2) hj2) ?_
    unfold assemble
    rw [Mat.get_ofFn (by omega) (by omega), if_pos (by omega), if_pos (by omega)]
    exact h

theorem sig_bad {p : Params} (hb : Contagious k bad) (hv : ValidParams p) (hf : FilterLen k p) {m : Mat α} (hm : Fits p 0 m) {i j : ℕ}
    (hi : i < m.rows) (hj : j < m.cols) (h : bad (m.get i j)) {s : ℕ} (hs : s ≤ p.steps) :
    bad ((sig p (scaling k p) m s).get (i / 2 ^ s) (j / 2 ^ s)) ∧ i / 2 ^ s < (sig p (scaling k p) m s).rows ∧ j / 2 ^ s < (sig p (scaling k p) m s).cols := by
  induction s with
  | zero => simpa [sig] using ⟨h, hi, hj⟩
  | succ s ih =>
    obtain ⟨a, b, c⟩ := ih (by omega)
    have f := fits_sig (k := k) hv hm (show s ≤ p.steps by omega)
    have f' := fits_sig (k := k) hv hm (show s + 1 ≤ p.steps by omega)
    have g := approx_bad hb hv hf (show s < p.steps by omega) f b c a
    rw [Nat.div_div_eq_div_mul, Nat.div_div_eq_div_mul, ← pow_succ] at g
    refine ⟨g, ?_, ?_⟩
    · rcases fits_up hv (show s < p.steps by omega) f' with ⟨_, h1, h2, h3⟩ | ⟨_, h1, h2, h3, h4, h5⟩
      · have := f.1
        rw [pow_succ, ← Nat.div_div_eq_div_mul]
        omega
      · have := f.1
        rw [pow_succ, ← Nat.div_div_eq_div_mul]
        omega
    · rcases fits_up hv (show s < p.steps by omega) f' with ⟨hd, h1, h2, h3⟩ | ⟨hd, h1, h2, h3, h4, h5⟩
      · have := f.2
        rw [if_pos hd] at this
        rw [pow_succ, ← Nat.div_div_eq_div_mul]
        omega
      · have := f.2
        rw [if_neg (by omega)] at this
        rw [pow_succ, ← Nat.div_div_eq_div_mul]
        omega

theorem recon_bad {p : Params} (hb : Contagious k bad) (hv : ValidParams p) (hf : FilterLen k p) {c : Channel α} (hc : SizedChan p c) {i j : ℕ}
    (h : bad ((c.getD (p.steps * subbandsPerWT p) default).get (i / 2 ^ p.steps) (j / 2 ^ p.steps))) {n : ℕ} (hn : n ≤ p.steps) :
    i / 2 ^ (p.steps - n) < (reconP p (scaling k p) (p.steps - n) c).rows → j / 2 ^ (p.steps - n) < (reconP p (scaling k p) (p.steps - n) c).cols →
    bad ((reconP p (scaling k p) (p.steps - n) c).get (i / 2 ^ (p.steps - n)) (j / 2 ^ (p.steps - n))) := by
  induction n with
  | zero =>
    intro _ _
    unfold reconP
    rw [Nat.sub_zero, Nat.sub_self]
    exact h
  | succ n ih =>
    have e : p.steps - (n + 1) + 1 = p.steps - n := by omega
    have f := fits_recon (h := scaling k p) hv hc (show n ≤ p.steps by omega)
    rw [← e] at f ih
    rw [reconP_one (by omega)]
    intro hi hj
    refine synth_bad hb hv hf (by omega) f _ hi hj ?_
    rw [Nat.div_div_eq_div_mul, Nat.div_div_eq_div_mul, ← pow_succ]
    have g := fits_synth hv (scaling k p) (show p.steps - (n + 1) < p.steps by omega) f (detailsAt p c (p.steps - (n + 1)))
    refine ih (by omega) ?_ ?_
    · rcases fits_up hv (show p.steps - (n + 1) < p.steps by omega) f with ⟨hd, h1, h2, h3⟩ | ⟨hd, h1, h2, h3, h4, h5⟩
      · rw [g.1, h3] at hi
        rw [pow_succ, ← Nat.div_div_eq_div_mul]
        omega
      · rw [g.1, h3] at hi
        rw [pow_succ, ← Nat.div_div_eq_div_mul]
        omega
    · rcases fits_up hv (show p.steps - (n + 1) < p.steps by omega) f with ⟨hd, h1, h2, h3⟩ | ⟨hd, h1, h2, h3, h4, h5⟩
      · rw [g.2, if_pos hd] at hj
        rw [pow_succ, ← Nat.div_div_eq_div_mul]
        omega
      · rw [g.2, if_neg (by omega), h4] at hj
        rw [pow_succ, ← Nat.div_div_eq_div_mul]
        omega

/-- A bad value of an approximation is bad in the preview, if the crop leaves it. -/
theorem finish_bad {p : Params} (hb : Contagious k bad) (hv : ValidParams p) {s : ℕ} (hs : s ≤ p.steps) {m : Mat α} (hm : Fits p s m)
    {i j : ℕ} (hi : i < (finishP k p s m).rows) (hj : j < (finishP k p s m).cols)
    (h : i + ((levelSides p s).1 - (finishP k p s m).rows) / 2 < m.rows → j + ((levelSides p s).2 - (finishP k p s m).cols) / 2 < m.cols →
      bad (m.get (i + ((levelSides p s).1 - (finishP k p s m).rows) / 2) (j + ((levelSides p s).2 - (finishP k p s m).cols) / 2))) :
    bad ((finishP k p s m).get i j) := by
  obtain ⟨r1, r2⟩ := finishP_size (k := k) hv hs hm
  obtain ⟨l1, l2⟩ := scaled_le hv hm
  obtain ⟨e1, e2⟩ := fits_sides hv hm
  have hi' := hi
  have hj' := hj
  rw [r1] at hi
  rw [r2] at hj
  rw [r1, r2, ← e1, ← e2] at h
  have h0 : ¬ matRows (p.shape.map (· / 2 ^ s)) * matCols (p.shape.map (· / 2 ^ s)) = 0 :=
    Nat.mul_ne_zero (by omega) (by omega)
  have h := h (by omega) (by omega)
  have key : bad ((cropOf p s m).get i j) := by
    unfold cropOf
    simp only [if_neg h0]
    rw [Mat.get_ofFn hi hj]
    unfold padOffset
    simp only [reduceCtorEq, if_false]
    rw [Nat.add_comm _ i, Nat.add_comm _ j]
    exact h
  unfold finishP at hi' hj' ⊢
  split_ifs with hpos
  · rw [if_pos hpos] at hi' hj'
    rw [Mat.get_map _ (cropOf p s m) hi' hj']
    exact hb.div _ _ _ key
  · exact key

/-- Padding keeps a sample in the middle. -/
theorem pad_bad {p : Params} (hv : ValidParams p) {x : Mat α} (hx : Shaped p x) {i j : ℕ} (hi : i < x.rows) (hj : j < x.cols) (h : bad (x.get i j)) :
    bad ((padOf p x).get (i + ((levelSides p 0).1 - x.rows) / 2) (j + ((levelSides p 0).2 - x.cols) / 2)) ∧
      i + ((levelSides p 0).1 - x.rows) / 2 < (padOf p x).rows ∧ j + ((levelSides p 0).2 - x.cols) / 2 < (padOf p x).cols := by
  have f := fits_padOf hv hx
  obtain ⟨e1, e2⟩ := fits_sides hv f
  obtain ⟨l1, l2⟩ := scaled_le hv f
  have es : p.shape.map (· / 2 ^ 0) = p.shape := by simp
  rw [es] at l1 l2
  obtain ⟨x1, x2⟩ := hx
  rw [← x1] at l1
  rw [← x2] at l2
  rw [← e1, ← e2]
  refine ⟨?_, by omega, by omega⟩
  unfold padOf at e1 e2 l1 l2 ⊢
  split_ifs with h0
  · simpa using h
  · rw [if_neg h0] at l1 l2
    simp only [Mat.rows_ofFn, Mat.cols_ofFn] at l1 l2 ⊢
    rw [Mat.get_ofFn (by omega) (by omega)]
    unfold clampIdx padOffset
    simp only [reduceCtorEq, if_false]
    rwa [Nat.add_sub_cancel, Nat.add_sub_cancel, min_eq_left (by omega), min_eq_left (by omega)]

end

end WB.Props
