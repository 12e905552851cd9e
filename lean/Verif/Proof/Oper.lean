import Verif.Proof.Compose

/-!
One analysis step and one synthesis step, in one and two dimensions, as a separable linear operator and its transpose.
-/

set_option linter.unusedSectionVars false

namespace WB

open Finset Spec

section Ring
variable {R : Type} [CommRing R] [Inhabited R]

/-- Identity kernel. -/
def delta (i j : ℕ) : R := if i = j then 1 else 0

/-- Kernel along the columns of a matrix with `r` rows. -/
def kR (p : Params) (h : List R) (r : ℕ) : ℕ → ℕ → R := trans (r / 2) p.wtype h

/-- Kernel along the rows of a matrix with `c` columns. -/
def kC (p : Params) (h : List R) (c : ℕ) : ℕ → ℕ → R := if p.dimension = 1 then delta else trans (c / 2) p.wtype h

/-- Transposed kernel. -/
def tr (K : ℕ → ℕ → R) (i j : ℕ) : R := K j i

/-- One full analysis step: approximation and details in one matrix. -/
def fullStep (p : Params) (h : List R) (m : Mat R) : Mat R := sepOp (kR p h m.rows) (kC p h m.cols) m

/-- Put approximation and details into one matrix. -/
def glue (p : Params) (low : Mat R) (ds : List (Mat R)) : Mat R :=
  if p.dimension = 1 then
    Mat.ofFn (2 * low.rows) 1 (fun i j => if i < low.rows then low.get i j else (ds.getD 0 default).get (i - low.rows) j)
  else assemble ⟨low, ds.getD 0 default, ds.getD 1 default, ds.getD 2 default⟩ low.rows low.cols

theorem sepOp_get {KH KW : ℕ → ℕ → R} {x : Mat R} {i j : ℕ} (hi : i < x.rows) (hj : j < x.cols) :
    (sepOp KH KW x).get i j = ∑ a ∈ range x.rows, KH i a * ∑ b ∈ range x.cols, KW j b * x.get a b := by
  unfold sepOp; rw [Mat.get_ofFn hi hj]

theorem sepOp_delta {KH : ℕ → ℕ → R} {x : Mat R} {i : ℕ} (hc : x.cols = 1) (hi : i < x.rows) :
    (sepOp KH delta x).get i 0 = ∑ a ∈ range x.rows, KH i a * x.get a 0 := by
  rw [sepOp_get hi (by omega), hc]
  simp [delta]

/-- The output of one filter over a column. -/
theorem ana_col {m : Mat R} {n2 t : ℕ} {f : List R} (hf : f.length = 2 * t) (hr : m.rows = 2 * n2) (hn : 0 < n2) (i : ℕ) :
    anaP (m.col 0) f i = ∑ a ∈ range (2 * n2), kern (2 * n2) (fl f) (2 * t) i a * m.get a 0 := by
  have hl : (m.col 0).length = 2 * n2 := by simp [hr]
  rw [ana_kern _ _ _ (by omega), hl, hf]
  refine sum_congr rfl (fun a ha => ?_)
  rw [getD_col _ _ (by rw [hr]; exact mem_range.1 ha)]

/-- Analysis followed by gluing is the full operator. -/
theorem glue_analysis {k : Kit R} {p : Params} (hv : ValidParams p) (hf : FilterLen k p) {s : ℕ} (hs : s < p.steps)
    {m : Mat R} (hm : Fits p s m) :
    glue p (approxStep p (scaling k p) m) (detailStep p (scaling k p) nullDenoiser s m) = fullStep p (scaling k p) m := by
  have ht := wavelet_of_steps hv hs
  have hL := length_scaling hf ht
  rcases fits_halves hv ht hs hm with ⟨hd, n2, h1, h2, h3, h4⟩ | ⟨hd, sh, sw, h1, h2, h3, h4, h5, h6, _⟩
  · have hdiv : m.rows / 2 = n2 := by omega
    unfold glue approxStep detailStep
    rw [if_pos hd, if_pos hd, if_pos hd]
    refine Mat.ext' (by simp [fullStep, sepOp]; omega) (by simp [fullStep, sepOp, h2]) ?_
    intro i hi j hj
    simp only [Mat.rows_ofFn, Mat.cols_ofFn, Mat.rows_ofCol, List.length_map, List.length_range, hdiv] at hi hj
    obtain rfl : j = 0 := by omega
    rw [Mat.get_ofFn (by simpa [hdiv] using hi) (by omega)]
    unfold fullStep kC kR
    rw [if_pos hd, sepOp_delta h2 (by omega), h1]
    simp only [Mat.rows_ofCol, List.length_map, List.length_range, hdiv, List.getD, List.getElem?_cons_zero,
      Option.getD_some, nullDenoiser]
    rw [Nat.mul_div_cancel_left _ (by omega : 0 < 2)]
    by_cases hlt : i < n2
    · rw [if_pos hlt, Mat.get_ofCol, getD_map_range' _ _ _ hlt, ana_col hL h1 (by omega)]
      exact sum_congr rfl (fun a _ => by rw [trans_low _ hlt])
    · rw [if_neg hlt, Mat.get_ofCol, getD_map_range' _ _ _ (by omega), ana_col (by simpa using hL) h1 (by omega)]
      obtain ⟨i', rfl⟩ : ∃ i', i = n2 + i' := ⟨i - n2, by omega⟩
      exact sum_congr rfl (fun a _ => by rw [trans_high, Nat.add_sub_cancel_left])
  · have hdiv1 : m.rows / 2 = sh := by omega
    have hdiv2 : m.cols / 2 = sw := by omega
    unfold glue approxStep detailStep
    rw [if_neg (by omega), if_neg (by omega), if_neg (by omega)]
    simp only [nullDenoiser, List.getD, List.getElem?_cons_zero, List.getElem?_cons_succ, Option.getD_some]
    have hq : (quadOf (scaling k p) m).Sized sh sw := by
      unfold quadOf; rw [hdiv1, hdiv2]; exact quadP_sized _ _ _
    rw [hq.1.1, hq.1.2]
    have : (⟨(quadOf (scaling k p) m).ll, (quadOf (scaling k p) m).lh, (quadOf (scaling k p) m).hl,
      (quadOf (scaling k p) m).hh⟩ : Quad R) = quadOf (scaling k p) m := rfl
    rw [this]
    unfold quadOf
    rw [hdiv1, hdiv2, assemble_quadP (colsP (rowsP m (daubP (scaling k p) (qmf (scaling k p)) m.cols))
      (daubP (scaling k p) (qmf (scaling k p)) m.rows)) sh sw h1 h2]
    unfold fullStep kR kC
    rw [if_neg (by omega), hdiv1, hdiv2]
    obtain ⟨g1, r1, c1⟩ := daubP_facts hf ht h4
    obtain ⟨g2, r2, c2⟩ := daubP_facts hf ht h3
    rw [h1, h2]
    exact cols_rowsP_eq g1 g2 (by omega) (by omega) (by omega) (by omega)
      (fun i hi k _ => ker_daubP _ _ sw hL h4 (by omega) k) (fun i hi k _ => ker_daubP _ _ sh hL h3 (by omega) k)

/-- Synthesis is gluing followed by the transposed operator. -/
theorem synth_glue {k : Kit R} {p : Params} (hv : ValidParams p) (hf : FilterLen k p) {s : ℕ} (hs : s < p.steps)
    {m : Mat R} (hm : Fits p (s + 1) m) {ds : List (Mat R)}
    (hds : ∀ j < subbandsPerWT p, Fits p (s + 1) (ds.getD j default)) :
    synthStep p (scaling k p) m ds =
      sepOp (tr (kR p (scaling k p) (glue p m ds).rows)) (tr (kC p (scaling k p) (glue p m ds).cols)) (glue p m ds) := by
  have ht := wavelet_of_steps hv hs
  have hL := length_scaling hf ht
  rcases fits_up hv hs hm with ⟨hd, h1, h2, h3⟩ | ⟨hd, h1, h2, h3, h4, h5⟩
  · have hd0 := hds 0 (by simp [subbandsPerWT, hd])
    have hrow : (ds.getD 0 default).rows = m.rows := by rw [hd0.1, hm.1]
    unfold synthStep glue
    rw [if_pos hd, if_pos hd]
    refine Mat.ext' (by simp [sepOp]; omega) (by simp [sepOp]) ?_
    intro i hi j hj
    simp only [Mat.rows_ofCol, List.length_map, List.length_range, Mat.cols_ofCol] at hi hj
    obtain rfl : j = 0 := by omega
    rw [Mat.get_ofCol, getD_map_range' _ _ _ hi]
    rw [synP_eq _ _ _ p.wtype hL (by omega) (by rw [Mat.length_col, Mat.length_col]; exact hrow) (by simp; omega),
      synth_trans _ _ _ p.wtype m.rows (by simp) (by rw [Mat.length_col]; exact hrow) hL (by omega) i (by omega)]
    unfold kC
    rw [if_pos hd]
    have : (tr (delta : ℕ → ℕ → R)) = delta := by funext a b; unfold tr delta; simp [eq_comm]
    rw [this, sepOp_delta rfl (by simp; omega)]
    simp only [Mat.rows_ofFn]
    rw [sum_halves]
    unfold tr kR
    rw [Nat.mul_div_cancel_left _ (by omega : 0 < 2)]
    congr 1
    · refine sum_congr rfl (fun a ha => ?_)
      rw [mem_range] at ha
      rw [Mat.get_ofFn (by omega) (by omega), if_pos ha, getD_col _ _ ha]
    · refine sum_congr rfl (fun a ha => ?_)
      rw [mem_range] at ha
      rw [Mat.get_ofFn (by omega) (by omega), if_neg (by omega), Nat.add_sub_cancel_left, getD_col _ _ (by omega)]
  · unfold synthStep glue
    rw [if_neg (by omega), if_neg (by omega)]
    obtain ⟨g1, r1, c1⟩ := daubP_facts hf ht h2
    obtain ⟨g2, r2, c2⟩ := daubP_facts hf ht h1
    generalize hy : assemble ⟨m, ds.getD 0 default, ds.getD 1 default, ds.getD 2 default⟩ m.rows m.cols = y
    have yr : y.rows = 2 * m.rows := by rw [← hy]; rfl
    have yc : y.cols = 2 * m.cols := by rw [← hy]; rfl
    refine cols_rowsP_eq (SpMat.good_transpose _) (SpMat.good_transpose _) (by rw [SpMat.cols_transpose, r1, yc])
      (by rw [SpMat.rows_transpose, c1, yc]) (by rw [SpMat.cols_transpose, r2, yr])
      (by rw [SpMat.rows_transpose, c2, yr]) ?_ ?_
    · intro i hi k' hk
      rw [yc] at hi hk
      rw [ker_transpose _ (by omega) (by omega), ker_daubP _ _ _ hL h2 (by omega)]
      unfold tr kC
      rw [if_neg (by omega), yc, Nat.mul_div_cancel_left _ (by omega : 0 < 2)]
    · intro i hi k' hk
      rw [yr] at hi hk
      rw [ker_transpose _ (by omega) (by omega), ker_daubP _ _ _ hL h1 (by omega)]
      unfold tr kR
      rw [yr, Nat.mul_div_cancel_left _ (by omega : 0 < 2)]

end Ring

end WB
