import Verif.Proof.Linear

/-! One analysis step as sums over filter taps, in one and two dimensions. -/

set_option linter.unusedSectionVars false

namespace WB

open Finset Spec

section Ring
variable {R : Type} [CommRing R] [Inhabited R]

/-- Low pass or high pass filter. -/
def subf (h : List R) (b : Bool) : List R := if b then qmf h else h

/-- Number of taps across the columns: in one dimension there is no filter. -/
def tapsC (p : Params) : ℕ := if p.dimension = 1 then 1 else 2 * p.wtype

/-- Taps across the columns. -/
def tapC (p : Params) (f : List R) (v : ℕ) : R := if p.dimension = 1 then 1 else fl f v

/-- One subband of one step. -/
def stepSub (p : Params) (h : List R) (rb cb : Bool) (m : Mat R) : Mat R :=
  Mat.ofFn (m.rows / 2) (if p.dimension = 1 then 1 else m.cols / 2) fun i j =>
    ∑ u ∈ range (2 * p.wtype), fl (subf h rb) u *
      ∑ v ∈ range (tapsC p), tapC p (subf h cb) v * m.get ((2 * i + u) % m.rows) ((2 * j + v) % m.cols)

theorem kern_sum (n L : ℕ) (f : ℕ → R) (i : ℕ) (x : ℕ → R) (hn : 0 < n) :
    ∑ a ∈ range n, kern n f L i a * x a = ∑ j ∈ range L, f j * x ((2 * i + j) % n) := by
  unfold kern
  simp_rw [sum_mul]
  rw [sum_comm]
  refine sum_congr rfl fun j _ => ?_
  rw [sum_eq_single ((2 * i + j) % n)]
  · rw [if_pos rfl]
  · intro b _ hb
    rw [if_neg (fun h => hb h.symm), zero_mul]
  · intro h
    exact absurd (mem_range.2 (Nat.mod_lt _ hn)) h

/-- The part of the full step that belongs to one half of the rows and one half of the columns. -/
theorem fullStep_get {k : Kit R} {p : Params} (hv : ValidParams p) {s : ℕ} (hs : s < p.steps)
    {m : Mat R} (hm : Fits p s m) (rb cb : Bool) (hcb : p.dimension = 1 → cb = false) {i j : ℕ} (hi : i < lvlR p (s + 1))
    (hj : j < lvlC p (s + 1)) :
    (fullStep p (scaling k p) m).get ((if rb then lvlR p (s + 1) else 0) + i) ((if cb then lvlC p (s + 1) else 0) + j) =
      (stepSub p (scaling k p) rb cb m).get i j := by
  have ht := wavelet_of_steps hv hs
  rcases fits_halves hv ht hs hm with ⟨hd, n2, h1, h2, h3, h4⟩ | ⟨hd, sh, sw, h1, h2, h3, h4, h5, h6, _⟩
  · have er : lvlR p (s + 1) = n2 := h4
    have ec : lvlC p (s + 1) = 1 := by unfold lvlC; rw [if_pos hd]
    rw [er] at hi ⊢
    rw [ec] at hj
    obtain rfl : j = 0 := by omega
    rw [hcb hd]
    unfold fullStep kC stepSub tapsC
    simp only [if_pos hd, Bool.false_eq_true, if_false, Nat.zero_add]
    rw [sepOp_delta h2 (by split <;> omega), Mat.get_ofFn (by omega) (by omega)]
    simp only [sum_range_one, h2, Nat.mod_one, tapC, if_pos hd, one_mul]
    have hn : m.rows / 2 = n2 := by omega
    unfold kR
    rw [hn]
    cases rb
    · simp only [Bool.false_eq_true, if_false, Nat.zero_add, subf]
      rw [← kern_sum _ _ _ _ (fun a => m.get a 0) (by omega)]
      exact sum_congr rfl fun a _ => by rw [trans_low _ hi, h1]
    · simp only [if_true, subf]
      rw [← kern_sum _ _ _ _ (fun a => m.get a 0) (by omega)]
      exact sum_congr rfl fun a _ => by rw [trans_high, h1]
  · have er : lvlR p (s + 1) = sh := h5
    have ec : lvlC p (s + 1) = sw := by unfold lvlC; rw [if_neg (by omega)]; exact h6
    rw [er] at hi ⊢
    rw [ec] at hj ⊢
    have hd1 : ¬ p.dimension = 1 := by omega
    have hn : m.rows / 2 = sh := by omega
    have hn' : m.cols / 2 = sw := by omega
    unfold fullStep kC stepSub tapsC
    simp only [if_neg hd1]
    rw [sepOp_get (by split <;> omega) (by split <;> omega), Mat.get_ofFn (by omega) (by omega)]
    simp only [tapC, if_neg hd1]
    have key : ∀ (b : Bool) (n i : ℕ), i < n → ∀ x : ℕ → R,
        ∑ a ∈ range (2 * n), trans n p.wtype (scaling k p) ((if b then n else 0) + i) a * x a =
          ∑ u ∈ range (2 * p.wtype), fl (subf (scaling k p) b) u * x ((2 * i + u) % (2 * n)) := by
      intro b n i hi x
      rw [← kern_sum _ _ _ _ x (by omega)]
      cases b
      · simp only [Bool.false_eq_true, if_false, Nat.zero_add, subf]
        exact sum_congr rfl fun a _ => by rw [trans_low _ hi]
      · simp only [if_true, subf]
        exact sum_congr rfl fun a _ => by rw [trans_high]
    unfold kR
    rw [hn, hn', h1, h2, key rb sh i hi]
    exact sum_congr rfl fun u _ => by rw [key cb sw j hj]

theorem approx_sub {k : Kit R} {p : Params} (hv : ValidParams p) (hf : FilterLen k p) {s : ℕ} (hs : s < p.steps) {m : Mat R}
    (hm : Fits p s m) : approxStep p (scaling k p) m = stepSub p (scaling k p) false false m := by
  have hp := analysis_parts (k := k) hv hs hm
  have ht := wavelet_of_steps hv hs
  have fa := fits_approx (k := k) hv ht hs hm
  have e : (stepSub p (scaling k p) false false m).rows = lvlR p (s + 1) ∧
      (stepSub p (scaling k p) false false m).cols = lvlC p (s + 1) := by
    unfold stepSub lvlR lvlC
    simp only [Mat.rows_ofFn, Mat.cols_ofFn]
    rcases fits_halves hv ht hs hm with ⟨hd, n2, h1, h2, h3, h4⟩ | ⟨hd, sh, sw, h1, h2, h3, h4, h5, h6, _⟩
    · rw [if_pos hd, if_pos hd]; exact ⟨by omega, rfl⟩
    · rw [if_neg (by omega), if_neg (by omega)]; exact ⟨by omega, by omega⟩
  refine Mat.ext' (by rw [e.1]; exact fa.1) (by rw [e.2]; exact fa.2) ?_
  intro i hi j hj
  have hi' : i < lvlR p (s + 1) := by rw [hp.1] at hi; exact hi
  have hj' : j < lvlC p (s + 1) := by rw [hp.2.1] at hj; exact hj
  rw [← fullStep_get hv hs hm false false (fun _ => rfl) hi' hj', ← glue_analysis hv hf hs hm]
  simp only [Bool.false_eq_true, if_false, Nat.zero_add]
  rw [glue_low hp hi' hj']

theorem detail_sub {k : Kit R} {p : Params} (hv : ValidParams p) (hf : FilterLen k p) {s : ℕ} (hs : s < p.steps) {m : Mat R}
    (hm : Fits p s m) {q : ℕ} (hq : q < subbandsPerWT p) :
    (detailStep p (scaling k p) nullDenoiser s m).getD q default = stepSub p (scaling k p) (rOff p q) (cOff p q) m := by
  have hp := analysis_parts (k := k) hv hs hm
  have ht := wavelet_of_steps hv hs
  have fa := detailStep_fits (k := k) hv nullDenoiser_sized hs hm hq
  have e : (stepSub p (scaling k p) (rOff p q) (cOff p q) m).rows = lvlR p (s + 1) ∧
      (stepSub p (scaling k p) (rOff p q) (cOff p q) m).cols = lvlC p (s + 1) := by
    unfold stepSub lvlR lvlC
    simp only [Mat.rows_ofFn, Mat.cols_ofFn]
    rcases fits_halves hv ht hs hm with ⟨hd, n2, h1, h2, h3, h4⟩ | ⟨hd, sh, sw, h1, h2, h3, h4, h5, h6, _⟩
    · rw [if_pos hd, if_pos hd]; exact ⟨by omega, rfl⟩
    · rw [if_neg (by omega), if_neg (by omega)]; exact ⟨by omega, by omega⟩
  refine Mat.ext' (by rw [e.1]; exact fa.1) (by rw [e.2]; exact fa.2) ?_
  intro i hi j hj
  have hi' : i < lvlR p (s + 1) := by rw [(hp.2.2.2 q hq).1] at hi; exact hi
  have hj' : j < lvlC p (s + 1) := by rw [(hp.2.2.2 q hq).2] at hj; exact hj
  rw [← fullStep_get hv hs hm _ _ (fun h => by simp [cOff, h]) hi' hj', ← glue_analysis hv hf hs hm, glue_detail hp hq hi' hj']

end Ring

end WB
