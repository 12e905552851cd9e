import Verif.Spec.Metrics
import Verif.Model.Coeffs
import Verif.Proof.Const
import Verif.Proof.Error

/-!
Bounds on the values of subbands, step by step.
-/

namespace WB

open Finset Spec

/-- A row of weights is a difference of two non-negative rows with sums `P` and `N`. -/
def Split (K : ℕ → ℝ) (n : ℕ) (P N : ℝ) : Prop :=
  ∃ Kp Kn : ℕ → ℝ, (∀ a, 0 ≤ Kp a) ∧ (∀ a, 0 ≤ Kn a) ∧ (∀ a, K a = Kp a - Kn a) ∧
    ∑ a ∈ range n, Kp a = P ∧ ∑ a ∈ range n, Kn a = N

theorem split_apply {K : ℕ → ℝ} {n : ℕ} {P N l u : ℝ} (h : Split K n P N) {v : ℕ → ℝ}
    (hv : ∀ a < n, -l ≤ v a ∧ v a ≤ u) :
    -(P * l + N * u) ≤ ∑ a ∈ range n, K a * v a ∧ ∑ a ∈ range n, K a * v a ≤ P * u + N * l := by
  obtain ⟨Kp, Kn, h1, h2, h3, rfl, rfl⟩ := h
  have e : ∑ a ∈ range n, K a * v a = ∑ a ∈ range n, Kp a * v a - ∑ a ∈ range n, Kn a * v a := by
    rw [← sum_sub_distrib]
    exact sum_congr rfl (fun a _ => by rw [h3 a]; ring)
  have b1 : ∑ a ∈ range n, Kp a * v a ≤ ∑ a ∈ range n, Kp a * u :=
    sum_le_sum (fun a ha => mul_le_mul_of_nonneg_left (hv a (mem_range.1 ha)).2 (h1 a))
  have b2 : ∑ a ∈ range n, Kp a * (-l) ≤ ∑ a ∈ range n, Kp a * v a :=
    sum_le_sum (fun a ha => mul_le_mul_of_nonneg_left (hv a (mem_range.1 ha)).1 (h1 a))
  have b3 : ∑ a ∈ range n, Kn a * v a ≤ ∑ a ∈ range n, Kn a * u :=
    sum_le_sum (fun a ha => mul_le_mul_of_nonneg_left (hv a (mem_range.1 ha)).2 (h2 a))
  have b4 : ∑ a ∈ range n, Kn a * (-l) ≤ ∑ a ∈ range n, Kn a * v a :=
    sum_le_sum (fun a ha => mul_le_mul_of_nonneg_left (hv a (mem_range.1 ha)).1 (h2 a))
  rw [← sum_mul] at b1 b2 b3 b4
  rw [e]
  constructor <;> linarith

/-- Sum of the positive taps. -/
noncomputable def posTaps (f : List ℝ) (L : ℕ) : ℝ := ∑ j ∈ range L, max (fl f j) 0
/-- Sum of the negated negative taps. -/
noncomputable def negTaps (f : List ℝ) (L : ℕ) : ℝ := ∑ j ∈ range L, max (-fl f j) 0

theorem split_kern {n : ℕ} (hn : 0 < n) (f : List ℝ) (L i : ℕ) :
    Split (kern n (fl f) L i) n (posTaps f L) (negTaps f L) := by
  refine ⟨kern n (fun j => max (fl f j) 0) L i, kern n (fun j => max (-fl f j) 0) L i, ?_, ?_, ?_,
    kern_row_sum n hn _ L i, kern_row_sum n hn _ L i⟩
  · intro a; exact sum_nonneg (fun j _ => by split_ifs <;> simp)
  · intro a; exact sum_nonneg (fun j _ => by split_ifs <;> simp)
  · intro a
    unfold kern
    rw [← sum_sub_distrib]
    refine sum_congr rfl (fun j _ => ?_)
    split_ifs
    · show fl f j = max (fl f j) 0 - max (-fl f j) 0
      rcases le_total 0 (fl f j) with h | h
      · rw [max_eq_left h, max_eq_right (by linarith)]; ring
      · rw [max_eq_right h, max_eq_left (by linarith)]; ring
    · simp

theorem split_delta {n j : ℕ} (hj : j < n) : Split (delta j) n 1 0 := by
  refine ⟨delta j, fun _ => 0, ?_, fun _ => le_rfl, fun _ => by simp, ?_, by simp⟩
  · intro a; unfold delta; split_ifs <;> norm_num
  · unfold delta; rw [sum_ite_eq, if_pos (mem_range.2 hj)]

theorem split_trans {n2 t : ℕ} (hn : 0 < n2) (h : List ℝ) (i : ℕ) :
    Split (trans n2 t h i) (2 * n2) (if i < n2 then posTaps h (2 * t) else posTaps (qmf h) (2 * t))
      (if i < n2 then negTaps h (2 * t) else negTaps (qmf h) (2 * t)) := by
  have e : trans n2 t h i = if i < n2 then kern (2 * n2) (fl h) (2 * t) i else kern (2 * n2) (fl (qmf h)) (2 * t) (i - n2) := by
    funext k; unfold trans; split_ifs <;> rfl
  rw [e]
  split_ifs
  · exact split_kern (by omega) _ _ _
  · exact split_kern (by omega) _ _ _

/-- Positive weight of one direction: of the low or of the high filter. -/
noncomputable def pW (h : List ℝ) (t : ℕ) (high : Bool) : ℝ := if high then posTaps (qmf h) (2 * t) else posTaps h (2 * t)
/-- Negative weight of one direction. -/
noncomputable def nW (h : List ℝ) (t : ℕ) (high : Bool) : ℝ := if high then negTaps (qmf h) (2 * t) else negTaps h (2 * t)
theorem split_dir {n2 t : ℕ} (hn : 0 < n2) (h : List ℝ) {i : ℕ} {r : Bool} (hr : r = true ↔ ¬ i < n2) :
    Split (trans n2 t h i) (2 * n2) (pW h t r) (nW h t r) := by
  have := split_trans (t := t) hn h i
  unfold pW nW
  by_cases hi : i < n2
  · have : r = false := by cases r <;> simp_all
    subst this; simpa [hi] using split_trans (t := t) hn h i
  · have : r = true := hr.2 hi
    subst this; simpa [hi] using split_trans (t := t) hn h i

theorem sep_bounds {KH KW : ℕ → ℕ → ℝ} {x : Mat ℝ} {l u : ℝ} (hx : Between (-l) u x) {i j : ℕ} (hi : i < x.rows) (hj : j < x.cols)
    {PR NR PC NC : ℝ} (hr : Split (KH i) x.rows PR NR) (hc : Split (KW j) x.cols PC NC) :
    -(PR * (PC * l + NC * u) + NR * (PC * u + NC * l)) ≤ (sepOp KH KW x).get i j ∧
    (sepOp KH KW x).get i j ≤ PR * (PC * u + NC * l) + NR * (PC * l + NC * u) := by
  rw [sepOp_get hi hj]
  exact split_apply hr (fun a ha => split_apply hc (fun b hb => hx a ha b hb))

/-- Weights along the columns: no filter for one-dimensional signals. -/
noncomputable def pC (p : Params) (h : List ℝ) (high : Bool) : ℝ := if p.dimension = 1 then 1 else pW h p.wtype high
/-- Weights along the columns. -/
noncomputable def nC (p : Params) (h : List ℝ) (high : Bool) : ℝ := if p.dimension = 1 then 0 else nW h p.wtype high

/-- Bound after one step. -/
noncomputable def stepUp (p : Params) (h : List ℝ) (r c : Bool) (l u : ℝ) : ℝ :=
  pW h p.wtype r * (pC p h c * u + nC p h c * l) + nW h p.wtype r * (pC p h c * l + nC p h c * u)

/-- Bounds of one analysis step. -/
theorem step_bounds {k : Kit ℝ} {p : Params} (hv : ValidParams p) (hf : FilterLen k p) {s : ℕ} (hs : s < p.steps) {m : Mat ℝ}
    (hm : Fits p s m) {l u : ℝ} (hx : Between (-l) u m) :
    Between (-stepUp p (scaling k p) false false u l) (stepUp p (scaling k p) false false l u) (approxStep p (scaling k p) m) ∧
    ∀ q < subbandsPerWT p, Between (-stepUp p (scaling k p) (rOff p q) (cOff p q) u l)
      (stepUp p (scaling k p) (rOff p q) (cOff p q) l u) ((detailStep p (scaling k p) nullDenoiser s m).getD q default) := by
  have ht := wavelet_of_steps hv hs
  have hL := length_scaling hf ht
  have hp := analysis_parts (k := k) hv hs hm
  have hg := glue_analysis hv hf hs hm
  have hval : ∀ i < m.rows, ∀ j < m.cols, ∀ r c : Bool, (r = true ↔ ¬ i < lvlR p (s + 1)) → (c = true ↔ ¬ j < lvlC p (s + 1)) →
      -stepUp p (scaling k p) r c u l ≤ (fullStep p (scaling k p) m).get i j ∧
      (fullStep p (scaling k p) m).get i j ≤ stepUp p (scaling k p) r c l u := by
    intro i hi j hj r c hr hc
    have hbR : Split (kR p (scaling k p) m.rows i) m.rows (pW (scaling k p) p.wtype r) (nW (scaling k p) p.wtype r) := by
      unfold kR
      unfold lvlR at hr
      rcases fits_halves hv ht hs hm with ⟨hd, n2, h1, h2, h3, h4⟩ | ⟨hd, sh, sw, h1, h2, h3, h4, h5, h6, _⟩
      · rw [h1, Nat.mul_div_cancel_left _ (by omega : 0 < 2)]
        exact split_dir (by omega) _ (by rw [← h4]; exact hr)
      · rw [h1, Nat.mul_div_cancel_left _ (by omega : 0 < 2)]
        exact split_dir (by omega) _ (by rw [← h5]; exact hr)
    have hbC : Split (kC p (scaling k p) m.cols j) m.cols (pC p (scaling k p) c) (nC p (scaling k p) c) := by
      unfold kC pC nC
      unfold lvlC at hc
      rcases fits_halves hv ht hs hm with ⟨hd, n2, h1, h2, h3, h4⟩ | ⟨hd, sh, sw, h1, h2, h3, h4, h5, h6, _⟩
      · rw [if_pos hd, if_pos hd, if_pos hd]; exact split_delta hj
      · have hd' : ¬ p.dimension = 1 := by omega
        rw [if_neg hd', if_neg hd', if_neg hd', h2, Nat.mul_div_cancel_left _ (by omega : 0 < 2)]
        rw [if_neg hd'] at hc
        exact split_dir (by omega) _ (by rw [← h6]; exact hc)
    exact sep_bounds hx hi hj hbR hbC
  rw [← hg] at hval
  have hrows : (glue p (approxStep p (scaling k p) m) (detailStep p (scaling k p) nullDenoiser s m)).rows = m.rows := by
    rw [hg]; rfl
  have hcols : (glue p (approxStep p (scaling k p) m) (detailStep p (scaling k p) nullDenoiser s m)).cols = m.cols := by
    rw [hg]; rfl
  constructor
  · intro i hi j hj
    rw [hp.1] at hi
    rw [hp.2.1] at hj
    rw [← glue_low hp hi hj]
    exact hval i (by rw [← hrows, glue_rows, hp.1]; omega) j (by rw [← hcols, glue_cols p hp]; split_ifs <;> omega) false false
      (by simp [hi]) (by simp [hj])
  · intro q hq i hi j hj
    rw [(hp.2.2.2 q hq).1] at hi
    rw [(hp.2.2.2 q hq).2] at hj
    obtain ⟨o1, o2⟩ := off_lt hp (q := q) hi hj
    rw [← glue_detail hp hq hi hj]
    refine hval _ (by rw [← hrows]; exact o1) _ (by rw [← hcols]; exact o2) _ _ ?_ ?_
    · cases rOff p q <;> simp [hi]
    · cases cOff p q <;> simp [hj]

theorem between_mono {lo hi lo' hi' : ℝ} {m : Mat ℝ} (h : Between lo hi m) (h1 : lo' ≤ lo) (h2 : hi ≤ hi') : Between lo' hi' m :=
  fun i hi j hj => ⟨h1.trans (h i hi j hj).1, (h i hi j hj).2.trans h2⟩

theorem between_pad {p : Params} (hv : ValidParams p) {m : Mat ℝ} (hm : Shaped p m) {lo hi : ℝ} (h : Between lo hi m) :
    Between lo hi (padOf p m) := by
  intro i hi j hj
  unfold padOf at hi hj ⊢
  split_ifs at hi hj ⊢ with ht
  · exact h i hi j hj
  · simp only [Mat.rows_ofFn, Mat.cols_ofFn] at hi hj
    obtain ⟨g1, g2, _⟩ := padded_ge hv ht
    rw [Mat.get_ofFn hi hj]
    exact h _ (by unfold clampIdx; rw [hm.1]; omega) _ (by unfold clampIdx; rw [hm.2]; omega)

/-- An invariant of the approximations gives bounds on all subbands. -/
theorem chan_bounds {k : Kit ℝ} {p : Params} (hv : ValidParams p) {m : Mat ℝ} (hm : Shaped p m)
    {Q : ℕ → Mat ℝ → Prop} {D : ℕ → Mat ℝ → Prop} (h0 : Q 0 (padOf p m))
    (hstep : ∀ s < p.steps, ∀ x, Fits p s x → Q s x → Q (s + 1) (approxStep p (scaling k p) x) ∧
      ∀ q < subbandsPerWT p, D s ((detailStep p (scaling k p) nullDenoiser s x).getD q default)) :
    Q p.steps ((chanP p (scaling k p) nullDenoiser m).getD (p.steps * subbandsPerWT p) default) ∧
    ∀ s < p.steps, ∀ q < subbandsPerWT p, D s ((chanP p (scaling k p) nullDenoiser m).getD (s * subbandsPerWT p + q) default) := by
  have f0 := fits_padOf hv hm
  have hq : ∀ s ≤ p.steps, Q s (sig p (scaling k p) (padOf p m) s) := by
    intro s
    induction s with
    | zero => intro _; exact h0
    | succ s ih => intro hs; exact (hstep s (by omega) _ (fits_sig (k := k) hv f0 (by omega)) (ih (by omega))).1
  refine ⟨by rw [chanP_last]; exact hq _ le_rfl, ?_⟩
  intro s hs q hqq
  rw [chanP_detail p _ _ _ hs hqq]
  exact (hstep s hs _ (fits_sig (k := k) hv f0 hs.le) (hq s hs.le)).2 q hqq

end WB
