import Verif.Proof.Oper
import Verif.Proof.Bridge
import Verif.Spec.Linear

/-!
Linearity and energy of the transforms.
-/

set_option linter.unusedSectionVars false

namespace WB

open Finset Spec

section Ring
variable {R : Type} [CommRing R] [Inhabited R]

/-! ### the parts of a glued matrix -/

/-- Does detail `q` lie in the second half of the rows? -/
def rOff (p : Params) (q : ℕ) : Bool := if p.dimension = 1 then true else q == 0 || q == 2

/-- Does detail `q` lie in the second half of the columns? -/
def cOff (p : Params) (q : ℕ) : Bool := if p.dimension = 1 then false else q == 1 || q == 2

/-- Approximation and details have one size. -/
def Parts (p : Params) (r c : ℕ) (low : Mat R) (ds : List (Mat R)) : Prop :=
  low.rows = r ∧ low.cols = c ∧ (p.dimension = 1 → c = 1) ∧
  ∀ q < subbandsPerWT p, (ds.getD q default).rows = r ∧ (ds.getD q default).cols = c

theorem glue_rows (p : Params) (low : Mat R) (ds : List (Mat R)) : (glue p low ds).rows = 2 * low.rows := by
  unfold glue assemble; split_ifs <;> rfl

theorem glue_cols (p : Params) {r c : ℕ} {low : Mat R} {ds : List (Mat R)} (hp : Parts p r c low ds) :
    (glue p low ds).cols = if p.dimension = 1 then c else 2 * c := by
  unfold glue assemble; split_ifs with h
  · simp [hp.2.2.1 h]
  · simp [hp.2.1]

theorem glue_low {p : Params} {r c : ℕ} {low : Mat R} {ds : List (Mat R)} (hp : Parts p r c low ds) {i j : ℕ} (hi : i < r)
    (hj : j < c) : (glue p low ds).get i j = low.get i j := by
  obtain ⟨h1, h2, h3, h4⟩ := hp
  unfold glue
  split_ifs with hd
  · have := h3 hd
    rw [Mat.get_ofFn (by omega) (by omega), if_pos (by omega)]
  · unfold assemble
    rw [Mat.get_ofFn (by omega) (by omega), if_pos (by omega), if_pos (by omega)]

theorem glue_detail {p : Params} {r c : ℕ} {low : Mat R} {ds : List (Mat R)} (hp : Parts p r c low ds) {q : ℕ}
    (hq : q < subbandsPerWT p) {i j : ℕ} (hi : i < r) (hj : j < c) :
    (glue p low ds).get ((if rOff p q then r else 0) + i) ((if cOff p q then c else 0) + j) = (ds.getD q default).get i j := by
  obtain ⟨h1, h2, h3, h4⟩ := hp
  unfold glue
  by_cases hd : p.dimension = 1
  · have hc1 := h3 hd
    have hq0 : q = 0 := by simp [subbandsPerWT, hd] at hq; omega
    subst hq0
    simp only [rOff, cOff, hd, if_true]
    rw [Mat.get_ofFn (by omega) (by simp; omega), if_neg (by omega)]
    simp [h1]
  · have hq3 : q < 3 := by simpa [subbandsPerWT, hd] using hq
    rw [if_neg hd]
    unfold assemble
    have hcase : q = 0 ∨ q = 1 ∨ q = 2 := by omega
    rcases hcase with rfl | rfl | rfl
    · simp only [rOff, cOff, hd, if_false]
      simp only [beq_self_eq_true, Bool.true_or, if_true, Nat.reduceBEq, Bool.or_self, Bool.false_eq_true, if_false, Nat.zero_add]
      rw [Mat.get_ofFn (by omega) (by omega), if_neg (by omega), if_pos (by omega)]
      simp [h1]
    · simp only [rOff, cOff, hd, if_false]
      simp only [beq_self_eq_true, Bool.true_or, if_true, Nat.reduceBEq, Bool.or_self, Bool.false_eq_true, if_false, Nat.zero_add]
      rw [Mat.get_ofFn (by omega) (by omega), if_pos (by omega), if_neg (by omega)]
      simp [h2]
    · simp only [rOff, cOff, hd, if_false]
      simp only [beq_self_eq_true, Bool.or_true, if_true]
      rw [Mat.get_ofFn (by omega) (by omega), if_neg (by omega), if_neg (by omega)]
      simp [h1, h2]

/-- Every position of a glued matrix belongs to the approximation or to one detail. -/
theorem glue_cases {p : Params} {r c : ℕ} {low : Mat R} {ds : List (Mat R)} (hp : Parts p r c low ds)
    (hd : p.dimension = 1 ∨ p.dimension = 2) {i j : ℕ} (hi : i < (glue p low ds).rows) (hj : j < (glue p low ds).cols) :
    (i < r ∧ j < c) ∨ ∃ q < subbandsPerWT p, ∃ i' < r, ∃ j' < c,
      i = (if rOff p q then r else 0) + i' ∧ j = (if cOff p q then c else 0) + j' := by
  rw [glue_rows, hp.1] at hi
  rw [glue_cols p hp] at hj
  by_cases h1 : i < r
  · rcases hd with hd | hd
    · rw [if_pos hd] at hj; exact .inl ⟨h1, hj⟩
    · rw [if_neg (by omega)] at hj
      by_cases h2 : j < c
      · exact .inl ⟨h1, h2⟩
      · exact .inr ⟨1, by simp [subbandsPerWT, hd], i, h1, j - c, by omega, by simp [rOff, hd], by simp [cOff, hd]; omega⟩
  · rcases hd with hd | hd
    · rw [if_pos hd] at hj
      exact .inr ⟨0, by simp [subbandsPerWT, hd], i - r, by omega, j, hj, by simp [rOff, hd]; omega, by simp [cOff, hd]⟩
    · rw [if_neg (by omega)] at hj
      by_cases h2 : j < c
      · exact .inr ⟨0, by simp [subbandsPerWT, hd], i - r, by omega, j, h2, by simp [rOff, hd]; omega, by simp [cOff, hd]⟩
      · exact .inr ⟨2, by simp [subbandsPerWT, hd], i - r, by omega, j - c, by omega, by simp [rOff, hd]; omega,
          by simp [cOff, hd]; omega⟩

theorem dim_cases {p : Params} (hv : ValidParams p) : p.dimension = 1 ∨ p.dimension = 2 := by
  rcases shape_cases hv with ⟨_, _, h⟩ | ⟨_, _, _, h⟩ <;> omega

/-- Sizes of the parts at one level. -/
def lvlR (p : Params) (s : ℕ) : ℕ := matRows (paddedShape p) / 2 ^ s
/-- Sizes of the parts at one level. -/
def lvlC (p : Params) (s : ℕ) : ℕ := if p.dimension = 1 then 1 else matCols (paddedShape p) / 2 ^ s

theorem parts_of_fits {p : Params} {s : ℕ} {low : Mat R} {ds : List (Mat R)} (h : Fits p s low)
    (hd : ∀ q < subbandsPerWT p, Fits p s (ds.getD q default)) : Parts p (lvlR p s) (lvlC p s) low ds :=
  ⟨h.1, h.2, fun h1 => by simp [lvlC, h1], fun q hq => ⟨(hd q hq).1, (hd q hq).2⟩⟩

theorem analysis_parts {k : Kit R} {p : Params} (hv : ValidParams p) {s : ℕ} (hs : s < p.steps) {m : Mat R}
    (hm : Fits p s m) : Parts p (lvlR p (s + 1)) (lvlC p (s + 1)) (approxStep p (scaling k p) m)
      (detailStep p (scaling k p) nullDenoiser s m) :=
  parts_of_fits (fits_approx hv (wavelet_of_steps hv hs) hs hm)
    (fun _ hq => detailStep_fits hv nullDenoiser_sized hs hm hq)

/-! ### linear combinations -/

theorem comb_sepOp {a b : R} {KH KW : ℕ → ℕ → R} {x y z : Mat R} (h : Comb a b x y z) :
    Comb a b (sepOp KH KW x) (sepOp KH KW y) (sepOp KH KW z) := by
  obtain ⟨h1, h2, h3, h4, h5⟩ := h
  refine ⟨h1, h2, h3, h4, ?_⟩
  intro i hi j hj
  have hi' : i < z.rows := hi
  have hj' : j < z.cols := hj
  rw [sepOp_get hi' hj', sepOp_get (by omega) (by omega), sepOp_get (by omega) (by omega), h1, h2, h3, h4, mul_sum, mul_sum,
    ← sum_add_distrib]
  refine sum_congr rfl (fun u hu => ?_)
  have : ∑ v ∈ range z.cols, KW j v * z.get u v = a * (∑ v ∈ range z.cols, KW j v * x.get u v) +
      b * ∑ v ∈ range z.cols, KW j v * y.get u v := by
    rw [mul_sum, mul_sum, ← sum_add_distrib]
    refine sum_congr rfl (fun v hv => ?_)
    rw [h5 u (mem_range.1 hu) v (mem_range.1 hv)]; ring
  rw [this]; ring

theorem comb_glue_low {a b : R} {p : Params} {r c : ℕ} {x y z : Mat R} {dx dy dz : List (Mat R)}
    (hx : Parts p r c x dx) (hy : Parts p r c y dy) (hz : Parts p r c z dz) (h : Comb a b (glue p x dx) (glue p y dy) (glue p z dz)) :
    Comb a b x y z := by
  refine ⟨by rw [hx.1, hz.1], by rw [hx.2.1, hz.2.1], by rw [hy.1, hz.1], by rw [hy.2.1, hz.2.1], ?_⟩
  intro i hi j hj
  rw [hz.1] at hi
  rw [hz.2.1] at hj
  have := h.2.2.2.2 i (by rw [glue_rows, hz.1]; omega) j (by rw [glue_cols p hz]; split_ifs <;> omega)
  rwa [glue_low hx hi hj, glue_low hy hi hj, glue_low hz hi hj] at this

theorem off_lt {p : Params} {r c : ℕ} {z : Mat R} {dz : List (Mat R)} (hz : Parts p r c z dz) {q : ℕ} {i j : ℕ}
    (hi : i < r) (hj : j < c) :
    (if rOff p q then r else 0) + i < (glue p z dz).rows ∧ (if cOff p q then c else 0) + j < (glue p z dz).cols := by
  rw [glue_rows, hz.1, glue_cols p hz]
  constructor
  · split_ifs <;> omega
  · unfold cOff
    by_cases hd : p.dimension = 1
    · simp [hd, hj]
    · simp only [hd, if_false]; split_ifs <;> omega

theorem comb_glue_detail {a b : R} {p : Params} {r c : ℕ} {x y z : Mat R} {dx dy dz : List (Mat R)}
    (hx : Parts p r c x dx) (hy : Parts p r c y dy) (hz : Parts p r c z dz) (h : Comb a b (glue p x dx) (glue p y dy) (glue p z dz))
    {q : ℕ} (hq : q < subbandsPerWT p) : Comb a b (dx.getD q default) (dy.getD q default) (dz.getD q default) := by
  have ex := hx.2.2.2 q hq
  have ey := hy.2.2.2 q hq
  have ez := hz.2.2.2 q hq
  refine ⟨by rw [ex.1, ez.1], by rw [ex.2, ez.2], by rw [ey.1, ez.1], by rw [ey.2, ez.2], ?_⟩
  intro i hi j hj
  rw [ez.1] at hi
  rw [ez.2] at hj
  obtain ⟨h1, h2⟩ := off_lt hz (q := q) hi hj
  have := h.2.2.2.2 _ h1 _ h2
  rwa [glue_detail hx hq hi hj, glue_detail hy hq hi hj, glue_detail hz hq hi hj] at this

theorem comb_glue {a b : R} {p : Params} (hd : p.dimension = 1 ∨ p.dimension = 2) {r c : ℕ} {x y z : Mat R}
    {dx dy dz : List (Mat R)}
    (hx : Parts p r c x dx) (hy : Parts p r c y dy) (hz : Parts p r c z dz) (h : Comb a b x y z)
    (h' : ∀ q < subbandsPerWT p, Comb a b (dx.getD q default) (dy.getD q default) (dz.getD q default)) :
    Comb a b (glue p x dx) (glue p y dy) (glue p z dz) := by
  refine ⟨by rw [glue_rows, glue_rows, hx.1, hz.1], by rw [glue_cols p hx, glue_cols p hz],
    by rw [glue_rows, glue_rows, hy.1, hz.1], by rw [glue_cols p hy, glue_cols p hz], ?_⟩
  intro i hi j hj
  rcases glue_cases hz hd hi hj with ⟨h1, h2⟩ | ⟨q, hq, i', hi', j', hj', rfl, rfl⟩
  · rw [glue_low hx h1 h2, glue_low hy h1 h2, glue_low hz h1 h2]
    exact h.2.2.2.2 i (by rw [hz.1]; exact h1) j (by rw [hz.2.1]; exact h2)
  · rw [glue_detail hx hq hi' hj', glue_detail hy hq hi' hj', glue_detail hz hq hi' hj']
    have ez := hz.2.2.2 q hq
    exact (h' q hq).2.2.2.2 i' (by rw [ez.1]; exact hi') j' (by rw [ez.2]; exact hj')

theorem comb_full {a b : R} {p : Params} {h : List R} {x y z : Mat R} (hc : Comb a b x y z) :
    Comb a b (fullStep p h x) (fullStep p h y) (fullStep p h z) := by
  unfold fullStep
  rw [hc.1, hc.2.1, hc.2.2.1, hc.2.2.2.1]
  exact comb_sepOp hc

theorem comb_padOf {a b : R} {p : Params} (hv : ValidParams p) {x y z : Mat R} (hx : Shaped p x) (hy : Shaped p y) (hz : Shaped p z)
    (h : Comb a b x y z) : Comb a b (padOf p x) (padOf p y) (padOf p z) := by
  unfold padOf
  split_ifs with ht
  · exact h
  · obtain ⟨h1, h2, _⟩ := padded_ge hv ht
    refine ⟨rfl, rfl, rfl, rfl, ?_⟩
    intro i hi j hj
    simp only [Mat.rows_ofFn, Mat.cols_ofFn] at hi hj
    rw [Mat.get_ofFn hi hj, Mat.get_ofFn hi hj, Mat.get_ofFn hi hj, h.1, h.2.1, h.2.2.1, h.2.2.2.1]
    apply h.2.2.2.2
    · unfold clampIdx; rw [hz.1]; omega
    · unfold clampIdx; rw [hz.2]; omega

theorem comb_step {a b : R} {k : Kit R} {p : Params} (hv : ValidParams p) (hf : FilterLen k p) {s : ℕ} (hs : s < p.steps)
    {x y z : Mat R} (hx : Fits p s x) (hy : Fits p s y) (hz : Fits p s z) (h : Comb a b x y z) :
    Comb a b (approxStep p (scaling k p) x) (approxStep p (scaling k p) y) (approxStep p (scaling k p) z) ∧
    ∀ q < subbandsPerWT p, Comb a b ((detailStep p (scaling k p) nullDenoiser s x).getD q default)
      ((detailStep p (scaling k p) nullDenoiser s y).getD q default)
      ((detailStep p (scaling k p) nullDenoiser s z).getD q default) := by
  have hc := comb_full (p := p) (h := scaling k p) h
  rw [← glue_analysis hv hf hs hx, ← glue_analysis hv hf hs hy, ← glue_analysis hv hf hs hz] at hc
  have px := analysis_parts (k := k) hv hs hx
  have py := analysis_parts (k := k) hv hs hy
  have pz := analysis_parts (k := k) hv hs hz
  exact ⟨comb_glue_low px py pz hc, fun q hq => comb_glue_detail px py pz hc hq⟩

theorem comb_sig {a b : R} {k : Kit R} {p : Params} (hv : ValidParams p) (hf : FilterLen k p) {x y z : Mat R}
    (hx : Fits p 0 x) (hy : Fits p 0 y) (hz : Fits p 0 z) (h : Comb a b x y z) {s : ℕ} (hs : s ≤ p.steps) :
    Comb a b (sig p (scaling k p) x s) (sig p (scaling k p) y s) (sig p (scaling k p) z s) := by
  induction s with
  | zero => exact h
  | succ s ih => exact (comb_step hv hf (by omega) (fits_sig hv hx (by omega)) (fits_sig hv hy (by omega))
      (fits_sig hv hz (by omega)) (ih (by omega))).1

/-- Positions in the list of subbands. -/
theorem sub_cases (p : Params) {i : ℕ} (hi : i < decompositionSize p) :
    i = p.steps * subbandsPerWT p ∨ ∃ s < p.steps, ∃ q < subbandsPerWT p, i = s * subbandsPerWT p + q := by
  have hpos : 0 < subbandsPerWT p := by unfold subbandsPerWT; split_ifs <;> omega
  unfold decompositionSize at hi
  by_cases h : i = p.steps * subbandsPerWT p
  · exact .inl h
  · right
    refine ⟨i / subbandsPerWT p, ?_, i % subbandsPerWT p, Nat.mod_lt _ hpos, ?_⟩
    · rw [Nat.div_lt_iff_lt_mul hpos]; omega
    · rw [Nat.mul_comm]; exact (Nat.div_add_mod _ _).symm

theorem comb_chanP {a b : R} {k : Kit R} {p : Params} (hv : ValidParams p) (hf : FilterLen k p) {x y z : Mat R}
    (hx : Shaped p x) (hy : Shaped p y) (hz : Shaped p z) (h : Comb a b x y z) :
    CombAll a b (chanP p (scaling k p) nullDenoiser x) (chanP p (scaling k p) nullDenoiser y)
      (chanP p (scaling k p) nullDenoiser z) := by
  have fx := fits_padOf hv hx
  have fy := fits_padOf hv hy
  have fz := fits_padOf hv hz
  have hp := comb_padOf hv hx hy hz h
  refine ⟨by rw [chanP_length, chanP_length], by rw [chanP_length, chanP_length], ?_⟩
  intro i x' y' z' ex ey ez
  have gx : (chanP p (scaling k p) nullDenoiser x).getD i default = x' := by simp [List.getD, ex]
  have gy : (chanP p (scaling k p) nullDenoiser y).getD i default = y' := by simp [List.getD, ey]
  have gz : (chanP p (scaling k p) nullDenoiser z).getD i default = z' := by simp [List.getD, ez]
  have hi : i < decompositionSize p := by
    rw [← chanP_length p (scaling k p) nullDenoiser x]
    exact (List.getElem?_eq_some_iff.1 ex).1
  rcases sub_cases p hi with rfl | ⟨s, hs, q, hq, rfl⟩
  · rw [chanP_last] at gx gy gz
    rw [← gx, ← gy, ← gz]
    exact comb_sig hv hf fx fy fz hp le_rfl
  · rw [chanP_detail _ _ _ _ hs hq] at gx gy gz
    rw [← gx, ← gy, ← gz]
    exact (comb_step hv hf hs (fits_sig hv fx hs.le) (fits_sig hv fy hs.le) (fits_sig hv fz hs.le)
      (comb_sig hv hf fx fy fz hp hs.le)).2 q hq

/-! ### composition -/

theorem detailsAt_getD (p : Params) (c : Channel R) (s : ℕ) {q : ℕ} (hq : q < subbandsPerWT p) :
    (detailsAt p c s).getD q default = c.getD (s * subbandsPerWT p + q) default := by
  unfold detailsAt; rw [getD_map_range' _ _ _ hq]

theorem comb_recon {a b : R} {k : Kit R} {p : Params} (hv : ValidParams p) (hf : FilterLen k p) {x y z : Channel R}
    (hx : SizedChan p x) (hy : SizedChan p y) (hz : SizedChan p z)
    (h : ∀ i < decompositionSize p, Comb a b (x.getD i default) (y.getD i default) (z.getD i default))
    (n i : ℕ) (hi : i ≤ p.steps) (hn : n ≤ i) {mx my mz : Mat R} (fx : Fits p i mx) (fy : Fits p i my) (fz : Fits p i mz)
    (hm : Comb a b mx my mz) :
    Comb a b (reconFrom p (scaling k p) x n i mx) (reconFrom p (scaling k p) y n i my) (reconFrom p (scaling k p) z n i mz) := by
  induction n generalizing i mx my mz with
  | zero => exact hm
  | succ n ih =>
    obtain ⟨j, rfl⟩ : ∃ j, i = j + 1 := ⟨i - 1, by omega⟩
    simp only [reconFrom, Nat.add_sub_cancel]
    have hs : j < p.steps := by omega
    refine ih j (by omega) (by omega) (fits_synth hv _ hs fx _) (fits_synth hv _ hs fy _) (fits_synth hv _ hs fz _) ?_
    have key : ∀ {c : Channel R}, SizedChan p c → ∀ q < subbandsPerWT p, Fits p (j + 1) ((detailsAt p c j).getD q default) := by
      intro c hc q hq
      rw [detailsAt_getD p c j hq]
      exact hc.2.1 j hs q hq
    rw [synth_glue hv hf hs fx (key hx), synth_glue hv hf hs fy (key hy), synth_glue hv hf hs fz (key hz)]
    have px := parts_of_fits fx (key hx)
    have py := parts_of_fits fy (key hy)
    have pz := parts_of_fits fz (key hz)
    have hg := comb_glue (dim_cases hv) px py pz hm (by
      intro q hq
      rw [detailsAt_getD p x j hq, detailsAt_getD p y j hq, detailsAt_getD p z j hq]
      apply h
      have := Nat.mul_le_mul_right (subbandsPerWT p) (show j + 1 ≤ p.steps by omega)
      rw [Nat.succ_mul] at this
      unfold decompositionSize; omega)
    rw [hg.1, hg.2.1, hg.2.2.1, hg.2.2.2.1]
    exact comb_sepOp hg

/-- The gain of scaled composition respects linear combinations. -/
def LinearGain (k : Kit R) : Prop := ∀ f s (a b x y : R), k.divFactor f s (a * x + b * y) = a * k.divFactor f s x + b * k.divFactor f s y

theorem comb_finish {a b : R} {k : Kit R} {p : Params} (hv : ValidParams p) (hg : LinearGain k) {scale : ℕ} {x y z : Mat R}
    (fz : Fits p scale z) (h : Comb a b x y z) :
    Comb a b (finishP k p scale x) (finishP k p scale y) (finishP k p scale z) := by
  have hcrop : Comb a b (cropOf p scale x) (cropOf p scale y) (cropOf p scale z) := by
    unfold cropOf
    simp only
    split_ifs with h0
    · exact h
    · refine ⟨rfl, rfl, rfl, rfl, ?_⟩
      intro i hi j hj
      simp only [Mat.rows_ofFn, Mat.cols_ofFn] at hi hj
      obtain ⟨l1, l2⟩ := scaled_le hv fz
      have o1 := padOffset_add_le .both l1
      have o2 := padOffset_add_le .both l2
      rw [Mat.get_ofFn hi hj, Mat.get_ofFn hi hj, Mat.get_ofFn hi hj, h.1, h.2.1, h.2.2.1, h.2.2.2.1]
      exact h.2.2.2.2 _ (by omega) _ (by omega)
  unfold finishP
  split_ifs
  · obtain ⟨h1, h2, h3, h4, h5⟩ := hcrop
    refine ⟨h1, h2, h3, h4, ?_⟩
    intro i hi j hj
    have hi' : i < (cropOf p scale z).rows := hi
    have hj' : j < (cropOf p scale z).cols := hj
    rw [Mat.get_map _ _ hi' hj', Mat.get_map _ _ (by omega) (by omega), Mat.get_map _ _ (by omega) (by omega), h5 i hi' j hj', hg]
  · exact hcrop

/-! ### energy -/

theorem sum_split_off {r : ℕ} (F : ℕ → R) : ∑ i ∈ range (2 * r), F i = ∑ i ∈ range r, F i + ∑ i ∈ range r, F (r + i) :=
  sum_halves r F

theorem energy_glue {p : Params} (hd : p.dimension = 1 ∨ p.dimension = 2) {r c : ℕ} {low : Mat R} {ds : List (Mat R)}
    (hp : Parts p r c low ds) :
    energy (glue p low ds) = energy low + ∑ q ∈ range (subbandsPerWT p), energy (ds.getD q default) := by
  have el : energy low = ∑ i ∈ range r, ∑ j ∈ range c, (glue p low ds).get i j * (glue p low ds).get i j := by
    unfold energy
    rw [hp.1, hp.2.1]
    refine sum_congr rfl (fun i hi => sum_congr rfl (fun j hj => ?_))
    rw [glue_low hp (mem_range.1 hi) (mem_range.1 hj)]
  have ed : ∀ q < subbandsPerWT p, energy (ds.getD q default) = ∑ i ∈ range r, ∑ j ∈ range c,
      (glue p low ds).get ((if rOff p q then r else 0) + i) ((if cOff p q then c else 0) + j) *
      (glue p low ds).get ((if rOff p q then r else 0) + i) ((if cOff p q then c else 0) + j) := by
    intro q hq
    unfold energy
    rw [(hp.2.2.2 q hq).1, (hp.2.2.2 q hq).2]
    refine sum_congr rfl (fun i hi => sum_congr rfl (fun j hj => ?_))
    rw [glue_detail hp hq (mem_range.1 hi) (mem_range.1 hj)]
  rw [el]
  unfold energy at ed ⊢
  rw [sum_congr rfl (fun q hq => ed q (mem_range.1 hq)), glue_rows, hp.1, glue_cols p hp]
  rcases hd with hd | hd
  · simp only [subbandsPerWT, hd, if_true, sum_range_one, rOff, cOff]
    rw [sum_halves]
    simp
  · have e3 : subbandsPerWT p = 3 := by simp [subbandsPerWT, hd]
    rw [e3, if_neg (by omega), sum_halves]
    simp only [sum_range_succ, sum_range_zero, rOff, cOff, hd]
    simp only [sum_halves, sum_add_distrib]
    simp
    ring

/-- `K` preserves the scalar product of vectors of length `n`. -/
def OrthoK (n : ℕ) (K : ℕ → ℕ → R) : Prop :=
  ∀ k < n, ∀ l < n, ∑ i ∈ range n, K i k * K i l = if k = l then 1 else 0

theorem orthoK_energy {n : ℕ} {K : ℕ → ℕ → R} (h : OrthoK n K) (v : ℕ → R) :
    ∑ i ∈ range n, (∑ a ∈ range n, K i a * v a) * (∑ a ∈ range n, K i a * v a) = ∑ a ∈ range n, v a * v a := by
  have e1 : ∀ i ∈ range n, (∑ a ∈ range n, K i a * v a) * (∑ a ∈ range n, K i a * v a) =
      ∑ a ∈ range n, ∑ b ∈ range n, (K i a * K i b) * (v a * v b) := by
    intro i _
    rw [sum_mul_sum]
    exact sum_congr rfl (fun a _ => sum_congr rfl (fun b _ => by ring))
  rw [sum_congr rfl e1, sum_comm]
  refine sum_congr rfl (fun a ha => ?_)
  rw [sum_comm]
  have e2 : ∀ b ∈ range n, ∑ i ∈ range n, (K i a * K i b) * (v a * v b) = if a = b then v a * v b else 0 := by
    intro b hb
    rw [← sum_mul, h a (mem_range.1 ha) b (mem_range.1 hb)]
    split_ifs <;> simp
  rw [sum_congr rfl e2, sum_ite_eq, if_pos ha]

theorem energy_sepOp {KH KW : ℕ → ℕ → R} {x : Mat R} (hH : OrthoK x.rows KH) (hW : OrthoK x.cols KW) :
    energy (sepOp KH KW x) = energy x := by
  have e0 : energy (sepOp KH KW x) = ∑ j ∈ range x.cols, ∑ i ∈ range x.rows,
      (∑ a ∈ range x.rows, KH i a * ∑ b ∈ range x.cols, KW j b * x.get a b) *
      (∑ a ∈ range x.rows, KH i a * ∑ b ∈ range x.cols, KW j b * x.get a b) := by
    rw [sum_comm]
    exact sum_congr rfl (fun i hi => sum_congr rfl (fun j hj => by
      rw [sepOp_get (mem_range.1 hi) (mem_range.1 hj)]))
  rw [e0, sum_congr rfl (fun j _ => orthoK_energy hH (fun a => ∑ b ∈ range x.cols, KW j b * x.get a b)), sum_comm]
  exact sum_congr rfl (fun a _ => orthoK_energy hW (fun b => x.get a b))

theorem orthoK_delta (n : ℕ) : OrthoK n (delta : ℕ → ℕ → R) := by
  intro k hk l _
  unfold delta
  rw [sum_eq_single k]
  · simp
  · intro b _ hb; simp [hb]
  · intro h; exact absurd (mem_range.2 hk) h

theorem energy_step {k : Kit R} {p : Params} (hv : ValidParams p) (hf : FilterLen k p) (ho : OrthoKit k p) {s : ℕ}
    (hs : s < p.steps) {m : Mat R} (hm : Fits p s m) :
    energy m = energy (approxStep p (scaling k p) m) +
      ∑ q ∈ range (subbandsPerWT p), energy ((detailStep p (scaling k p) nullDenoiser s m).getD q default) := by
  rw [← energy_glue (dim_cases hv) (analysis_parts (k := k) hv hs hm), glue_analysis hv hf hs hm]
  have ht := wavelet_of_steps hv hs
  have hL := length_scaling hf ht
  symm
  unfold fullStep
  apply energy_sepOp
  · unfold kR
    rcases fits_halves hv ht hs hm with ⟨hd, n2, h1, h2, h3, h4⟩ | ⟨hd, sh, sw, h1, h2, h3, h4, h5, h6, _⟩ <;>
    · rw [h1, Nat.mul_div_cancel_left _ (by omega : 0 < 2)]
      intro a ha b hb
      exact trans_ortho _ _ _ hL (ho ht) (by omega) a b ha hb
  · unfold kC
    rcases fits_halves hv ht hs hm with ⟨hd, n2, h1, h2, h3, h4⟩ | ⟨hd, sh, sw, h1, h2, h3, h4, h5, h6, _⟩
    · rw [if_pos hd]; exact orthoK_delta _
    · rw [if_neg (by omega), h2, Nat.mul_div_cancel_left _ (by omega : 0 < 2)]
      intro a ha b hb
      exact trans_ortho _ _ _ hL (ho ht) (by omega) a b ha hb

theorem list_sum_range {l : List (Mat R)} : (l.map energy).sum = ∑ q ∈ range l.length, energy (l.getD q default) := by
  induction l with
  | nil => simp
  | cons a l ih => rw [List.map_cons, List.sum_cons, List.length_cons, sum_range_succ', ih]; simp [add_comm]

theorem energy_chan {k : Kit R} {p : Params} (hv : ValidParams p) (hf : FilterLen k p) (ho : OrthoKit k p) {m : Mat R}
    (hm : Fits p 0 m) {n : ℕ} (hn : n ≤ p.steps) :
    (((List.range n).flatMap (fun s => detailStep p (scaling k p) nullDenoiser s (sig p (scaling k p) m s))).map energy).sum +
      energy (sig p (scaling k p) m n) = energy m := by
  induction n with
  | zero => simp [sig]
  | succ n ih =>
    rw [List.range_succ, List.flatMap_append, List.map_append, List.sum_append]
    have := ih (by omega)
    rw [energy_step hv hf ho (by omega) (fits_sig hv hm (show n ≤ p.steps by omega))] at this
    rw [← this]
    simp only [List.flatMap_cons, List.flatMap_nil, List.append_nil]
    rw [list_sum_range (l := detailStep p (scaling k p) nullDenoiser n (sig p (scaling k p) m n)), length_detailStep]
    simp only [sig]
    ring

end Ring

end WB
