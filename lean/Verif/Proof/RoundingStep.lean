import Verif.Proof.RoundingPass

/-!
One analysis step and one synthesis step with rounded arithmetic, as a perturbation of the exact step in the Euclidean norm.
-/

namespace WB

open Finset Spec

section Values
variable {α : Type} [Zero α] [Add α] [Mul α] [Neg α] [Inhabited α] {u ω Ω η S : ℝ} {sc : Scalars α u ω Ω}

/-- Rounded coefficients `f` of the filter `F`. -/
structure Coef (sc : Scalars α u ω Ω) (η S : ℝ) (t : ℕ) (f : List α) (F : List ℝ) : Prop where
  hu : 0 ≤ u
  hω : 0 ≤ ω
  hη : 0 ≤ η
  ht : 0 < t
  hf : ApF sc η f F
  hl : F.length = 2 * t
  hS : ∑ j ∈ range (2 * t), |F.getD j 0| ≤ S

/-- Norm of an exact pass. -/
noncomputable def pa (t : ℕ) (F : List ℝ) : ℝ := Real.sqrt (1 + dev t F)

/-- Norm of a rounded pass. -/
noncomputable def pg (u η S : ℝ) (t : ℕ) (F : List ℝ) : ℝ := pa t F + lk u η t * S

theorem one_le_pa (t : ℕ) (F : List ℝ) : 1 ≤ pa t F := by
  unfold pa
  rw [Real.one_le_sqrt]
  linarith [dev_nonneg t F]

variable {t : ℕ} {f : List α} {F : List ℝ}

theorem Coef.S_nonneg (c : Coef sc η S t f F) : 0 ≤ S := (sum_nonneg fun _ _ => abs_nonneg _).trans c.hS

theorem Coef.pa_le_pg (c : Coef sc η S t f F) : pa t F ≤ pg u η S t F := by
  unfold pg
  have := mul_nonneg (lk_nonneg c.hu c.hη t) c.S_nonneg
  linarith

theorem Coef.one_le_pg (c : Coef sc η S t f F) : 1 ≤ pg u η S t F := (one_le_pa t F).trans c.pa_le_pg

theorem bd_K (c : Coef sc η S t f F) {n2 : ℕ} (hn : t ≤ n2) : Bd (2 * n2) (trans n2 t F) (pa t F) :=
  bd_of_gram (bd_trans F t n2 c.hl (by have := c.ht; omega))

theorem bd_A (c : Coef sc η S t f F) {n2 : ℕ} (hn : t ≤ n2) : Bd (2 * n2) (absK n2 t F) S :=
  bd_absK c.hl (by have := c.ht; omega) c.hS

theorem NAp.self (X : Mat ℝ) : NAp X X (nrm X) (nrm X) := ⟨rfl, rfl, le_rfl, by rw [nrm_msub_self]; linarith⟩

theorem gr_mono' (c : Coef sc η S t f F) {q q' : ℝ} (h : q ≤ q') : gr u ω η S t q ≤ gr u ω η S t q' := by
  rw [gr_eq_lk, gr_eq_lk]
  have := lk_nonneg c.hu c.hη t
  have : (lk u η t + 1) * (S * q) ≤ (lk u η t + 1) * (S * q') :=
    mul_le_mul_of_nonneg_left (mul_le_mul_of_nonneg_left h c.S_nonneg) (by linarith)
  linarith

/-- The two passes of a step in two dimensions. -/
theorem two_passes (c : Coef sc η S t f F) {τ B : ℝ} (hτ0 : 0 ≤ τ) {x : Mat α} (hx : FinV sc x) {sh sw : ℕ} (hr : x.rows = 2 * sh) (hc : x.cols = 2 * sw)
    {w h : SpMat α} {KW AW KH AH : ℕ → ℕ → ℝ} (ow : SpOk sc η S t (2 * sw) w KW AW)
    (oh : SpOk sc η S t (2 * sh) h KH AH) (b1 : Bd (2 * sw) KW (pa t F)) (b2 : Bd (2 * sw) AW S) (b3 : Bd (2 * sh) KH (pa t F))
    (b4 : Bd (2 * sh) AH S) (hτ : lw u ω t * Real.sqrt (x.rows * x.cols) ≤ τ)
    (hB : pg u η S t F * nrm (x.map sc.val) + τ ≤ B) (hΩ : gr u ω η S t B ≤ Ω) :
    FinV sc (colsP (rowsP x w) h) ∧ NAp ((colsP (rowsP x w) h).map sc.val) (sepOp KH KW (x.map sc.val)) (pa t F * (pa t F * nrm (x.map sc.val)))
      (pg u η S t F * (pg u η S t F * nrm (x.map sc.val) + τ) + τ) := by
  have hn := nrm_nonneg (x.map sc.val)
  have hg := c.one_le_pg
  have hB1 : nrm (x.map sc.val) ≤ B := by nlinarith
  obtain ⟨f1, l1⟩ := loc_rowsP c.hu c.hω c.hη c.ht hx hB1 (hc ▸ ow) hΩ
  have n1 := pass_norm (lk_nonneg c.hu c.hη t) (lw_nonneg c.hu c.hω t) l1 (a := pa t F) (S := S) (τ := τ)
    (bd_delta _) (show Bd x.cols KW (pa t F) by rw [hc]; exact b1) (by rw [one_mul]) (bd_delta _) (show Bd x.cols AW S by rw [hc]; exact b2)
    (by rw [one_mul]) hτ (NAp.self _)
  obtain ⟨f2, l2⟩ := loc_colsP c.hu c.hω c.hη c.ht f1 (n1.nrm_le.trans hB) (show SpOk sc η S t (rowsP x w).rows h KH AH from hr ▸ oh) hΩ
  have n2 := pass_norm (lk_nonneg c.hu c.hη t) (lw_nonneg c.hu c.hω t) l2 (a := pa t F) (S := S) (τ := τ)
    (show Bd x.rows KH (pa t F) by rw [hr]; exact b3) (bd_delta _) (by rw [mul_one]) (show Bd x.rows AH S by rw [hr]; exact b4) (bd_delta _)
    (by rw [mul_one]) hτ n1
  rw [sepOp_two] at n2
  exact ⟨f2, n2⟩

theorem map_assemble (sc : Scalars α u ω Ω) {a b c d : Mat α} {r w : ℕ} (ha : a.rows = r ∧ a.cols = w) (hb : b.rows = r ∧ b.cols = w)
    (hc : c.rows = r ∧ c.cols = w) (hd : d.rows = r ∧ d.cols = w) :
    (assemble ⟨a, b, c, d⟩ r w).map sc.val = assemble ⟨a.map sc.val, b.map sc.val, c.map sc.val, d.map sc.val⟩ r w := by
  refine Mat.ext' rfl rfl ?_
  intro i hi j hj
  have hi' : i < 2 * r := hi
  have hj' : j < 2 * w := hj
  rw [get_V sc _ hi hj]
  unfold assemble
  rw [Mat.get_ofFn hi' hj', Mat.get_ofFn hi' hj']
  split_ifs
  · rw [get_V sc a (by omega) (by omega)]
  · rw [get_V sc c (by omega) (by omega)]
  · rw [get_V sc b (by omega) (by omega)]
  · rw [get_V sc d (by omega) (by omega)]

theorem fin_assemble {a b c d : Mat α} {r w : ℕ} (ha : a.rows = r ∧ a.cols = w) (hb : b.rows = r ∧ b.cols = w)
    (hc : c.rows = r ∧ c.cols = w) (hd : d.rows = r ∧ d.cols = w) (fa : FinV sc a) (fb : FinV sc b) (fc : FinV sc c) (fd : FinV sc d) :
    FinV sc (assemble ⟨a, b, c, d⟩ r w) := by
  intro i hi j hj
  have hi' : i < 2 * r := hi
  have hj' : j < 2 * w := hj
  unfold assemble
  rw [Mat.get_ofFn hi' hj']
  split_ifs
  · exact fa _ (by omega) _ (by omega)
  · exact fc _ (by omega) _ (by omega)
  · exact fb _ (by omega) _ (by omega)
  · exact fd _ (by omega) _ (by omega)

theorem map_quadP (sc : Scalars α u ω Ω) (y : Mat α) {sh sw : ℕ} (hr : y.rows = 2 * sh) (hc : y.cols = 2 * sw) :
    (⟨(quadP y sh sw).ll.map sc.val, (quadP y sh sw).lh.map sc.val, (quadP y sh sw).hl.map sc.val, (quadP y sh sw).hh.map sc.val⟩ : Quad ℝ) =
      quadP (y.map sc.val) sh sw := by
  have key : ∀ a b : ℕ, a ≤ sh → b ≤ sw → (Mat.ofFn sh sw fun i j => y.get (a + i) (b + j)).map sc.val =
      Mat.ofFn sh sw fun i j => (y.map sc.val).get (a + i) (b + j) := by
    intro a b ha hb
    refine Mat.ext' rfl rfl ?_
    intro i hi j hj
    have hi' : i < sh := hi
    have hj' : j < sw := hj
    rw [get_V sc _ hi hj, Mat.get_ofFn hi' hj', Mat.get_ofFn hi' hj', get_V sc y (by omega) (by omega)]
  unfold quadP
  have k1 := key 0 0 (by omega) (by omega)
  have k2 := key sh 0 (by omega) (by omega)
  have k3 := key 0 sw (by omega) (by omega)
  have k4 := key sh sw (by omega) (by omega)
  simp only [Nat.zero_add] at k1 k2 k3
  simp only [k1, k2, k3, k4]

/-- Values of all details. -/
def VL (sc : Scalars α u ω Ω) (ds : List (Mat α)) : List (Mat ℝ) := ds.map fun d => d.map sc.val

theorem getD_VL (sc : Scalars α u ω Ω) (ds : List (Mat α)) (q : ℕ) : (VL sc ds).getD q default = (ds.getD q default).map sc.val := by
  unfold VL
  by_cases h : q < ds.length
  · simp [List.getD, h]
  · simp [List.getD, h]
    rfl

/-- Norm of the exact step, in one or two dimensions. -/
noncomputable def sa (p : Params) (F : List ℝ) : ℝ := if p.dimension = 1 then pa p.wtype F else pa p.wtype F * pa p.wtype F

/-- Norm of the rounded step. -/
noncomputable def sg (u η S : ℝ) (p : Params) (F : List ℝ) : ℝ :=
  if p.dimension = 1 then pg u η S p.wtype F else pg u η S p.wtype F * pg u η S p.wtype F

/-- Underflow in one step. -/
noncomputable def st (u η S τ : ℝ) (p : Params) (F : List ℝ) : ℝ := if p.dimension = 1 then τ else (pg u η S p.wtype F + 1) * τ

theorem sa_sq (p : Params) (F : List ℝ) : sa p F * sa p F = growth p (dev p.wtype F) := by
  have h : pa p.wtype F * pa p.wtype F = 1 + dev p.wtype F := Real.mul_self_sqrt (by linarith [dev_nonneg p.wtype F])
  unfold sa growth
  split_ifs
  · rw [h, mul_one]
  · rw [h]

/-! ### one analysis step -/

theorem ana_1d {p : Params} (hd : p.dimension = 1) (c : Coef sc η S p.wtype f F) {τ B : ℝ} {x : Mat α} (hx : FinV sc x) {n2 s : ℕ}
    (hr : x.rows = 2 * n2) (hc : x.cols = 1) (hn : p.wtype ≤ n2) (hτ : lw u ω p.wtype * Real.sqrt (x.rows * x.cols) ≤ τ)
    (hB : nrm (x.map sc.val) ≤ B) (hΩ : gr u ω η S p.wtype B ≤ Ω) :
    FinV sc (approxStep p f x) ∧ (∀ q < subbandsPerWT p, FinV sc ((detailStep p f nullDenoiser s x).getD q default)) ∧
    NAp (glue p ((approxStep p f x).map sc.val) (VL sc (detailStep p f nullDenoiser s x))) (fullStep p F (x.map sc.val))
      (pa p.wtype F * nrm (x.map sc.val)) (pg u η S p.wtype F * nrm (x.map sc.val) + τ) := by
  have ht := c.ht
  have h0 : 0 < n2 := by omega
  have hdiv : x.rows / 2 = n2 := by omega
  have hlen : (x.col 0).length = 2 * n2 := by simp [hr]
  have hcol := finL_col (j := 0) hx hB (by omega)
  have lo := fun i => loc_ana (S := S) c.hu c.hω c.hη c.ht hcol c.hf c.hl c.hS hΩ (by omega) i
  have hi := fun i => loc_ana (S := S) c.hu c.hω c.hη c.ht hcol (apF_qmf c.hf c.hl) (by simp [c.hl]) (by rw [sum_abs_qmf c.hl]; exact c.hS)
    hΩ (by omega) i
  rw [hlen] at lo hi
  have k1 : subbandsPerWT p = 1 := by simp [subbandsPerWT, hd]
  have ga : ∀ i < n2, (approxStep p f x).get i 0 = anaP (x.col 0) f i := by
    intro i h
    unfold approxStep
    rw [if_pos hd, Mat.get_ofCol, hdiv, getD_map_range' _ _ _ h]
  have gd : ∀ i < n2, ((detailStep p f nullDenoiser s x).getD 0 default).get i 0 = anaP (x.col 0) (qmf f) i := by
    intro i h
    unfold detailStep
    rw [if_pos hd]
    simp only [List.getD, List.getElem?_cons_zero, Option.getD_some, nullDenoiser]
    rw [Mat.get_ofCol, hdiv, getD_map_range' _ _ _ h]
  have sa1 : (approxStep p f x).rows = n2 ∧ (approxStep p f x).cols = 1 := by unfold approxStep; rw [if_pos hd]; simp [hdiv]
  have sd1 : ((detailStep p f nullDenoiser s x).getD 0 default).rows = n2 ∧ ((detailStep p f nullDenoiser s x).getD 0 default).cols = 1 := by
    unfold detailStep; rw [if_pos hd]; simp [hdiv, nullDenoiser]
  generalize approxStep p f x = A at *
  generalize hD : detailStep p f nullDenoiser s x = D at *
  refine ⟨?_, ?_, ?_⟩
  · intro i h j hj
    obtain rfl : j = 0 := by omega
    rw [ga i (by omega)]
    exact (lo i).1
  · intro q hq i h j hj
    obtain rfl : q = 0 := by omega
    obtain rfl : j = 0 := by omega
    rw [gd i (by omega)]
    exact (hi i).1
  · have hp : Parts p n2 1 (A.map sc.val) (VL sc D) := by
      refine ⟨sa1.1, sa1.2, fun _ => rfl, ?_⟩
      intro q hq
      obtain rfl : q = 0 := by omega
      rw [getD_VL]
      exact sd1
    have hloc : Loc (lk u η p.wtype) (lw u ω p.wtype) (trans n2 p.wtype F) delta (absK n2 p.wtype F) delta (x.map sc.val)
        (glue p (A.map sc.val) (VL sc D)) := by
      refine ⟨by rw [glue_rows, hp.1]; exact hr.symm, by rw [glue_cols p hp, if_pos hd]; exact hc.symm, ?_⟩
      intro i h j hj
      have h' : i < x.rows := h
      have hj' : j < x.cols := hj
      obtain rfl : j = 0 := by omega
      rw [sepOp_delta_right (X := x.map sc.val) h hj, sepOp_delta_right (X := (x.map sc.val).map fun c => |c|) h hj]
      have e1 : ∀ K : ℕ → ℝ, ∑ k ∈ range (2 * n2), K k * (if k < x.rows then (x.map sc.val).get k 0 else 0) =
          ∑ a ∈ range (x.map sc.val).rows, K a * (x.map sc.val).get a 0 := by
        intro K
        change _ = ∑ a ∈ range x.rows, _
        rw [hr]
        exact sum_congr rfl fun k hk => by rw [if_pos (mem_range.1 hk)]
      have e2 : ∀ K : ℕ → ℝ, ∑ k ∈ range (2 * n2), K k * |if k < x.rows then (x.map sc.val).get k 0 else 0| =
          ∑ a ∈ range ((x.map sc.val).map fun c => |c|).rows, K a * ((x.map sc.val).map fun c => |c|).get a 0 := by
        intro K
        change _ = ∑ a ∈ range x.rows, _
        rw [hr]
        refine sum_congr rfl fun k hk => ?_
        rw [mem_range] at hk
        rw [if_pos hk, get_map_abs (x.map sc.val) (by change k < x.rows; omega) hj]
      by_cases hlt : i < n2
      · rw [glue_low hp hlt (by omega), get_V sc A (by omega) (by omega), ga i hlt]
        have := (lo i).2
        rw [e1, e2] at this
        have t1 : trans n2 p.wtype F i = kern (2 * n2) (fl F) (2 * p.wtype) i := funext fun k => trans_low F hlt k
        have t2 : absK n2 p.wtype F i = kern (2 * n2) (fl (F.map fun c => |c|)) (2 * p.wtype) i := funext fun k => if_pos hlt
        rw [t1, t2]
        exact this
      · obtain ⟨i', rfl⟩ : ∃ i', i = n2 + i' := ⟨i - n2, by omega⟩
        have := (hi i').2
        rw [e1, e2] at this
        have t1 : trans n2 p.wtype F (n2 + i') = kern (2 * n2) (fl (qmf F)) (2 * p.wtype) i' := funext fun k => trans_high F i' k
        have t2 : absK n2 p.wtype F (n2 + i') = kern (2 * n2) (fl ((qmf F).map fun c => |c|)) (2 * p.wtype) i' :=
          funext fun k => by unfold absK; rw [if_neg (by omega), Nat.add_sub_cancel_left]
        rw [t1, t2]
        have gl := glue_detail hp (q := 0) (by omega) (i := i') (j := 0) (by omega) (by omega)
        simp only [rOff, cOff, hd, if_true, Bool.false_eq_true, if_false, Nat.zero_add] at gl
        rw [gl, getD_VL, get_V sc _ (by omega) (by omega), gd i' (by omega)]
        exact this
    have := pass_norm (lk_nonneg c.hu c.hη _) (lw_nonneg c.hu c.hω _) hloc (a := pa p.wtype F) (S := S) (τ := τ)
      (show Bd x.rows _ (pa p.wtype F) by rw [hr]; exact bd_K c hn) (bd_delta _) (by rw [mul_one])
      (show Bd x.rows _ S by rw [hr]; exact bd_A c hn) (bd_delta _) (by rw [mul_one]) hτ (NAp.self _)
    unfold fullStep kR kC
    rw [if_pos hd, show (x.map sc.val).rows / 2 = n2 from hdiv]
    exact this

theorem ana_level {p : Params} (hv : ValidParams p) (c : Coef sc η S p.wtype f F) {τ B : ℝ} (hτ0 : 0 ≤ τ) {x : Mat α} (hx : FinV sc x) {s : ℕ}
    (hs : s < p.steps) (hm : Fits p s x) (hτ : lw u ω p.wtype * Real.sqrt (x.rows * x.cols) ≤ τ)
    (hB : sg u η S p F * nrm (x.map sc.val) + st u η S τ p F ≤ B) (hΩ : gr u ω η S p.wtype B ≤ Ω) :
    FinV sc (approxStep p f x) ∧ (∀ q < subbandsPerWT p, FinV sc ((detailStep p f nullDenoiser s x).getD q default)) ∧
    NAp (glue p ((approxStep p f x).map sc.val) (VL sc (detailStep p f nullDenoiser s x))) (fullStep p F (x.map sc.val))
      (sa p F * nrm (x.map sc.val)) (sg u η S p F * nrm (x.map sc.val) + st u η S τ p F) := by
  have ht := c.ht
  have hn := nrm_nonneg (x.map sc.val)
  have hg := c.one_le_pg
  unfold sg st at hB
  unfold sa sg st
  rcases fits_halves hv (by omega) hs hm with ⟨hd, n2, h1, h2, h3, h4⟩ | ⟨hd, sh, sw, h1, h2, h3, h4, h5, h6, _⟩
  · simp only [if_pos hd] at hB ⊢
    exact ana_1d hd c hx h1 h2 h3 hτ (by nlinarith) hΩ
  · have hd1 : ¬p.dimension = 1 := by omega
    simp only [if_neg hd1] at hB ⊢
    have ow := (spOk_daubP c.hf c.hl h4 (by omega) c.hS).1
    have oh := (spOk_daubP c.hf c.hl h3 (by omega) c.hS).1
    obtain ⟨f1, n1⟩ := two_passes c hτ0 hx h1 h2 ow oh (bd_K c h4) (bd_A c h4) (bd_K c h3) (bd_A c h3) hτ
      (B := B) (by
        have : pg u η S p.wtype F * nrm (x.map sc.val) ≤ pg u η S p.wtype F * pg u η S p.wtype F * nrm (x.map sc.val) := by
          rw [mul_assoc]
          exact mul_le_mul_of_nonneg_left (by nlinarith) (by linarith)
        nlinarith) hΩ
    have yr : (colsP (rowsP x (daubP f (qmf f) (2 * sw))) (daubP f (qmf f) (2 * sh))).rows = 2 * sh := h1
    have yc : (colsP (rowsP x (daubP f (qmf f) (2 * sw))) (daubP f (qmf f) (2 * sh))).cols = 2 * sw := h2
    have eA : approxStep p f x = (quadP (colsP (rowsP x (daubP f (qmf f) (2 * sw))) (daubP f (qmf f) (2 * sh))) sh sw).ll := by
      unfold approxStep quadOf
      rw [if_neg hd1, h1, h2, Nat.mul_div_cancel_left _ (by omega : 0 < 2), Nat.mul_div_cancel_left _ (by omega : 0 < 2)]
    have eD : detailStep p f nullDenoiser s x = [(quadP (colsP (rowsP x (daubP f (qmf f) (2 * sw))) (daubP f (qmf f) (2 * sh))) sh sw).lh,
        (quadP (colsP (rowsP x (daubP f (qmf f) (2 * sw))) (daubP f (qmf f) (2 * sh))) sh sw).hl,
        (quadP (colsP (rowsP x (daubP f (qmf f) (2 * sw))) (daubP f (qmf f) (2 * sh))) sh sw).hh] := by
      unfold detailStep quadOf
      rw [if_neg hd1, h1, h2, Nat.mul_div_cancel_left _ (by omega : 0 < 2), Nat.mul_div_cancel_left _ (by omega : 0 < 2)]
      rfl
    rw [eA, eD]
    generalize colsP (rowsP x (daubP f (qmf f) (2 * sw))) (daubP f (qmf f) (2 * sh)) = y at *
    have fq : ∀ a b : ℕ, a ≤ sh → b ≤ sw → FinV sc (Mat.ofFn sh sw fun i j => y.get (a + i) (b + j)) := by
      intro a b ha hb i hi j hj
      have hi' : i < sh := hi
      have hj' : j < sw := hj
      rw [Mat.get_ofFn hi' hj']
      exact f1 _ (by omega) _ (by omega)
    have q1 := fq 0 0 (by omega) (by omega)
    have q2 := fq sh 0 (by omega) (by omega)
    have q3 := fq 0 sw (by omega) (by omega)
    have q4 := fq sh sw (by omega) (by omega)
    simp only [Nat.zero_add] at q1 q2 q3
    refine ⟨q1, ?_, ?_⟩
    · intro q hq
      have : q < 3 := by simpa [subbandsPerWT, hd1] using hq
      rcases (by omega : q = 0 ∨ q = 1 ∨ q = 2) with rfl | rfl | rfl
      · exact q2
      · exact q3
      · exact q4
    · have eg : glue p ((quadP y sh sw).ll.map sc.val) (VL sc [(quadP y sh sw).lh, (quadP y sh sw).hl, (quadP y sh sw).hh]) = y.map sc.val := by
        unfold glue
        rw [if_neg hd1]
        have := assemble_quadP (y.map sc.val) sh sw yr yc
        rw [← map_quadP sc y yr yc] at this
        exact this
      rw [eg]
      have ef : fullStep p F (x.map sc.val) = sepOp (trans sh p.wtype F) (trans sw p.wtype F) (x.map sc.val) := by
        unfold fullStep kR kC
        rw [if_neg hd1, show (x.map sc.val).rows = 2 * sh from h1, show (x.map sc.val).cols = 2 * sw from h2,
          Nat.mul_div_cancel_left _ (by omega : 0 < 2), Nat.mul_div_cancel_left _ (by omega : 0 < 2)]
      rw [ef]
      convert n1 using 1
      · ring
      · ring

/-! ### one synthesis step -/

theorem syn_1d {p : Params} (hd : p.dimension = 1) (c : Coef sc η S p.wtype f F) {τ B : ℝ} {x : Mat α} {ds : List (Mat α)} (hx : FinV sc x)
    (hds : FinV sc (ds.getD 0 default)) {n2 : ℕ}
    (hr : x.rows = n2) (hc : x.cols = 1) (hr' : (ds.getD 0 default).rows = n2) (hc' : (ds.getD 0 default).cols = 1) (hn : p.wtype ≤ n2)
    (hτ : lw u ω p.wtype * Real.sqrt ((2 * n2 : ℕ) * (1 : ℕ)) ≤ τ) (hB : nrm (glue p (x.map sc.val) (VL sc ds)) ≤ B) (hΩ : gr u ω η S p.wtype B ≤ Ω) :
    FinV sc (synthStep p f x ds) ∧
    NAp ((synthStep p f x ds).map sc.val) (sepOp (tr (kR p F (2 * n2))) (tr (kC p F 1)) (glue p (x.map sc.val) (VL sc ds)))
      (pa p.wtype F * nrm (glue p (x.map sc.val) (VL sc ds))) (pg u η S p.wtype F * nrm (glue p (x.map sc.val) (VL sc ds)) + τ) := by
  have ht := c.ht
  have h0 : 0 < n2 := by omega
  have k1 : subbandsPerWT p = 1 := by simp [subbandsPerWT, hd]
  have hp : Parts p n2 1 (x.map sc.val) (VL sc ds) := by
    refine ⟨hr, hc, fun _ => rfl, ?_⟩
    intro q hq
    obtain rfl : q = 0 := by omega
    rw [getD_VL]
    exact ⟨hr', hc'⟩
  have gl : ∀ i < n2, (glue p (x.map sc.val) (VL sc ds)).get i 0 = sc.val (x.get i 0) := by
    intro i h
    rw [glue_low hp h (by omega), get_V sc x (by omega) (by omega)]
  have gh : ∀ i < n2, (glue p (x.map sc.val) (VL sc ds)).get (n2 + i) 0 = sc.val ((ds.getD 0 default).get i 0) := by
    intro i h
    have gl := glue_detail hp (q := 0) (by omega) (i := i) (j := 0) h (by omega)
    simp only [rOff, cOff, hd, if_true, Bool.false_eq_true, if_false, Nat.zero_add] at gl
    rw [gl, getD_VL, get_V sc _ (by omega) (by omega)]
  have gr1 : (glue p (x.map sc.val) (VL sc ds)).rows = 2 * n2 := by rw [glue_rows, hp.1]
  have gc1 : (glue p (x.map sc.val) (VL sc ds)).cols = 1 := by rw [glue_cols p hp, if_pos hd]
  have es : ∀ i < 2 * n2, (synthStep p f x ds).get i 0 = synP (x.col 0) ((ds.getD 0 default).col 0) f.reverse (qmf f).reverse i := by
    intro i h
    unfold synthStep
    rw [if_pos hd, Mat.get_ofCol, getD_map_range' _ _ _ (by omega)]
  have er : (synthStep p f x ds).rows = 2 * n2 ∧ (synthStep p f x ds).cols = 1 := by
    unfold synthStep
    rw [if_pos hd]
    simp [hr]
    omega
  generalize synthStep p f x ds = Z at *
  generalize glue p (x.map sc.val) (VL sc ds) = W at *
  generalize ds.getD 0 default = D at *
  have hB0 := (nrm_nonneg _).trans hB
  have flist : ∀ (M : Mat α) (o : ℕ), FinV sc M → M.rows = n2 → M.cols = 1 → o ≤ n2 → (∀ i < n2, W.get (o + i) 0 = sc.val (M.get i 0)) →
      FinL sc B (M.col 0) (fun k => ((List.range n2).map fun i => W.get (o + i) 0).getD k 0) := by
    intro M o hf hr hc ho hW k
    by_cases hk : k < n2
    · have e : (M.col 0).getD k 0 = M.get k 0 := by simp [Mat.col, List.getD, hr, hk]
      beta_reduce
      rw [e, getD_map_range' _ _ _ hk, ← hW k hk]
      exact ⟨hf k (by omega) 0 (by omega), (abs_le_nrm (m := W) (by omega) (by omega)).trans hB, rfl⟩
    · have e : (M.col 0).getD k 0 = 0 := by simp [Mat.col, List.getD, hr, hk]
      have e' : ((List.range n2).map fun i => W.get (o + i) 0).getD k 0 = 0 := by simp [List.getD, hk]
      beta_reduce
      rw [e, e', sc.zero.2]
      exact ⟨sc.zero.1, by simpa using hB0, rfl⟩
  have fl1 := flist x 0 hx hr hc (by omega) (by simpa using gl)
  have fl2 := flist D n2 hds hr' hc' le_rfl gh
  simp only [Nat.zero_add] at fl1
  have key : ∀ i < 2 * n2, sc.fin (Z.get i 0) ∧ |sc.val (Z.get i 0) - ∑ a ∈ range (2 * n2), trans n2 p.wtype F a i * W.get a 0| ≤
      lk u η p.wtype * ∑ a ∈ range (2 * n2), absK n2 p.wtype F a i * |W.get a 0| + lw u ω p.wtype := by
    intro i h
    have := loc_syn (S := S) c.hu c.hω c.hη c.ht hn fl1 fl2 c.hf c.hl c.hS hΩ (by simp [hr]) (by simp) (by simp) h
    rw [es i h]
    refine ⟨this.1, ?_⟩
    have this := this.2
    rw [sum_halves, sum_halves]
    rw [sum_congr rfl fun a ha => show trans n2 p.wtype F a i * W.get a 0 =
        kern (2 * n2) (fl F) (2 * p.wtype) a i * ((List.range n2).map fun i => W.get i 0).getD a 0 by
        rw [trans_low _ (mem_range.1 ha), getD_map_range' _ _ _ (mem_range.1 ha)],
      sum_congr rfl fun a ha => show trans n2 p.wtype F (n2 + a) i * W.get (n2 + a) 0 =
        kern (2 * n2) (fl (qmf F)) (2 * p.wtype) a i * ((List.range n2).map fun i => W.get (n2 + i) 0).getD a 0 by
        rw [trans_high, getD_map_range' _ _ _ (mem_range.1 ha)],
      sum_congr rfl fun a ha => show absK n2 p.wtype F a i * |W.get a 0| =
        kern (2 * n2) (fl (F.map fun c => |c|)) (2 * p.wtype) a i * |((List.range n2).map fun i => W.get i 0).getD a 0| by
        unfold absK; rw [if_pos (mem_range.1 ha), getD_map_range' _ _ _ (mem_range.1 ha)],
      sum_congr rfl fun a ha => show absK n2 p.wtype F (n2 + a) i * |W.get (n2 + a) 0| =
        kern (2 * n2) (fl ((qmf F).map fun c => |c|)) (2 * p.wtype) a i * |((List.range n2).map fun i => W.get (n2 + i) 0).getD a 0| by
        unfold absK; rw [if_neg (by omega), Nat.add_sub_cancel_left, getD_map_range' _ _ _ (mem_range.1 ha)]]
    exact this
  refine ⟨?_, ?_⟩
  · intro i h j hj
    obtain rfl : j = 0 := by omega
    exact (key i (by omega)).1
  · have hloc : Loc (lk u η p.wtype) (lw u ω p.wtype) (tr (trans n2 p.wtype F)) delta (tr (absK n2 p.wtype F)) delta W (Z.map sc.val) := by
      refine ⟨er.1.trans gr1.symm, er.2.trans gc1.symm, ?_⟩
      intro i h j hj
      obtain rfl : j = 0 := by omega
      rw [sepOp_delta_right h hj, sepOp_delta_right (X := W.map fun c => |c|) h hj, get_V sc Z (by omega) (by omega)]
      have := (key i (by omega)).2
      change |sc.val (Z.get i 0) - ∑ a ∈ range W.rows, trans n2 p.wtype F a i * W.get a 0| ≤
        lk u η p.wtype * ∑ a ∈ range W.rows, absK n2 p.wtype F a i * (W.map fun c => |c|).get a 0 + lw u ω p.wtype
      rw [gr1, sum_congr rfl fun a ha => show absK n2 p.wtype F a i * (W.map fun c => |c|).get a 0 = absK n2 p.wtype F a i * |W.get a 0| by
        rw [get_map_abs W (by have := mem_range.1 ha; omega) hj]]
      exact this
    have := pass_norm (lk_nonneg c.hu c.hη _) (lw_nonneg c.hu c.hω _) hloc (a := pa p.wtype F) (S := S) (τ := τ)
      (by rw [gr1]; exact bd_tr (bd_K c hn)) (bd_delta _) (by rw [mul_one])
      (by rw [gr1]; exact bd_tr (bd_A c hn)) (bd_delta _) (by rw [mul_one]) (by rw [gr1, gc1]; exact hτ) (NAp.self _)
    unfold kR kC
    have hdel : (tr (delta : ℕ → ℕ → ℝ)) = delta := by funext a b; unfold tr delta; simp [eq_comm]
    rw [if_pos hd, hdel, Nat.mul_div_cancel_left _ (by omega : 0 < 2)]
    exact this

theorem syn_level {p : Params} (hv : ValidParams p) (c : Coef sc η S p.wtype f F) {τ B : ℝ} (hτ0 : 0 ≤ τ) {s : ℕ} (hs : s < p.steps)
    {x : Mat α} {ds : List (Mat α)} (hx : FinV sc x) (hm : Fits p (s + 1) x) (hds : ∀ q < subbandsPerWT p, FinV sc (ds.getD q default))
    (hf : ∀ q < subbandsPerWT p, Fits p (s + 1) (ds.getD q default)) {W : Mat ℝ} (hW : W = glue p (x.map sc.val) (VL sc ds))
    (hτ : lw u ω p.wtype * Real.sqrt (W.rows * W.cols) ≤ τ) (hB : sg u η S p F * nrm W + st u η S τ p F ≤ B) (hΩ : gr u ω η S p.wtype B ≤ Ω) :
    FinV sc (synthStep p f x ds) ∧
    NAp ((synthStep p f x ds).map sc.val) (sepOp (tr (kR p F W.rows)) (tr (kC p F W.cols)) W)
      (sa p F * nrm W) (sg u η S p F * nrm W + st u η S τ p F) := by
  have ht := c.ht
  have hn := nrm_nonneg W
  have hg := c.one_le_pg
  have hp : Parts p (lvlR p (s + 1)) (lvlC p (s + 1)) (x.map sc.val) (VL sc ds) := by
    refine parts_of_fits hm ?_
    intro q hq
    rw [getD_VL]
    exact hf q hq
  unfold sg st at hB
  unfold sa sg st
  rcases fits_up hv hs hm with ⟨hd, h1, h2, h3⟩ | ⟨hd, h1, h2, h3, h4, h5⟩
  · simp only [if_pos hd] at hB ⊢
    have hq0 : 0 < subbandsPerWT p := by simp [subbandsPerWT, hd]
    have gr1 : W.rows = 2 * x.rows := by rw [hW, glue_rows]; rfl
    have gc1 : W.cols = 1 := by rw [hW, glue_cols p hp, if_pos hd]; exact hp.2.2.1 hd
    rw [gr1, gc1] at hτ ⊢
    subst hW
    have f0 := hf 0 hq0
    exact syn_1d hd c hx (hds 0 hq0) rfl h2 (by rw [f0.1, hm.1]) (by rw [f0.2, if_pos hd]) h1 hτ (by nlinarith) hΩ
  · have hd1 : ¬p.dimension = 1 := by omega
    simp only [if_neg hd1] at hB ⊢
    have k3 : subbandsPerWT p = 3 := by simp [subbandsPerWT, hd1]
    have sz : ∀ q < 3, (ds.getD q default).rows = x.rows ∧ (ds.getD q default).cols = x.cols := by
      intro q hq
      have := hf q (by omega)
      exact ⟨by rw [this.1, hm.1], by rw [this.2, hm.2]⟩
    have ow := (spOk_daubP c.hf c.hl h2 (by omega) c.hS).2
    have oh := (spOk_daubP c.hf c.hl h1 (by omega) c.hS).2
    set y := assemble ⟨x, ds.getD 0 default, ds.getD 1 default, ds.getD 2 default⟩ x.rows x.cols with hy
    have yW : y.map sc.val = W := by
      rw [hW, hy, map_assemble sc ⟨rfl, rfl⟩ (sz 0 (by omega)) (sz 1 (by omega)) (sz 2 (by omega))]
      unfold glue
      rw [if_neg hd1, getD_VL, getD_VL, getD_VL]
      rfl
    have fy : FinV sc y := fin_assemble ⟨rfl, rfl⟩ (sz 0 (by omega)) (sz 1 (by omega)) (sz 2 (by omega)) hx (hds 0 (by omega)) (hds 1 (by omega))
      (hds 2 (by omega))
    have e1 : W.rows = y.rows := by rw [← yW]; rfl
    have e2 : W.cols = y.cols := by rw [← yW]; rfl
    obtain ⟨f1, n1⟩ := two_passes c hτ0 fy (sh := x.rows) (sw := x.cols) rfl rfl ow oh (bd_tr (bd_K c h2)) (bd_tr (bd_A c h2)) (bd_tr (bd_K c h1))
      (bd_tr (bd_A c h1)) (τ := τ) (by rw [← e1, ← e2]; exact hτ)
      (B := B) (by
        rw [yW]
        have : pg u η S p.wtype F * nrm W ≤ pg u η S p.wtype F * pg u η S p.wtype F * nrm W := by
          rw [mul_assoc]
          exact mul_le_mul_of_nonneg_left (by nlinarith) (by linarith)
        nlinarith) hΩ
    have es : synthStep p f x ds = colsP (rowsP y (daubP f (qmf f) (2 * x.cols)).transpose) (daubP f (qmf f) (2 * x.rows)).transpose := by
      unfold synthStep
      rw [if_neg hd1]
    rw [es]
    refine ⟨f1, ?_⟩
    rw [yW] at n1
    have ek : sepOp (tr (kR p F W.rows)) (tr (kC p F W.cols)) W = sepOp (tr (trans x.rows p.wtype F)) (tr (trans x.cols p.wtype F)) W := by
      unfold kR kC
      rw [if_neg hd1, e1, e2, show y.rows = 2 * x.rows from rfl, show y.cols = 2 * x.cols from rfl,
        Nat.mul_div_cancel_left _ (by omega : 0 < 2), Nat.mul_div_cancel_left _ (by omega : 0 < 2)]
    rw [ek]
    convert n1 using 1
    · ring
    · ring

end Values

end WB
