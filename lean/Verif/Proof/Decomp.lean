import Verif.Proof.Steps
import Verif.Proof.Dwt2

/-!
For valid parameters the channel computation returns normally; explicit values and sizes, for any scalar type.
-/

set_option linter.unusedSectionVars false

namespace WB

open Spec

variable {α : Type}

/-- Scaling filter as used by the transforms. -/
def scaling (k : Kit α) (p : Params) : List α := (k.dbwavf p.wtype).map k.mulSqrt2

/-- The filter table has `2 order` coefficients for the wavelet in use. -/
def FilterLen (k : Kit α) (p : Params) : Prop := p.wtype ≠ 0 → (k.dbwavf p.wtype).length = 2 * p.wtype

/-- A denoiser that keeps sizes. -/
def Denoiser.Sized (den : Denoiser α) : Prop :=
  (∀ v s, (den.d1 v s).length = v.length) ∧ ∀ m s, (den.d2 m s).rows = m.rows ∧ (den.d2 m s).cols = m.cols

theorem filters1D_eq [Neg α] {k : Kit α} {p : Params} (h : p.wtype ≠ 0) :
    filters1D k p = ⟨(scaling k p).reverse, (qmf (scaling k p)).reverse, scaling k p, qmf (scaling k p)⟩ := by
  simp [filters1D, orthfilt, scaling, h]

/-! ### sizes -/

theorem shape_cases {p : Params} (hv : ValidParams p) :
    (∃ n, p.shape = [n] ∧ p.dimension = 1) ∨ (∃ w h, p.shape = [w, h] ∧ p.dimension = 2) := by
  obtain ⟨hd, _⟩ := hv
  unfold Params.dimension
  match hs : p.shape with
  | [] => simp [hs] at hd
  | [n] => exact .inl ⟨n, rfl, rfl⟩
  | [w, h] => exact .inr ⟨w, h, rfl, rfl⟩
  | _ :: _ :: _ :: _ => simp [hs] at hd

theorem paddedShape_of_wavelet {p : Params} (h : p.wtype ≠ 0) : paddedShape p = p.shape.map (paddedDim p.steps) := by
  simp [paddedShape, h]

theorem valid_side {p : Params} (hv : ValidParams p) (h : p.wtype ≠ 0) {n : ℕ} (hn : n ∈ p.shape) :
    2 * p.wtype ≤ n ∧ 2 ^ p.steps * (2 * p.wtype - 1) ≤ n := by
  obtain ⟨_, h1, h2⟩ := hv
  rw [if_neg h] at h2
  exact ⟨h1 n hn, h2 n hn⟩

/-- Sizes at every step of a padded side. -/
theorem padded_halves {p : Params} (hv : ValidParams p) (h : p.wtype ≠ 0) {n : ℕ} (hn : n ∈ p.shape) {s : ℕ}
    (hs : s < p.steps) :
    ∃ n2, paddedDim p.steps n / 2 ^ s = 2 * n2 ∧ paddedDim p.steps n / 2 ^ (s + 1) = n2 ∧ p.wtype ≤ n2 := by
  obtain ⟨h1, h2⟩ := valid_side hv h hn
  obtain ⟨hd, hle, _⟩ := paddedDim_spec p.steps n (by omega)
  obtain ⟨q, hq⟩ := hd
  have hqge : 2 * p.wtype - 1 ≤ q := by
    by_contra hc
    have h3 : q + 1 ≤ 2 * p.wtype - 1 := by omega
    have h4 := Nat.mul_le_mul_left (2 ^ p.steps) h3
    have h5 : 0 < 2 ^ p.steps := by positivity
    rw [Nat.mul_add] at h4
    omega
  have hpow : 2 ^ p.steps = 2 ^ s * (2 * 2 ^ (p.steps - s - 1)) := by
    rw [← pow_succ', ← pow_add]; congr 1; omega
  have hpow' : 2 ^ p.steps = 2 ^ (s + 1) * 2 ^ (p.steps - s - 1) := by
    rw [← pow_add]; congr 1; omega
  refine ⟨2 ^ (p.steps - s - 1) * q, ?_, ?_, ?_⟩
  · rw [hq, hpow, Nat.mul_assoc, Nat.mul_div_cancel_left _ (by positivity), Nat.mul_assoc]
  · rw [hq, hpow', Nat.mul_assoc, Nat.mul_div_cancel_left _ (by positivity)]
  · have h6 : 1 ≤ 2 ^ (p.steps - s - 1) := Nat.one_le_two_pow
    have h7 := Nat.mul_le_mul_right q h6
    omega

/-- Size of a matrix that has gone through `s` steps. -/
def Fits (p : Params) (s : ℕ) (m : Mat α) : Prop :=
  m.rows = matRows (paddedShape p) / 2 ^ s ∧
  m.cols = if p.dimension = 1 then 1 else matCols (paddedShape p) / 2 ^ s

section Poly
variable [Zero α] [Add α] [Mul α] [Neg α] [Inhabited α]

/-- The four quadrants of a 2D step. -/
def quadOf (h : List α) (m : Mat α) : Quad α :=
  quadP (colsP (rowsP m (daubP h (qmf h) m.cols)) (daubP h (qmf h) m.rows)) (m.rows / 2) (m.cols / 2)

/-- Approximation after one step. -/
def approxStep (p : Params) (h : List α) (m : Mat α) : Mat α :=
  if p.dimension = 1 then Mat.ofCol ((List.range (m.rows / 2)).map (anaP (m.col 0) h)) else (quadOf h m).ll

/-- Details of one step, after denoising. -/
def detailStep (p : Params) (h : List α) (den : Denoiser α) (step : ℕ) (m : Mat α) : List (Mat α) :=
  if p.dimension = 1 then [Mat.ofCol (den.d1 ((List.range (m.rows / 2)).map (anaP (m.col 0) (qmf h))) step)]
  else [den.d2 (quadOf h m).lh step, den.d2 (quadOf h m).hl step, den.d2 (quadOf h m).hh step]

/-- Approximation after `s` steps. -/
def sig (p : Params) (h : List α) (m : Mat α) : ℕ → Mat α
  | 0 => m
  | s + 1 => approxStep p h (sig p h m s)

/-- The padded channel. -/
def padOf (p : Params) (m : Mat α) : Mat α :=
  if p.wtype = 0 then m
  else Mat.ofFn (matRows (paddedShape p)) (matCols (paddedShape p)) (fun i j =>
    m.get (clampIdx (padOffset .both (matRows (paddedShape p)) m.rows) m.rows i)
      (clampIdx (padOffset .both (matCols (paddedShape p)) m.cols) m.cols j))

/-- All subbands of a channel. -/
def chanP (p : Params) (h : List α) (den : Denoiser α) (m : Mat α) : Channel α :=
  (List.range p.steps).flatMap (fun s => detailStep p h den s (sig p h (padOf p m) s)) ++ [sig p h (padOf p m) p.steps]

/-- The transform matrices of all steps. -/
def stackP (p : Params) (h : List α) : Stack α :=
  (List.range p.steps).map (fun s => (paddedShape p).map (fun n => daubP h (qmf h) (n / 2 ^ s)))

theorem freshStack_ok {k : Kit α} {p : Params} (hv : ValidParams p) (hf : FilterLen k p) :
    freshStack k p = .ok (stackP p (scaling k p)) := by
  unfold freshStack buildStack stackP
  apply Outcome.mapM_ok
  intro s hs
  rw [List.mem_range] at hs
  have ht : p.wtype ≠ 0 := by
    intro h0; have := hv.2.2; rw [if_pos h0] at this; omega
  apply Outcome.mapM_ok
  intro n hn
  rw [paddedShape_of_wavelet ht, List.mem_map] at hn
  obtain ⟨n0, hn0, rfl⟩ := hn
  obtain ⟨n2, h1, _, h3⟩ := padded_halves hv ht hn0 hs
  rw [h1]
  exact daubechiesMat_ok k (by simp [hf ht]; omega)

theorem length_scaling {k : Kit α} {p : Params} (hf : FilterLen k p) (ht : p.wtype ≠ 0) :
    (scaling k p).length = 2 * p.wtype := by simp [scaling, hf ht]

theorem fits_halves {p : Params} (hv : ValidParams p) (ht : p.wtype ≠ 0) {s : ℕ} (hs : s < p.steps) {m : Mat α}
    (hm : Fits p s m) :
    (p.dimension = 1 ∧ ∃ n2, m.rows = 2 * n2 ∧ m.cols = 1 ∧ p.wtype ≤ n2 ∧ matRows (paddedShape p) / 2 ^ (s + 1) = n2) ∨
    (p.dimension = 2 ∧ ∃ sh sw, m.rows = 2 * sh ∧ m.cols = 2 * sw ∧ p.wtype ≤ sh ∧ p.wtype ≤ sw ∧
      matRows (paddedShape p) / 2 ^ (s + 1) = sh ∧ matCols (paddedShape p) / 2 ^ (s + 1) = sw ∧
      (paddedShape p).map (fun n => n / 2 ^ s) = [2 * sw, 2 * sh]) := by
  obtain ⟨hr, hc⟩ := hm
  rcases shape_cases hv with ⟨n, hsh, hd⟩ | ⟨w, hh, hsh, hd⟩
  · left
    refine ⟨hd, ?_⟩
    rw [paddedShape_of_wavelet ht, hsh] at hr ⊢
    simp only [List.map_cons, List.map_nil, matRows] at hr ⊢
    obtain ⟨n2, h1, h2, h3⟩ := padded_halves hv ht (n := n) (by simp [hsh]) hs
    rw [if_pos hd] at hc
    exact ⟨n2, by omega, hc, h3, h2⟩
  · right
    refine ⟨hd, ?_⟩
    rw [paddedShape_of_wavelet ht, hsh] at hr hc ⊢
    simp only [List.map_cons, List.map_nil, matRows, matCols] at hr hc ⊢
    rw [if_neg (by omega)] at hc
    obtain ⟨a, h1, h2, h3⟩ := padded_halves hv ht (n := w) (by simp [hsh]) hs
    obtain ⟨b, h4, h5, h6⟩ := padded_halves hv ht (n := hh) (by simp [hsh]) hs
    exact ⟨b, a, by omega, by omega, h6, h3, h5, h2, by rw [h1, h4]⟩

theorem daubP_facts {k : Kit α} {p : Params} (hf : FilterLen k p) (ht : p.wtype ≠ 0) {n2 : ℕ} (h : p.wtype ≤ n2) :
    (daubP (scaling k p) (qmf (scaling k p)) (2 * n2)).Good ∧
    (daubP (scaling k p) (qmf (scaling k p)) (2 * n2)).rows = 2 * n2 ∧
    (daubP (scaling k p) (qmf (scaling k p)) (2 * n2)).cols = 2 * n2 :=
  ⟨daubP_good (by rw [length_scaling hf ht]; omega) (by rw [length_qmf, length_scaling hf ht]; omega),
   daubP_rows _ _ _, rfl⟩

theorem fits_approx {k : Kit α} {p : Params} (hv : ValidParams p) (ht : p.wtype ≠ 0) {s : ℕ} (hs : s < p.steps)
    {m : Mat α} (hm : Fits p s m) : Fits p (s + 1) (approxStep p (scaling k p) m) := by
  rcases fits_halves hv ht hs hm with ⟨hd, n2, h1, h2, h3, h4⟩ | ⟨hd, sh, sw, h1, h2, h3, h4, h5, h6, _⟩
  · unfold approxStep Fits
    rw [if_pos hd, if_pos hd]
    simp [h4]; omega
  · unfold approxStep Fits
    rw [if_neg (by omega), if_neg (by omega)]
    simp only [quadOf, quadP, Mat.rows_ofFn, Mat.cols_ofFn]
    omega

theorem dwt2_quadOf {k : Kit α} {p : Params} (hf : FilterLen k p) (ht : p.wtype ≠ 0) {sh sw : ℕ} {m : Mat α}
    (hr : m.rows = 2 * sh) (hc : m.cols = 2 * sw) (h1 : p.wtype ≤ sh) (h2 : p.wtype ≤ sw) :
    dwt2 m (daubP (scaling k p) (qmf (scaling k p)) (2 * sw)) (daubP (scaling k p) (qmf (scaling k p)) (2 * sh)) =
      .ok (quadOf (scaling k p) m) := by
  obtain ⟨g1, r1, c1⟩ := daubP_facts hf ht h2
  obtain ⟨g2, r2, c2⟩ := daubP_facts hf ht h1
  rw [dwt2_ok g1 g2 c1 r1 c2 r2 hr hc]
  unfold quadOf
  rw [hr, hc, Nat.mul_div_cancel_left _ (by omega), Nat.mul_div_cancel_left _ (by omega)]

theorem stepO_ok {k : Kit α} {p : Params} (hv : ValidParams p) (hf : FilterLen k p) (ht : p.wtype ≠ 0)
    {den : Denoiser α} (hden : den.Sized) {s : ℕ} (hs : s < p.steps) {m : Mat α} (hm : Fits p s m) :
    stepO p (stackP p (scaling k p)) (filters1D k p) den s m =
      .ok (detailStep p (scaling k p) den s m, approxStep p (scaling k p) m) := by
  rcases fits_halves hv ht hs hm with ⟨hd, n2, h1, h2, h3, h4⟩ | ⟨hd, sh, sw, h1, h2, h3, h4, h5, h6, h7⟩
  · unfold stepO detailStep approxStep
    rw [if_pos hd, if_pos hd, if_pos hd, filters1D_eq ht]
    simp only [List.reverse_reverse]
    unfold column0
    rw [if_neg (by omega), Outcome.bind_ok,
      dwt_ok (by simp [length_scaling hf ht, h1]; omega) (by simp [length_scaling hf ht, h1]; omega), Outcome.bind_ok]
    rw [if_neg (by rw [hden.1]; simp)]
    simp
  · unfold stepO detailStep approxStep
    rw [if_neg (by omega), if_neg (by omega), if_neg (by omega)]
    have hst : rd (stackP p (scaling k p)) s =
        .ok [daubP (scaling k p) (qmf (scaling k p)) (2 * sw), daubP (scaling k p) (qmf (scaling k p)) (2 * sh)] := by
      unfold stackP
      rw [rd_ok (by simpa using hs)]
      congr 1
      simp only [List.getElem_map, List.getElem_range]
      have : (paddedShape p).map (fun n => daubP (scaling k p) (qmf (scaling k p)) (n / 2 ^ s)) =
          ((paddedShape p).map (fun n => n / 2 ^ s)).map (fun n => daubP (scaling k p) (qmf (scaling k p)) n) := by
        rw [List.map_map]; rfl
      rw [this, h7]; rfl
    rw [hst, Outcome.bind_ok]
    simp only [rd, List.getElem?_cons_zero, List.getElem?_cons_succ, Outcome.bind_ok]
    rw [dwt2_quadOf hf ht h1 h2 h3 h4, Outcome.bind_ok]
    rfl

theorem fits_sig {k : Kit α} {p : Params} (hv : ValidParams p) {m : Mat α} (hm : Fits p 0 m) {s : ℕ}
    (hs : s ≤ p.steps) : Fits p s (sig p (scaling k p) m s) := by
  induction s with
  | zero => exact hm
  | succ s ih =>
    have ht : p.wtype ≠ 0 := by
      intro h0; have := hv.2.2; rw [if_pos h0] at this; omega
    exact fits_approx hv ht (by omega) (ih (by omega))

theorem stepsO_ok {k : Kit α} {p : Params} (hv : ValidParams p) (hf : FilterLen k p) {den : Denoiser α}
    (hden : 0 < p.steps → den.Sized) {m : Mat α} (hm : Fits p 0 m) (rem : ℕ) (hrem : rem ≤ p.steps) :
    stepsO p (stackP p (scaling k p)) (filters1D k p) den rem (sig p (scaling k p) m (p.steps - rem)) =
      .ok ((List.range' (p.steps - rem) rem).flatMap (fun s =>
        detailStep p (scaling k p) den s (sig p (scaling k p) m s)), sig p (scaling k p) m p.steps) := by
  induction rem with
  | zero => simp [stepsO]
  | succ rem ih =>
    have ht : p.wtype ≠ 0 := by
      intro h0; have := hv.2.2; rw [if_pos h0] at this; omega
    simp only [stepsO]
    rw [stepO_ok hv hf ht (hden (by omega)) (by omega) (fits_sig hv hm (by omega)), Outcome.bind_ok]
    have : p.steps - rem = (p.steps - (rem + 1)) + 1 := by omega
    have hs : sig p (scaling k p) m (p.steps - rem) = approxStep p (scaling k p) (sig p (scaling k p) m (p.steps - (rem + 1))) := by
      rw [this]; rfl
    simp only
    rw [← hs, ih (by omega), Outcome.bind_ok, List.range'_succ, List.flatMap_cons, this]
    rfl

/-- A channel of the declared shape. -/
def Shaped (p : Params) (m : Mat α) : Prop := m.rows = matRows p.shape ∧ m.cols = matCols p.shape

theorem padded_ge {p : Params} (hv : ValidParams p) (ht : p.wtype ≠ 0) :
    0 < matRows p.shape ∧ 0 < matCols p.shape ∧ matRows p.shape ≤ matRows (paddedShape p) ∧
      matCols p.shape ≤ matCols (paddedShape p) := by
  rw [paddedShape_of_wavelet ht]
  rcases shape_cases hv with ⟨n, hsh, hd⟩ | ⟨w, hh, hsh, hd⟩
  · rw [hsh]
    have h1 := (valid_side hv ht (n := n) (by simp [hsh])).1
    have h2 := paddedDim_spec p.steps n (by omega)
    simp [matRows, matCols]; omega
  · rw [hsh]
    have h1 := (valid_side hv ht (n := w) (by simp [hsh])).1
    have h2 := paddedDim_spec p.steps w (by omega)
    have h3 := (valid_side hv ht (n := hh) (by simp [hsh])).1
    have h4 := paddedDim_spec p.steps hh (by omega)
    simp [matRows, matCols]; omega

theorem extend_self {m : Mat α} (rows cols : ℕ) (loc : PadLoc) (hr : m.rows = rows) (hc : m.cols = cols) :
    extend rows cols loc m = .ok m := by
  by_cases h0 : rows * cols = 0
  · unfold extend; rw [if_pos h0]
  · have hr0 : 0 < rows := by by_contra h; apply h0; rw [Nat.eq_zero_of_not_pos h]; simp
    have hc0 : 0 < cols := by by_contra h; apply h0; rw [Nat.eq_zero_of_not_pos h]; simp
    subst hr; subst hc
    rw [extend_ok _ _ _ _ le_rfl le_rfl hr0 hc0]
    congr 1
    conv_rhs => rw [← Mat.ofFn_get m]
    apply Mat.ofFn_congr
    intro i hi j hj
    have : ∀ n, padOffset loc n n = 0 := by intro n; cases loc <;> simp [padOffset]
    rw [this, this]
    unfold clampIdx
    congr 1 <;> omega

theorem addPadding_ok {p : Params} (hv : ValidParams p) {m : Mat α} (hm : Shaped p m) :
    addPadding m (paddedShape p) = .ok (padOf p m) := by
  unfold addPadding padOf
  by_cases ht : p.wtype = 0
  · rw [if_pos ht]
    have : paddedShape p = p.shape := by simp [paddedShape, ht]
    rw [this]
    exact extend_self _ _ _ hm.1 hm.2
  · rw [if_neg ht]
    obtain ⟨h1, h2, h3, h4⟩ := padded_ge hv ht
    obtain ⟨hr, hc⟩ := hm
    exact extend_ok _ _ _ _ (by omega) (by omega) (by omega) (by omega)

theorem fits_padOf {p : Params} (hv : ValidParams p) {m : Mat α} (hm : Shaped p m) : Fits p 0 (padOf p m) := by
  unfold Fits padOf
  by_cases ht : p.wtype = 0
  · rw [if_pos ht]
    have : paddedShape p = p.shape := by simp [paddedShape, ht]
    rw [this]
    obtain ⟨hr, hc⟩ := hm
    rcases shape_cases hv with ⟨n, hsh, hd⟩ | ⟨w, hh, hsh, hd⟩
    · rw [hsh] at hr hc ⊢; simp [hr, hc, hd, matCols]
    · rw [hsh] at hr hc ⊢; simp [hr, hc, hd]
  · rw [if_neg ht]
    rcases shape_cases hv with ⟨n, hsh, hd⟩ | ⟨w, hh, hsh, hd⟩
    · rw [paddedShape_of_wavelet ht, hsh]; simp [hd, matCols]
    · rw [paddedShape_of_wavelet ht, hsh]; simp [hd]

theorem chanO_ok {k : Kit α} {p : Params} (hv : ValidParams p) (hf : FilterLen k p) {den : Denoiser α}
    (hden : 0 < p.steps → den.Sized) {m : Mat α} (hm : Shaped p m) :
    chanO p (stackP p (scaling k p)) (filters1D k p) den m = .ok (chanP p (scaling k p) den m) := by
  unfold chanO
  rw [addPadding_ok hv hm, Outcome.bind_ok]
  have := stepsO_ok hv hf hden (fits_padOf hv hm) p.steps le_rfl
  rw [Nat.sub_self] at this
  have h0 : sig p (scaling k p) (padOf p m) 0 = padOf p m := rfl
  rw [h0] at this
  rw [this, Outcome.bind_ok, List.range_eq_range'.symm]
  rfl

/-- In 1D the matrices are not used. -/
theorem stepsO_stack {p : Params} (hd : p.dimension = 1) (s1 s2 : Stack α) (f : Filters α) (den : Denoiser α)
    (rem : ℕ) (m : Mat α) : stepsO p s1 f den rem m = stepsO p s2 f den rem m := by
  induction rem generalizing m with
  | zero => rfl
  | succ rem ih =>
    simp only [stepsO, stepO, hd, if_true]
    congr 1
    funext r
    rw [ih]

theorem chanO_stack {p : Params} (hd : p.dimension = 1) (s1 s2 : Stack α) (f : Filters α) (den : Denoiser α)
    (m : Mat α) : chanO p s1 f den m = chanO p s2 f den m := by
  unfold chanO
  congr 1
  funext r
  rw [stepsO_stack hd s1 s2]

/-- The stack the decomposition gets. -/
theorem getStack_eq {k : Kit α} {p : Params} (hv : ValidParams p) (hf : FilterLen k p) (den : Denoiser α) :
    ∃ stack, (if p.dimension = 2 then freshStack k p else pure []) = .ok stack ∧
      ∀ m, chanO p stack (filters1D k p) den m = chanO p (stackP p (scaling k p)) (filters1D k p) den m := by
  rcases shape_cases hv with ⟨n, hsh, hd⟩ | ⟨w, hh, hsh, hd⟩
  · exact ⟨[], by rw [if_neg (by omega)]; rfl, fun m => chanO_stack hd _ _ _ _ m⟩
  · exact ⟨_, by rw [if_pos hd, freshStack_ok hv hf], fun m => rfl⟩

/-- The first channel passes the shape check. -/
theorem shapeCheck_ok {p : Params} (hv : ValidParams p) {data : List (Mat α)} (hlen : 0 < data.length)
    (hs : ∀ m ∈ data, Shaped p m) : shapeCheck p data data.length = .ok true := by
  have h0 : Shaped p data[0] := hs _ (List.getElem_mem hlen)
  unfold shapeCheck
  rcases shape_cases hv with ⟨n, hsh, hd⟩ | ⟨w, hh, hsh, hd⟩
  · rw [if_neg (by omega), if_pos hd, rd_ok hlen, Outcome.bind_ok]
    have := h0.1
    rw [hsh] at this ⊢
    simp only [matRows] at this
    simp [this]
  · rw [if_pos hd, if_neg (by simp), rd_ok hlen, Outcome.bind_ok]
    obtain ⟨h1, h2⟩ := h0
    rw [hsh] at h1 h2 ⊢
    simp only [matRows, matCols] at h1 h2
    simp [h1, h2]

/-- Decomposition of well shaped data into the channels `start, start+1, ...`. -/
theorem decomposeImpl_ok {k : Kit α} {p : Params} (hv : ValidParams p) (hf : FilterLen k p) {den : Denoiser α}
    (hden : 0 < p.steps → den.Sized) {d : Decs α} (hl : ChanLayout p d) {data : List (Mat α)} (hlen : 0 < data.length)
    (hs : ∀ m ∈ data, Shaped p m) (start : ℕ) (hfit : start + data.length ≤ d.length) :
    decomposeImpl k (freshStack k p) p d data den start data.length =
      .ok (splice d start (data.map (chanP p (scaling k p) den))) true := by
  unfold decomposeImpl
  rw [shapeCheck_ok hv hlen hs, Run.lift_ok, Run.bind_ok, if_pos rfl]
  obtain ⟨stack, h1, h2⟩ := getStack_eq hv hf den
  rw [h1, Run.lift_ok, Run.bind_ok]
  have hloop : loopChannels (start : ℤ) (data.length : ℤ) = List.range' start data.length := by
    unfold loopChannels; rw [if_neg (by omega)]; simp
  rw [hloop, Int.toNat_natCast]
  have href := channels_refines p stack (filters1D k p) den data start 0 data.length d hl hfit
  have hm : (List.range' 0 data.length).mapM (fun j => rd data j >>= chanO p stack (filters1D k p) den) =
      .ok ((List.range' 0 data.length).map (fun j => chanP p (scaling k p) den (data.getD j default))) := by
    apply Outcome.mapM_ok
    intro j hj
    rw [← List.range_eq_range', List.mem_range] at hj
    rw [rd_ok hj, Outcome.bind_ok, h2, chanO_ok hv hf hden (hs _ (List.getElem_mem hj))]
    simp [List.getD, hj]
  have hmap : (List.range' 0 data.length).map (fun j => chanP p (scaling k p) den (data.getD j default)) =
      data.map (chanP p (scaling k p) den) := by
    apply List.ext_getElem
    · simp
    · intro i h1 h2
      simp only [List.getElem_map, List.getElem_range', Nat.zero_add, Nat.one_mul]
      have : i < data.length := by simpa using h2
      simp [List.getD, this]
  rw [hm, hmap] at href
  exact href.2.2

end Poly

end WB
