import Verif.Proof.WrongSizes
import Verif.Spec.FirstTrouble

/-!
How a composition of subbands of arbitrary sizes ends.
-/

set_option linter.unusedSectionVars false

namespace WB

open Spec

variable {α : Type}

theorem rowsOf_some {c : List (Mat α)} {j : ℕ} {m : Mat α} (h : c[j]? = some m) : rowsOf c j = m.rows := by simp [rowsOf, h]

theorem colsOf_some {c : List (Mat α)} {j : ℕ} {m : Mat α} (h : c[j]? = some m) : colsOf c j = m.cols := by simp [colsOf, h]

/-- What the steps down to `i` have produced. -/
def LowAt (p : Params) (c : List (Mat α)) (i : ℕ) (m : Mat α) : Prop :=
  if i = p.steps then c[p.steps * subbandsPerWT p]? = some m
  else if p.dimension = 1 then m.rows = rowsOf c p.steps * 2 ^ (p.steps - i) ∧ m.cols = 1
  else Fits p i m

theorem le_paddedSide (p : Params) (n : ℕ) : n ≤ paddedSide p n := by
  unfold paddedSide
  split
  · exact le_rfl
  · have := Nat.div_add_mod (n + 2 ^ p.steps - 1) (2 ^ p.steps)
    have h2 := Nat.mod_lt (n + 2 ^ p.steps - 1) (Nat.two_pow_pos p.steps)
    rw [mul_comm] at this
    omega

section Poly
variable [Zero α] [Add α] [Mul α] [Neg α] [Inhabited α]

/-! ### one dimension -/

/-- What is to be undone is shorter than the filter allows. -/
theorem idwt_tiny {low high lo hi : List α} {t : ℕ} (hl : lo.length = 2 * t) (h0 : 0 < low.length) (hs : low.length + 1 < t) :
    idwt low high lo hi = .ub := by
  unfold idwt
  apply Outcome.mapM_ub (fun a _ => idwtAt_ne_throw _ _ _ _ a)
  refine ⟨0, by simp; omega, ?_⟩
  unfold idwtAt
  obtain ⟨q, hq⟩ : ∃ q, (lo.length + 1) / 2 = q + 1 := ⟨(lo.length + 1) / 2 - 1, by omega⟩
  rw [hq, List.range_succ_eq_map, List.foldlM_cons]
  dsimp only
  rw [if_pos (by omega)]
  rfl

theorem idwt_empty (high lo hi : List α) : idwt ([] : List α) high lo hi = .ok [] := rfl

theorem step_one {k : Kit α} {p : Params} (hf : FilterLen k p) (ht : p.wtype ≠ 0) (mats : List (SpMat α))
    {m d : Mat α} {c : Channel α} {i : ℕ} (hd : c[i]? = some d) :
    (m.cols = 0 ∨ d.cols = 0 → composeStep 1 (filters1D k p) mats m c (i + 1) = .throw) ∧
    (1 ≤ m.cols → 1 ≤ d.cols → 0 < m.rows ∧ (d.rows < m.rows ∨ m.rows + 1 < p.wtype) →
      composeStep 1 (filters1D k p) mats m c (i + 1) = .ub) ∧
    (1 ≤ m.cols → 1 ≤ d.cols → ¬ (0 < m.rows ∧ (d.rows < m.rows ∨ m.rows + 1 < p.wtype)) →
      ∃ r, composeStep 1 (filters1D k p) mats m c (i + 1) = .ok r ∧ r.rows = m.rows * 2 ∧ r.cols = 1) := by
  obtain ⟨g1, g2, g3⟩ := composeStep_one hf ht mats (m := m) hd
  have hrd : rd c i = .ok d := by simp [rd, hd]
  have hlen := length_scaling hf ht
  refine ⟨g1, ?_, ?_⟩
  · rintro h1 h2 ⟨h3, h4⟩
    obtain ⟨_, g4, _⟩ := g2 h1 h2
    rcases h4 with h4 | h4
    · exact g4 h4
    · unfold composeStep
      rw [if_pos rfl, if_neg (by omega), Nat.add_sub_cancel, hrd, filters1D_eq ht]
      simp only [Outcome.bind_ok]
      unfold column0
      rw [if_neg (by omega), Outcome.bind_ok, if_neg (by omega), Outcome.bind_ok,
        idwt_tiny (t := p.wtype) (by simp [hlen]) (by rw [Mat.length_col]; omega) (by rw [Mat.length_col]; omega)]
      rfl
  · intro h1 h2 h3
    have : ∃ r, composeStep 1 (filters1D k p) mats m c (i + 1) = .ok r := by
      by_cases h0 : m.rows = 0
      · unfold composeStep
        rw [if_pos rfl, if_neg (by omega), Nat.add_sub_cancel, hrd, filters1D_eq ht]
        simp only [Outcome.bind_ok]
        unfold column0
        have hc : m.col 0 = [] := List.eq_nil_of_length_eq_zero (by rw [Mat.length_col, h0])
        rw [if_neg (by omega), Outcome.bind_ok, if_neg (by omega), Outcome.bind_ok, hc, idwt_empty]
        exact ⟨_, rfl⟩
      · exact (g2 h1 h2).2.2 (by omega) (by omega)
    obtain ⟨r, hr⟩ := this
    exact ⟨r, hr, g3 r hr⟩

/-! ### two dimensions -/

/-- The blocks of a quad. -/
def Quad.blocks (q : Quad α) : List (ℕ × ℕ × ℕ × ℕ) :=
  [(0, 0, q.ll.rows, q.ll.cols), (q.ll.rows, 0, q.lh.rows, q.lh.cols), (0, q.ll.cols, q.hl.rows, q.hl.cols),
    (q.ll.rows, q.ll.cols, q.hh.rows, q.hh.cols)]

theorem fill_throw {m : Raw α} {r0 c0 nr nc : ℕ} {v : ℕ → ℕ → α} (h : m.rows < r0 + nr ∨ m.cols < c0 + nc) :
    m.fill r0 c0 nr nc v = .throw := by
  unfold Raw.fill; rw [if_neg (by omega)]

theorem idwt2_all {q : Quad α} {w h : SpMat α} {H W : ℕ} (gw : w.Good) (gh : h.Good) (hw : w.rows = W) (hw' : w.cols = W)
    (hh : h.rows = H) (hh' : h.cols = H) :
    ((∃ x ∈ q.blocks, H < x.1 + x.2.2.1 ∨ W < x.2.1 + x.2.2.2) → idwt2 q w h = .throw) ∧
    ((¬ ∃ x ∈ q.blocks, H < x.1 + x.2.2.1 ∨ W < x.2.1 + x.2.2.2) →
      ((∃ y < H, ∃ x < W, ∀ z ∈ q.blocks, ¬ (z.1 ≤ y ∧ y < z.1 + z.2.2.1 ∧ z.2.1 ≤ x ∧ x < z.2.1 + z.2.2.2)) → idwt2 q w h = .ub) ∧
      ((¬ ∃ y < H, ∃ x < W, ∀ z ∈ q.blocks, ¬ (z.1 ≤ y ∧ y < z.1 + z.2.2.1 ∧ z.2.1 ≤ x ∧ x < z.2.1 + z.2.2.2)) →
        ∃ r, idwt2 q w h = .ok r ∧ r.rows = H ∧ r.cols = W)) := by
  obtain ⟨ll, lh, hl, hh2⟩ := q
  simp only [Quad.blocks, List.mem_cons, List.not_mem_nil, or_false, exists_eq_or_imp, exists_eq_left, forall_eq_or_imp, forall_eq]
  unfold idwt2
  dsimp only
  by_cases b1 : H < 0 + ll.rows ∨ W < 0 + ll.cols
  · refine ⟨fun _ => ?_, fun hn => absurd (Or.inl b1) hn⟩
    rw [fill_throw (by simpa [Raw.new, hw, hh] using b1)]; rfl
  rw [Raw.fill_ok (by simp [Raw.new]; omega) (by simp [Raw.new]; omega), Outcome.bind_ok]
  by_cases b2 : H < ll.rows + lh.rows ∨ W < 0 + lh.cols
  · refine ⟨fun _ => ?_, fun hn => absurd (Or.inr (Or.inl b2)) hn⟩
    rw [fill_throw (by simpa [Raw.new, Raw.upd, hw, hh] using b2)]; rfl
  rw [Raw.fill_ok (by simp [Raw.new, Raw.upd]; omega) (by simp [Raw.new, Raw.upd]; omega), Outcome.bind_ok]
  by_cases b3 : H < 0 + hl.rows ∨ W < ll.cols + hl.cols
  · refine ⟨fun _ => ?_, fun hn => absurd (Or.inr (Or.inr (Or.inl b3))) hn⟩
    rw [fill_throw (by simpa [Raw.new, Raw.upd, hw, hh] using b3)]; rfl
  rw [Raw.fill_ok (by simp [Raw.new, Raw.upd]; omega) (by simp [Raw.new, Raw.upd]; omega), Outcome.bind_ok]
  by_cases b4 : H < ll.rows + hh2.rows ∨ W < ll.cols + hh2.cols
  · refine ⟨fun _ => ?_, fun hn => absurd (Or.inr (Or.inr (Or.inr b4))) hn⟩
    rw [fill_throw (by simpa [Raw.new, Raw.upd, hw, hh] using b4)]; rfl
  rw [Raw.fill_ok (by simp [Raw.new, Raw.upd]; omega) (by simp [Raw.new, Raw.upd]; omega), Outcome.bind_ok]
  refine ⟨fun hx => absurd hx (by tauto), fun _ => ?_⟩
  set m : Raw α := ((((Raw.new h.rows w.rows).upd 0 0 ll.rows ll.cols ll.get).upd ll.rows 0 lh.rows lh.cols lh.get).upd
        0 ll.cols hl.rows hl.cols hl.get).upd ll.rows ll.cols hh2.rows hh2.cols hh2.get with hm
  have hmr : m.rows = H := by rw [hm]; simp [Raw.upd, Raw.new, hh]
  have hmc : m.cols = W := by rw [hm]; simp [Raw.upd, Raw.new, hw]
  have hcell : ∀ y x, (m.cell y x).isSome ↔ ¬ (¬ (0 ≤ y ∧ y < 0 + ll.rows ∧ 0 ≤ x ∧ x < 0 + ll.cols) ∧
      ¬ (ll.rows ≤ y ∧ y < ll.rows + lh.rows ∧ 0 ≤ x ∧ x < 0 + lh.cols) ∧
      ¬ (0 ≤ y ∧ y < 0 + hl.rows ∧ ll.cols ≤ x ∧ x < ll.cols + hl.cols) ∧
      ¬ (ll.rows ≤ y ∧ y < ll.rows + hh2.rows ∧ ll.cols ≤ x ∧ x < ll.cols + hh2.cols)) := by
    intro y x
    rw [hm]
    simp only [Raw.upd, Raw.new]
    split_ifs <;> simp <;> omega
  constructor
  · rintro ⟨y, hy, x, hx, hc⟩
    unfold Raw.done
    rw [if_neg]
    · rfl
    · intro hall
      exact (hcell y x).1 (hall y (by omega) x (by omega)) hc
  · intro hno
    unfold Raw.done
    rw [if_pos, Outcome.bind_ok]
    · refine ⟨_, dwt2s_ok gw gh (by simp [hmc, hw']) (by simp [hmc, hw]) (by simp [hmr, hh']) (by simp [hmr, hh]), ?_⟩
      simp [colsP, rowsP, hmr, hmc]
    · intro y hy x hx
      rw [hcell]
      intro hc
      exact hno ⟨y, by omega, x, by omega, hc⟩

/-- One step, all outcomes. -/
theorem step_fate {k : Kit α} {p : Params} (hv : ValidParams p) (hf : FilterLen k p) {c : Channel α}
    (hc : c.length = subbandCount p) {i : ℕ} (hi : i < p.steps) {m : Mat α} (hm : LowAt p c (i + 1) m) :
    (Refuses p c i → (stepMats p (transStack (stackP p (scaling k p))) i >>= fun mats =>
        composeStep p.dimension (filters1D k p) mats m c ((i + 1) * subbandsPerWT p)) = .throw) ∧
    (¬ Refuses p c i → Strays p c i → (stepMats p (transStack (stackP p (scaling k p))) i >>= fun mats =>
        composeStep p.dimension (filters1D k p) mats m c ((i + 1) * subbandsPerWT p)) = .ub) ∧
    (¬ Refuses p c i → ¬ Strays p c i → ∃ r, (stepMats p (transStack (stackP p (scaling k p))) i >>= fun mats =>
        composeStep p.dimension (filters1D k p) mats m c ((i + 1) * subbandsPerWT p)) = .ok r ∧ LowAt p c i r) := by
  have ht := wavelet_of_steps hv hi
  rw [subbandCount, ← subbandsPerWT_eq] at hc
  rcases shape_cases hv with ⟨n, hsh, hd⟩ | ⟨w, h, hsh, hd⟩
  · have hk : subbandsPerWT p = 1 := by simp [subbandsPerWT, hd]
    rw [hk, Nat.mul_one] at hc
    obtain ⟨d, hdi⟩ : ∃ d, c[i]? = some d := ⟨_, List.getElem?_eq_getElem (by omega)⟩
    obtain ⟨a, hai⟩ : ∃ a, c[p.steps]? = some a := ⟨_, List.getElem?_eq_getElem (by omega)⟩
    have hmr : m.rows = a.rows * 2 ^ (p.steps - 1 - i) := by
      unfold LowAt at hm
      rw [if_pos hd] at hm
      split at hm
      · rename_i he
        rw [hk, Nat.mul_one, hai] at hm
        cases hm
        rw [show p.steps - 1 - i = 0 by omega]; simp
      · rw [rowsOf_some hai] at hm
        rw [hm.1]; congr 2; omega
    have hmc : m.cols = 0 ↔ i + 1 = p.steps ∧ a.cols = 0 := by
      unfold LowAt at hm
      rw [if_pos hd] at hm
      split at hm
      · rename_i he
        rw [hk, Nat.mul_one, hai] at hm
        cases hm
        exact ⟨fun h => ⟨he, h⟩, fun h => h.2⟩
      · rename_i he
        omega
    obtain ⟨g1, g2, g3⟩ := step_one hf ht [] (m := m) hdi
    have e1 : (stepMats p (transStack (stackP p (scaling k p))) i >>= fun mats =>
        composeStep p.dimension (filters1D k p) mats m c ((i + 1) * subbandsPerWT p)) =
        composeStep 1 (filters1D k p) [] m c (i + 1) := by
      rw [stepMats, if_pos hd, Outcome.bind_ok, hk, Nat.mul_one, hd]
    rw [e1]
    have r1 : Refuses p c i ↔ (m.cols = 0 ∨ d.cols = 0) := by
      unfold Refuses; rw [hsh]; dsimp only
      unfold VectorRefuses
      rw [colsOf_some hdi, colsOf_some hai, hmc, or_comm]
    have s1 : Strays p c i ↔ (0 < m.rows ∧ (d.rows < m.rows ∨ m.rows + 1 < p.wtype)) := by
      unfold Strays; rw [hsh]; dsimp only
      unfold VectorStrays
      rw [rowsOf_some hdi, rowsOf_some hai, hmr]
    rw [r1, s1]
    refine ⟨g1, fun h => g2 (by omega) (by omega), fun h1 h2 => ?_⟩
    obtain ⟨r, hr, hr1, hr2⟩ := g3 (by omega) (by omega) h2
    refine ⟨r, hr, ?_⟩
    unfold LowAt
    rw [if_neg (by omega), if_pos hd, rowsOf_some hai, hr1, hr2, hmr]
    refine ⟨?_, rfl⟩
    rw [show p.steps - i = (p.steps - 1 - i) + 1 by omega, pow_succ]; ring
  · have hk : subbandsPerWT p = 3 := by simp [subbandsPerWT, hd]
    rw [hk] at hc
    obtain ⟨a, ha⟩ : ∃ d, c[i * 3]? = some d := ⟨_, List.getElem?_eq_getElem (by omega)⟩
    obtain ⟨b, hb⟩ : ∃ d, c[i * 3 + 1]? = some d := ⟨_, List.getElem?_eq_getElem (by omega)⟩
    obtain ⟨d, hdd⟩ : ∃ d, c[i * 3 + 2]? = some d := ⟨_, List.getElem?_eq_getElem (by omega)⟩
    let q : Mat α := Mat.ofFn (matRows (paddedShape p) / 2 ^ (i + 1)) (matCols (paddedShape p) / 2 ^ (i + 1)) (fun _ _ => default)
    have hq : Fits p (i + 1) q := ⟨rfl, by rw [if_neg (by omega)]; rfl⟩
    rcases fits_up hv hi hq with ⟨hd', _⟩ | ⟨_, h1, h2, h3, h4, h5⟩
    · omega
    have hps : paddedShape p = [paddedSide p w, paddedSide p h] := by
      have := paddedShape_map hv 1
      simpa [hsh] using this
    have hH : sideAt p h i = 2 * q.rows := by rw [← h3, hps]; rfl
    have hW : sideAt p w i = 2 * q.cols := by rw [← h4, hps]; rfl
    have hst : rd (transStack (stackP p (scaling k p))) i =
        .ok [(daubP (scaling k p) (qmf (scaling k p)) (2 * q.cols)).transpose,
             (daubP (scaling k p) (qmf (scaling k p)) (2 * q.rows)).transpose] := by
      unfold transStack stackP
      rw [rd_ok (by simpa using hi)]
      congr 1
      simp only [List.getElem_map, List.getElem_range]
      have : (paddedShape p).map (fun n => daubP (scaling k p) (qmf (scaling k p)) (n / 2 ^ i)) =
          ((paddedShape p).map (fun n => n / 2 ^ i)).map (fun n => daubP (scaling k p) (qmf (scaling k p)) n) := by
        rw [List.map_map]; rfl
      rw [this, h5]; rfl
    have heq : (stepMats p (transStack (stackP p (scaling k p))) i >>= fun mats =>
          composeStep p.dimension (filters1D k p) mats m c ((i + 1) * subbandsPerWT p)) =
        idwt2 ⟨m, a, b, d⟩ (daubP (scaling k p) (qmf (scaling k p)) (2 * q.cols)).transpose
          (daubP (scaling k p) (qmf (scaling k p)) (2 * q.rows)).transpose := by
      unfold stepMats
      rw [if_neg (by omega), hst, Outcome.bind_ok]
      unfold composeStep
      rw [if_neg (by omega), hk, if_neg (by omega)]
      have i0 : (i + 1) * 3 - 3 = i * 3 := by omega
      have i1 : (i + 1) * 3 - 2 = i * 3 + 1 := by omega
      have i2 : (i + 1) * 3 - 1 = i * 3 + 2 := by omega
      rw [i0, i1, i2]
      simp [rd, ha, hb, hdd]
    rw [heq]
    obtain ⟨g1, r1, cc1⟩ := daubP_facts hf ht h2
    obtain ⟨g2, r2, cc2⟩ := daubP_facts hf ht h1
    have hlow : (if i + 1 = p.steps then rowsOf c (p.steps * 3) else sideAt p h (i + 1)) = m.rows ∧
        (if i + 1 = p.steps then colsOf c (p.steps * 3) else sideAt p w (i + 1)) = m.cols := by
      unfold LowAt at hm
      by_cases he : i + 1 = p.steps
      · rw [if_pos he, hk] at hm
        rw [if_pos he, if_pos he, rowsOf_some hm, colsOf_some hm]
        exact ⟨rfl, rfl⟩
      · rw [if_neg he, if_neg (by omega)] at hm
        rw [if_neg he, if_neg he]
        unfold Fits at hm
        rw [if_neg (by omega), hps] at hm
        exact ⟨hm.1.symm, hm.2.symm⟩
    have hbl : blocks p w h c i = Quad.blocks ⟨m, a, b, d⟩ := by
      unfold blocks Quad.blocks
      dsimp only
      rw [hlow.1, hlow.2, rowsOf_some ha, rowsOf_some hb, rowsOf_some hdd, colsOf_some ha, colsOf_some hb, colsOf_some hdd]
    obtain ⟨z1, z2⟩ := idwt2_all (q := ⟨m, a, b, d⟩) (H := 2 * q.rows) (W := 2 * q.cols)
      (SpMat.good_transpose (daubP (scaling k p) (qmf (scaling k p)) (2 * q.cols)))
      (SpMat.good_transpose (daubP (scaling k p) (qmf (scaling k p)) (2 * q.rows)))
      (by rw [SpMat.rows_transpose, cc1]) (by rw [SpMat.cols_transpose, r1]) (by rw [SpMat.rows_transpose, cc2]) (by rw [SpMat.cols_transpose, r2])
    have rr : Refuses p c i ↔ ∃ x ∈ Quad.blocks ⟨m, a, b, d⟩, 2 * q.rows < x.1 + x.2.2.1 ∨ 2 * q.cols < x.2.1 + x.2.2.2 := by
      unfold Refuses; rw [hsh]; dsimp only
      unfold PictureRefuses
      rw [hbl, hH, hW]
    have ss : Strays p c i ↔ ∃ y < 2 * q.rows, ∃ x < 2 * q.cols, ∀ z ∈ Quad.blocks ⟨m, a, b, d⟩,
        ¬ (z.1 ≤ y ∧ y < z.1 + z.2.2.1 ∧ z.2.1 ≤ x ∧ x < z.2.1 + z.2.2.2) := by
      unfold Strays; rw [hsh]; dsimp only
      unfold PictureStrays
      rw [hbl, hH, hW]
    rw [rr, ss]
    refine ⟨z1, fun h => (z2 h).1, fun hn hs => ?_⟩
    obtain ⟨r, e1, e2, e3⟩ := (z2 hn).2 hs
    refine ⟨r, e1, ?_⟩
    unfold LowAt
    rw [if_neg (by omega), if_neg (by omega)]
    unfold Fits
    rw [if_neg (by omega)]
    exact ⟨by rw [e2, h3], by rw [e3, h4]⟩

/-- All steps of one channel. -/
theorem steps_fate {k : Kit α} {p : Params} (hv : ValidParams p) (hf : FilterLen k p) {c : Channel α}
    (hc : c.length = subbandCount p) (n i : ℕ) (hn : n ≤ i) (hi : i ≤ p.steps) {m : Mat α} (hm : LowAt p c i m) :
    (∀ j, i - n ≤ j → j < i → (∀ j', j < j' → j' < i → ¬ Refuses p c j' ∧ ¬ Strays p c j') →
      (Refuses p c j → composeSteps p (transStack (stackP p (scaling k p))) (filters1D k p) c n i m = .throw) ∧
      (¬ Refuses p c j → Strays p c j → composeSteps p (transStack (stackP p (scaling k p))) (filters1D k p) c n i m = .ub)) ∧
    ((∀ j, i - n ≤ j → j < i → ¬ Refuses p c j ∧ ¬ Strays p c j) →
      ∃ r, composeSteps p (transStack (stackP p (scaling k p))) (filters1D k p) c n i m = .ok r ∧ LowAt p c (i - n) r) := by
  induction n generalizing i m with
  | zero => exact ⟨fun j h1 h2 => by omega, fun _ => ⟨m, rfl, hm⟩⟩
  | succ n ih =>
    obtain ⟨q, rfl⟩ : ∃ q, i = q + 1 := ⟨i - 1, by omega⟩
    obtain ⟨g1, g2, g3⟩ := step_fate hv hf hc (by omega : q < p.steps) hm
    have heq : composeSteps p (transStack (stackP p (scaling k p))) (filters1D k p) c (n + 1) (q + 1) m =
        (stepMats p (transStack (stackP p (scaling k p))) q >>= fun mats =>
          composeStep p.dimension (filters1D k p) mats m c ((q + 1) * subbandsPerWT p)) >>= fun m =>
            composeSteps p (transStack (stackP p (scaling k p))) (filters1D k p) c n q m := by
      rw [composeSteps, Nat.add_sub_cancel]
      cases stepMats p (transStack (stackP p (scaling k p))) q <;> rfl
    rw [heq]
    constructor
    · intro j h1 h2 hcl
      by_cases hj : j = q
      · subst hj
        exact ⟨fun h => by rw [g1 h]; rfl, fun h h' => by rw [g2 h h']; rfl⟩
      · obtain ⟨a, b⟩ := hcl q (by omega) (by omega)
        obtain ⟨r, hr, hl⟩ := g3 a b
        rw [hr, Outcome.bind_ok]
        exact (ih q (by omega) (by omega) hl).1 j (by omega) (by omega) fun j' k1 k2 => hcl j' k1 (by omega)
    · intro hcl
      obtain ⟨a, b⟩ := hcl q (by omega) (by omega)
      obtain ⟨r, hr, hl⟩ := g3 a b
      rw [hr, Outcome.bind_ok]
      obtain ⟨r', e1, e2⟩ := (ih q (by omega) (by omega) hl).2 fun j k1 k2 => hcl j (by omega) (by omega)
      exact ⟨r', e1, by rwa [show q + 1 - (n + 1) = q - n by omega]⟩

/-- The first element that does not return decides. -/
theorem mapM_first {β γ : Type} {f : β → Outcome γ} {l : List β} {n : ℕ} {x : β} (hx : l[n]? = some x)
    (hb : ∀ n' y, n' < n → l[n']? = some y → ∃ z, f y = .ok z) :
    (f x = .throw → l.mapM f = .throw) ∧ (f x = .ub → l.mapM f = .ub) := by
  induction l generalizing n with
  | nil => simp at hx
  | cons a l ih =>
    rw [List.mapM_cons]
    cases n with
    | zero =>
      simp only [List.getElem?_cons_zero, Option.some.injEq] at hx
      subst hx
      exact ⟨fun h => by rw [h]; rfl, fun h => by rw [h]; rfl⟩
    | succ n =>
      obtain ⟨z, hz⟩ := hb 0 a (by omega) rfl
      rw [hz, Outcome.bind_ok]
      obtain ⟨i1, i2⟩ := ih (n := n) (by simpa using hx) fun n' y h1 h2 => hb (n' + 1) y (by omega) (by simpa using h2)
      exact ⟨fun h => by rw [i1 h]; rfl, fun h => by rw [i2 h]; rfl⟩

/-- Cutting the signal out of the result of the steps. -/
theorem finish_fate {k : Kit α} {p : Params} (hv : ValidParams p) {c : Channel α} (hc : c.length = subbandCount p) {s : ℕ}
    {m : Mat α} (hm : LowAt p c (p.steps - (p.steps - s)) m) :
    (TooSmall p s c → finishChannel k p s m = .throw) ∧ (¬ TooSmall p s c → ∃ r, finishChannel k p s m = .ok r) := by
  rw [subbandCount, ← subbandsPerWT_eq] at hc
  have key : ∀ R C, matRows (p.shape.map (· / 2 ^ s)) = R → matCols (p.shape.map (· / 2 ^ s)) = C →
      (TooSmall p s c ↔ 0 < R * C ∧ (m.rows < R ∨ m.cols < C)) →
      (TooSmall p s c → finishChannel k p s m = .throw) ∧ (¬ TooSmall p s c → ∃ r, finishChannel k p s m = .ok r) := by
    intro R C hR hC h
    rw [h]
    unfold finishChannel cropPadding crop
    rw [hR, hC]
    constructor
    · rintro ⟨h1, h2⟩
      rw [if_neg (by omega), if_pos h2]; rfl
    · intro h1
      by_cases h0 : R * C = 0
      · rw [if_pos h0]; exact ⟨_, rfl⟩
      · rw [if_neg h0, if_neg (fun h2 => h1 ⟨by omega, h2⟩)]; exact ⟨_, rfl⟩
  rcases shape_cases hv with ⟨n, hsh, hd⟩ | ⟨w, h, hsh, hd⟩
  · have hk : subbandsPerWT p = 1 := by simp [subbandsPerWT, hd]
    refine key (n / 2 ^ s) 1 (by rw [hsh]; rfl) (by rw [hsh]; rfl) ?_
    unfold TooSmall; rw [hsh]; dsimp only
    rw [hk, Nat.mul_one] at hc
    obtain ⟨a, hai⟩ : ∃ a, c[p.steps]? = some a := ⟨_, List.getElem?_eq_getElem (by omega)⟩
    unfold LowAt at hm
    rw [if_pos hd, hk, Nat.mul_one] at hm
    rw [rowsOf_some hai, colsOf_some hai, Nat.mul_one]
    split at hm
    · rename_i he
      rw [hai] at hm; cases hm
      by_cases hs : p.steps ≤ s
      · rw [show p.steps - s = 0 by omega]
        simp [hs]
      · have : p.steps = s := by omega
        omega
    · rename_i he
      rw [rowsOf_some hai, show p.steps - (p.steps - (p.steps - s)) = p.steps - s by omega] at hm
      rw [hm.1, hm.2]
      have : ¬ p.steps ≤ s := by omega
      simp [this]
  · have hk : subbandsPerWT p = 3 := by simp [subbandsPerWT, hd]
    refine key (h / 2 ^ s) (w / 2 ^ s) (by rw [hsh]; rfl) (by rw [hsh]; rfl) ?_
    unfold TooSmall; rw [hsh]; dsimp only
    rw [hk] at hc
    obtain ⟨a, hai⟩ : ∃ a, c[p.steps * 3]? = some a := ⟨_, List.getElem?_eq_getElem (by omega)⟩
    unfold LowAt at hm
    rw [if_neg (by omega : ¬ p.dimension = 1), hk] at hm
    rw [rowsOf_some hai, colsOf_some hai]
    have hpos : 0 < h / 2 ^ s * (w / 2 ^ s) ↔ 0 < w / 2 ^ s ∧ 0 < h / 2 ^ s := by
      rw [CanonicallyOrderedAdd.mul_pos, and_comm]
    rw [hpos]
    split at hm
    · rename_i he
      rw [hai] at hm; cases hm
      have : p.steps ≤ s := by omega
      tauto
    · rename_i he
      have hs : ¬ p.steps ≤ s := by omega
      rw [show p.steps - (p.steps - s) = s by omega] at hm
      have hps : paddedShape p = [paddedSide p w, paddedSide p h] := by
        have := paddedShape_map hv 1
        simpa [hsh] using this
      unfold Fits at hm
      rw [if_neg (by omega), hps] at hm
      have h1 : h / 2 ^ s ≤ m.rows := by
        rw [hm.1]; exact Nat.div_le_div_right (le_paddedSide p h)
      have h2 : w / 2 ^ s ≤ m.cols := by
        rw [hm.2]; exact Nat.div_le_div_right (le_paddedSide p w)
      constructor
      · rintro ⟨_, _, h3, _⟩; exact absurd h3 hs
      · rintro ⟨_, h3⟩; omega

/-- The whole call: the first trouble decides. -/
theorem compose_fate {k : Kit α} {b : Buffer α} (hb : WellFormed b) (hf : FilterLen k b.params) (s : ℕ) :
    (∀ n c i, b.decs[n]? = some c → s ≤ i → i < b.params.steps → SmoothUntil b.params b.decs s n i →
      (Refuses b.params c i → b.compose k s = .throw) ∧ (¬ Refuses b.params c i → Strays b.params c i → b.compose k s = .ub)) ∧
    (Smooth b.params b.decs s → ((∃ c ∈ b.decs, TooSmall b.params s c) → b.compose k s = .throw) ∧
      ((∀ c ∈ b.decs, ¬ TooSmall b.params s c) → ∃ out, b.compose k s = .ok out)) := by
  obtain ⟨hv, hl, hc⟩ := hb
  rw [compose_unfold hv hf]
  have hch : ∀ n c, b.decs[n]? = some c → ∃ a, LowAt b.params c b.params.steps a ∧
      composeChannel b.params (transStack (stackP b.params (scaling k b.params))) (filters1D k b.params) b.decs s n =
        composeSteps b.params (transStack (stackP b.params (scaling k b.params))) (filters1D k b.params) c (b.params.steps - s)
          b.params.steps a := by
    intro n c hn
    have hlen := hc c (List.mem_of_getElem? hn)
    rw [subbandCount, ← subbandsPerWT_eq] at hlen
    refine ⟨_, by unfold LowAt; rw [if_pos rfl]; exact List.getElem?_eq_getElem (by omega), ?_⟩
    unfold composeChannel
    rw [show rd b.decs n = .ok c by simp [rd, hn], Outcome.bind_ok, rd_ok (by omega), Outcome.bind_ok]
  have hok : ∀ n c, b.decs[n]? = some c →
      (∀ i, s ≤ i → i < b.params.steps → ¬ Refuses b.params c i ∧ ¬ Strays b.params c i) →
      ∃ r, composeChannel b.params (transStack (stackP b.params (scaling k b.params))) (filters1D k b.params) b.decs s n = .ok r ∧
        LowAt b.params c (b.params.steps - (b.params.steps - s)) r := by
    intro n c hn hcl
    obtain ⟨a, ha, he⟩ := hch n c hn
    rw [he]
    exact (steps_fate hv hf (hc c (List.mem_of_getElem? hn)) (b.params.steps - s) b.params.steps (by omega) le_rfl ha).2
      fun j h1 h2 => hcl j (by omega) h2
  constructor
  · intro n c i hn h1 h2 hsm
    obtain ⟨a, ha, he⟩ := hch n c hn
    have hn' : n < b.params.signalNumber := by
      rw [← hl]; exact (List.getElem?_eq_some_iff.1 hn).1
    obtain ⟨f1, f2⟩ := (steps_fate hv hf (hc c (List.mem_of_getElem? hn)) (b.params.steps - s) b.params.steps (by omega) le_rfl ha).1
      i (by omega) h2 fun j' k1 k2 => hsm n j' c hn (by omega) k2 (Or.inr ⟨rfl, k1⟩)
    obtain ⟨m1, m2⟩ := mapM_first (f := composeChannel b.params (transStack (stackP b.params (scaling k b.params)))
      (filters1D k b.params) b.decs s) (l := List.range b.params.signalNumber) (n := n) (x := n) (List.getElem?_range hn') (by
        intro n' y k1 k2
        rw [List.getElem?_range (by omega), Option.some.injEq] at k2
        subst k2
        obtain ⟨c', hc'⟩ : ∃ c', b.decs[n']? = some c' := ⟨_, List.getElem?_eq_getElem (by omega)⟩
        obtain ⟨r, hr, _⟩ := hok n' c' hc' fun i' j1 j2 => hsm n' i' c' hc' j1 j2 (Or.inl k1)
        exact ⟨r, hr⟩)
    rw [he] at m1 m2
    exact ⟨fun h => by rw [m1 (f1 h)]; rfl, fun h h' => by rw [m2 (f2 h h')]; rfl⟩
  · intro hsm
    have hall : ∀ ch ∈ List.range b.params.signalNumber, ∃ m,
        composeChannel b.params (transStack (stackP b.params (scaling k b.params))) (filters1D k b.params) b.decs s ch = .ok m := by
      intro n hn
      rw [List.mem_range, ← hl] at hn
      obtain ⟨r, hr, _⟩ := hok n _ (List.getElem?_eq_getElem hn) (hsm _ (List.getElem_mem hn))
      exact ⟨r, hr⟩
    obtain ⟨ms, hms⟩ := mapM_exists hall
    rw [hms, Outcome.bind_ok]
    obtain ⟨l1, l2⟩ := Py.mapM_inv hms
    have hlen : ms.length = b.decs.length := by simpa [hl] using l1
    have hfin : ∀ n (hn : n < ms.length), (TooSmall b.params s b.decs[n] → finishChannel k b.params s ms[n] = .throw) ∧
        (¬ TooSmall b.params s b.decs[n] → ∃ r, finishChannel k b.params s ms[n] = .ok r) := by
      intro n hn
      have hn' : n < b.decs.length := by omega
      obtain ⟨r, hr, hlow⟩ := hok n _ (List.getElem?_eq_getElem hn') (hsm _ (List.getElem_mem hn'))
      obtain ⟨m', e1, e2⟩ := l2 n n (by rw [List.getElem?_range (by omega)])
      rw [hr] at e2
      cases e2
      rw [List.getElem?_eq_getElem hn, Option.some.injEq] at e1
      rw [e1]
      exact finish_fate hv (hc _ (List.getElem_mem hn')) hlow
    constructor
    · intro hx
      have hex : ∃ n, ∃ h : n < b.decs.length, TooSmall b.params s b.decs[n] := by
        obtain ⟨c, hcm, ht⟩ := hx
        obtain ⟨n, hn, rfl⟩ := List.mem_iff_getElem.1 hcm
        exact ⟨n, hn, ht⟩
      classical
      obtain ⟨hn, ht⟩ := Nat.find_spec hex
      refine (mapM_first (List.getElem?_eq_getElem (by omega : Nat.find hex < ms.length)) ?_).1 ((hfin _ (by omega)).1 ht)
      intro n' y k1 k2
      have hlt : n' < ms.length := by omega
      rw [List.getElem?_eq_getElem hlt, Option.some.injEq] at k2
      subst k2
      exact (hfin n' hlt).2 fun h => Nat.find_min hex k1 ⟨by omega, h⟩
    · intro hx
      apply mapM_exists
      intro m hm
      obtain ⟨n, hn, rfl⟩ := List.mem_iff_getElem.1 hm
      exact (hfin n hn).2 (hx _ (List.getElem_mem _))

/-- There is a first trouble or none. -/
theorem first_trouble (p : Params) (d : List (List (Mat α))) (s : ℕ) :
    Smooth p d s ∨ ∃ (n : ℕ) (c : List (Mat α)) (i : ℕ), d[n]? = some c ∧ s ≤ i ∧ i < p.steps ∧ SmoothUntil p d s n i ∧ (Refuses p c i ∨ Strays p c i) := by
  by_cases h : Smooth p d s
  · exact Or.inl h
  right
  have h1 : ∃ n : ℕ, ∃ (c : List (Mat α)) (i : ℕ), d[n]? = some c ∧ s ≤ i ∧ i < p.steps ∧ (Refuses p c i ∨ Strays p c i) := by
    unfold Smooth at h
    push Not at h
    obtain ⟨c, hcm, i, h1, h2, h3⟩ := h
    obtain ⟨n, hn, rfl⟩ := List.mem_iff_getElem.1 hcm
    exact ⟨n, _, i, List.getElem?_eq_getElem hn, h1, h2, by tauto⟩
  classical
  obtain ⟨c, i, hc, h2, h3, h4⟩ := Nat.find_spec h1
  -- the last step of that channel that goes wrong
  have h5 : ∃ j, ∃ i, j = p.steps - 1 - i ∧ s ≤ i ∧ i < p.steps ∧ (Refuses p c i ∨ Strays p c i) := ⟨_, i, rfl, h2, h3, h4⟩
  obtain ⟨i0, e0, e1, e2, e3⟩ := Nat.find_spec h5
  refine ⟨Nat.find h1, c, i0, hc, e1, e2, ?_, e3⟩
  intro n' i' c' hc' k1 k2 k3
  by_contra hno
  have hbad : Refuses p c' i' ∨ Strays p c' i' := by tauto
  rcases k3 with k3 | ⟨k3, k4⟩
  · exact Nat.find_min h1 k3 ⟨c', i', hc', k1, k2, hbad⟩
  · subst k3
    rw [hc] at hc'
    cases hc'
    exact Nat.find_min h5 (m := p.steps - 1 - i') (by omega) ⟨i', rfl, k1, k2, hbad⟩

end Poly

end WB
