import Verif.Proof.AnyOrder
import Verif.Props.FloatBits

/-!
C121: the bounds on rounding hold in whatever order the sums are computed, with or without fused multiply-add.
-/

namespace WB.Props

open Finset Spec

variable {r : Rounding} {o : FusedOps} {s : SumPlan}

theorem map_mapIdx {α β γ : Type} (f : ℕ → α → β) (g : β → γ) (l : List α) : (l.mapIdx f).map g = l.mapIdx fun i x => g (f i x) := by
  refine List.ext_getElem? fun i => ?_
  rw [List.getElem?_map, List.getElem?_mapIdx, List.getElem?_mapIdx, Option.map_map]
  rfl

theorem mapIdx_map' {α β : Type} (f : α → β) (l : List α) : (l.mapIdx fun _ x => f x) = l.map f := by
  refine List.ext_getElem? fun i => ?_
  rw [List.getElem?_map, List.getElem?_mapIdx]

theorem numbers_settle (hr : r.IEEE) (ho : o.Correct r) (m : Mat (Sums o s)) : matNumbers (settle m) = m.map (sumsScalars hr ho s).val := by
  simp only [matNumbers, settle, Mat.map, List.map_map]
  rfl

theorem val_liftMat (hr : r.IEEE) (ho : o.Correct r) (w : List ℕ) (m : Mat F32) : (liftMat o s w m).map (sumsScalars hr ho s).val = matNumbers m := by
  simp only [matNumbers, liftMat, Mat.map, map_mapIdx]
  congr 1
  exact mapIdx_map' (fun x : F32 => ((number x : ℚ) : ℝ)) m.data

theorem get_settle (m : Mat (Sums o s)) {i j : ℕ} (hi : i < m.rows) (hj : j < m.cols) : (settle m).get i j = (m.get i j).value := Mat.get_map _ m hi hj

theorem get_liftMat (w : List ℕ) (m : Mat F32) {i j : ℕ} (hi : i < m.rows) (hj : j < m.cols) : ((liftMat o s w m).get i j).value = m.get i j := by
  have h : i * m.cols + j < m.data.length := by rw [m.wf]; exact Mat.idx_lt hi hj
  simp only [Mat.get, liftMat, List.getD, List.getElem?_mapIdx]
  rw [List.getElem?_eq_getElem h]
  rfl

theorem sized_congr {α β : Type} [Inhabited α] [Inhabited β] {p : Params} {c : Channel α} {d : Channel β}
    (h : List.Forall₂ (fun x y => y.rows = x.rows ∧ y.cols = x.cols) c d) (hv : ValidParams p) (hc : SizedChan p c) : SizedChan p d :=
  (sized_iff hv d).2 (prescribed_congr h ((sized_iff hv c).1 hc))

theorem sized_map {α β : Type} [Inhabited α] [Inhabited β] (f : α → β) {p : Params} (hv : ValidParams p) {c : Channel α} (h : SizedChan p c) :
    SizedChan p (c.map (Mat.map f)) :=
  sized_congr (by rw [List.forall₂_map_right_iff]; exact List.forall₂_same.2 fun _ _ => ⟨rfl, rfl⟩) hv h

theorem sized_lift {p : Params} (hv : ValidParams p) (n : ℕ) {c : Channel F32} (h : SizedChan p c) :
    SizedChan p (c.mapIdx fun i m => liftMat o s [n, i] m) := by
  refine sized_congr ?_ hv h
  rw [List.forall₂_iff_get]
  refine ⟨by simp, fun i h1 h2 => ?_⟩
  simp [liftMat]

theorem isSignal_liftMat {p : Params} (hv : ValidParams p) {data : List (Mat F32)} (hd : IsSignal p data) :
    IsSignal p (data.mapIdx fun c m => liftMat o s [c] m) := by
  refine ⟨by simpa using hd.1, fun m hm => ?_⟩
  obtain ⟨i, hi, rfl⟩ := List.mem_mapIdx.1 hm
  have h : Shaped p data[i] := shaped_of (hd.2 _ (List.getElem_mem hi))
  exact of_shaped hv (show Shaped p (liftMat o s [i] data[i]) from h)

theorem decomposeBy_ok {b : Buffer F32} (hb : WellFormed b) (hw : b.params.wtype ≤ 10) (hch : 0 < b.params.signalNumber) {data : List (Mat F32)}
    (hd : IsSignal b.params data) :
    b.decomposeBy r o s data = .ok (data.mapIdx fun n x => (chanP b.params (scaling (sumsKit r o s) b.params) nullDenoiser (liftMat o s [n] x)).map settle) true := by
  have h := decompose_ok (b := Buffer.mk b.params (liftDecs o s b.decs)) (k := sumsKit r o s) (den := nullDenoiser)
    ⟨hb.1, by simpa [liftDecs] using hb.2.1, fun c hc => by
      obtain ⟨i, hi, rfl⟩ := List.mem_mapIdx.1 hc
      rw [List.length_mapIdx]
      exact hb.2.2 _ (List.getElem_mem hi)⟩ (sumsKit_present hw) hch (isSignal_liftMat hb.1 hd) (fun _ => nullDenoiser_sized)
  unfold Buffer.decomposeBy
  rw [h]
  simp only [map_mapIdx]

theorem composeBy_ok {b : Buffer F32} (hv : ValidParams b.params) (hl : b.decs.length = b.params.signalNumber) (hw : b.params.wtype ≤ 10)
    (hc : ∀ c ∈ b.decs, SizedChan b.params c) {k : ℕ} (hk : k ≤ b.params.steps) :
    b.composeBy r o s k = .ok (b.decs.mapIdx fun n c => settle (outP (sumsKit r o s) b.params k (c.mapIdx fun i m => liftMat o s [n, i] m))) := by
  have h := compose_ok (b := Buffer.mk b.params (liftDecs o s b.decs)) (k := sumsKit r o s) hv (by simpa [liftDecs] using hl) (sumsKit_present hw)
    (fun c hc' => by
      obtain ⟨i, hi, rfl⟩ := List.mem_mapIdx.1 hc'
      exact sized_lift hv i (hc _ (List.getElem_mem hi))) hk
  unfold Buffer.composeBy
  rw [h]
  simp only [liftDecs, map_mapIdx]

theorem sums_total (hr : r.IEEE) (ho : o.Correct r) {p : Params} (hv : ValidParams p) (hw : p.wtype ≤ 5)
    (hK : p.steps ≤ 2000) {x : Mat (Sums o s)} (hx : Shaped p x) {M : ℝ} (hM0 : 0 ≤ M)
    (hM : ∀ i < x.rows, ∀ j < x.cols, finiteBits (x.get i j).value ∧ |((number (x.get i j).value : ℚ) : ℝ)| ≤ M)
    (hΩ : Real.sqrt (padSize p) * (3 * M + 1) ≤ maxFloat) :
    (∀ m ∈ chanP p (scaling (sumsKit r o s) p) nullDenoiser x, FinV (sumsScalars hr ho s) m) ∧
    total p (VL (sumsScalars hr ho s) (chanP p (scaling (sumsKit r o s) p) nullDenoiser x)) ≤
      Real.sqrt (padSize p) * (101 / 100 * M + 1 / 2 ^ 130) := by
  have hw0 : 0 ≤ Real.sqrt (padSize p) := Real.sqrt_nonneg _
  have hq0 : 0 ≤ Real.sqrt (padSize p) * M := mul_nonneg hw0 hM0
  have hkR := codeKit_present (p := p) (by omega)
  have pf := pad_fin (sc := sumsScalars hr ho s) hv hx hM0 hM
  obtain ⟨k1, k2, k3⟩ := chan_apart (sc := sumsScalars hr ho s) (kF := sumsKit r o s) (k := codeKit) (q := Real.sqrt (padSize p) * M)
    (τ := 401 / 100 * p.wtype / 2 ^ 150 * Real.sqrt (padSize p)) hv hkR (sums_coef hr ho hv hw) (by positivity) (lw_code_sqrt hw) hx pf.1 pf.2 (by
      intro h0
      obtain ⟨_, _, s3⟩ := steps_code hr hv hw h0 (k := p.steps) (by omega) hq0
      have hc := code_coef hr hv hw h0
      refine (gr_mono' hc s3).trans (no_overflow_code hr hv hw h0 ?_ (by positivity))
      nlinarith)
  refine ⟨k1, ?_⟩
  have szF := sized_VL (sc := sumsScalars hr ho s) (chanP_sized (k := sumsKit r o s) hv nullDenoiser_sized hx)
  have szR := chanP_sized (k := codeKit) hv nullDenoiser_sized (show Shaped p (x.map (sumsScalars hr ho s).val) from hx)
  refine (total_le szF szR).trans ?_
  by_cases h0 : p.steps = 0
  · rw [if_pos h0] at k3
    rw [h0, pow_zero, one_mul] at k2
    nlinarith
  · rw [if_neg h0] at k3
    have k4 := add_le_add k3 k2
    rw [sub_add_cancel] at k4
    refine k4.trans ?_
    obtain ⟨_, s2, _⟩ := steps_code hr hv hw h0 (k := p.steps) (by omega) hq0
    have hD := dims_le hv
    have hDk : ((p.shape.length : ℝ) * p.steps) ≤ 4000 := by
      exact_mod_cast (Nat.mul_le_mul hD hK).trans (by norm_num)
    have hDk0 : (0 : ℝ) ≤ (p.shape.length : ℝ) * p.steps := by positivity
    have htR : (p.wtype : ℝ) ≤ 5 := by exact_mod_cast hw
    have a1 : 9 / 2 * (p.wtype + 2) * (p.shape.length * p.steps) / 2 ^ 24 * (Real.sqrt (padSize p) * M) ≤ 1 / 100 * (Real.sqrt (padSize p) * M) := by
      refine mul_le_mul_of_nonneg_right ?_ hq0
      have : (p.wtype + 2 : ℝ) * (p.shape.length * p.steps) ≤ 7 * 4000 := mul_le_mul (by linarith) hDk hDk0 (by norm_num)
      rw [div_le_iff₀ (by norm_num)]
      nlinarith
    have a2 : 9 / 2 * p.wtype * (p.shape.length * p.steps) / 2 ^ 150 * Real.sqrt (padSize p) ≤ 1 / 2 ^ 130 * Real.sqrt (padSize p) := by
      refine mul_le_mul_of_nonneg_right ?_ hw0
      have : (p.wtype : ℝ) * (p.shape.length * p.steps) ≤ 5 * 4000 := mul_le_mul htR hDk hDk0 (by norm_num)
      rw [div_le_iff₀ (by norm_num)]
      nlinarith
    have s2' : nit (stepG p) (stepT p) p.steps (Real.sqrt (padSize p) * M) ≤ Real.sqrt (padSize p) * (101 / 100 * M + 1 / 2 ^ 130) := by linarith
    exact s2'

/-- C121, decomposition. Bit patterns, every sum computed in an order of its own, additions fused with multiplications or not, as the compiler and Blaze like it
(`s` is any `SumPlan`): the coefficients are those of C105 within the same bound. -/
theorem C121_decompose (r : Rounding) (hr : r.IEEE) (o : FusedOps) (ho : o.Correct r) (s : SumPlan) (b : Buffer F32) (hb : WellFormed b)
    (bR : Buffer ℝ) (hbR : WellFormed bR) (hpR : bR.params = b.params) (hw : b.params.wtype ≤ 5) (hK : b.params.steps ≤ 2000)
    (hch : 0 < b.params.signalNumber) (data : List (Mat F32)) (hd : IsSignal b.params data) (M : ℝ) (hM0 : 0 ≤ M)
    (hM : ∀ x ∈ data, ∀ i < x.rows, ∀ j < x.cols, finiteBits (x.get i j) ∧ |((number (x.get i j) : ℚ) : ℝ)| ≤ M)
    (hΩ : Real.sqrt ((b.params.shape.map (paddedSide b.params)).prod : ℕ) * (3 * M + 1) ≤ maxFloat) :
    ∃ d dR, b.decomposeBy r o s data = .ok d true ∧ bR.decompose codeKit (data.map matNumbers) nullDenoiser = .ok dR true ∧
      d.length = data.length ∧ dR.length = data.length ∧ (∀ c ∈ d, PrescribedShapes b.params c) ∧ (∀ c ∈ dR, PrescribedShapes b.params c) ∧
      (∀ c ∈ d, ∀ m ∈ c, ∀ i < m.rows, ∀ j < m.cols, finiteBits (m.get i j)) ∧
      ∀ (n : ℕ) (c : List (Mat F32)) (cR : List (Mat ℝ)), d[n]? = some c → dR[n]? = some cR →
        Real.sqrt (List.zipWith sqDist (c.map matNumbers) cR).sum ≤
          Real.sqrt ((b.params.shape.map (paddedSide b.params)).prod : ℕ) *
            (9 / 2 * (b.params.wtype + 2) * (b.params.shape.length * b.params.steps) / 2 ^ 24 * M +
              9 / 2 * b.params.wtype * (b.params.shape.length * b.params.steps) / 2 ^ 150) := by
  have hv := hb.1
  have hkR := codeKit_present (p := b.params) (by omega)
  have c1 := decomposeBy_ok (r := r) (o := o) (s := s) hb (by omega) hch hd
  have sR : IsSignal b.params (data.map matNumbers) := isSignal_val _ hv hd
  have c2 := decompose_ok hbR (k := codeKit) (by rw [hpR]; exact hkR) (by rw [hpR]; exact hch) (data := data.map matNumbers)
    (by rw [hpR]; exact sR) (fun _ => nullDenoiser_sized)
  rw [hpR] at c2
  rw [← padSize_eq hv] at hΩ ⊢
  refine ⟨_, _, c1, c2, by simp, by simp, ?_, ?_, ?_, ?_⟩
  · intro c hc
    obtain ⟨n, hn, rfl⟩ := List.mem_mapIdx.1 hc
    have h : Shaped b.params data[n] := shaped_of (hd.2 _ (List.getElem_mem hn))
    exact (sized_iff hv _).1 (sized_map _ hv (chanP_sized hv nullDenoiser_sized (show Shaped b.params (liftMat o s [n] data[n]) from h)))
  · intro c hc
    rw [List.mem_map] at hc
    obtain ⟨m, hm, rfl⟩ := hc
    exact (sized_iff hv _).1 (chanP_sized hv nullDenoiser_sized (shaped_of (sR.2 m hm)))
  all_goals
    generalize b.params = p at *
    have hw0 : 0 ≤ Real.sqrt (padSize p) := Real.sqrt_nonneg _
    have shp : ∀ n, ∀ x ∈ data, Shaped p (liftMat o s [n] x) := fun n x hx => (shaped_of (hd.2 x hx) : Shaped p x)
    have pf := fun n x (hx : x ∈ data) => pad_fin (sc := sumsScalars hr ho s) hv (shp n x hx) hM0 (fun i hi j hj => by
      show finiteBits ((liftMat o s [n] x).get i j).value ∧ |((number ((liftMat o s [n] x).get i j).value : ℚ) : ℝ)| ≤ M
      rw [get_liftMat _ x hi hj]
      exact hM x hx i hi j hj)
    have key := fun n x (hx : x ∈ data) => chan_apart (sc := sumsScalars hr ho s) (kF := sumsKit r o s) (k := codeKit) (q := Real.sqrt (padSize p) * M)
      (τ := 401 / 100 * p.wtype / 2 ^ 150 * Real.sqrt (padSize p)) hv hkR (sums_coef hr ho hv hw) (by positivity) (lw_code_sqrt hw)
      (shp n x hx) (pf n x hx).1 (pf n x hx).2 (by
        intro h0
        obtain ⟨_, _, s3⟩ := steps_code hr hv hw h0 (k := p.steps) (by omega) (q := Real.sqrt (padSize p) * M) (by positivity)
        have hc := code_coef hr hv hw h0
        refine (gr_mono' hc s3).trans (no_overflow_code hr hv hw h0 ?_ (by positivity))
        nlinarith [mul_nonneg hw0 hM0])
  · intro c hc
    obtain ⟨n, hn, rfl⟩ := List.mem_mapIdx.1 hc
    intro m hm i hi j hj
    obtain ⟨m', hm', rfl⟩ := List.mem_map.1 hm
    rw [get_settle m' hi hj]
    exact (key n data[n] (List.getElem_mem hn)).1 m' hm' i hi j hj
  · intro n c cR e1 e2
    simp only [List.getElem?_map, List.getElem?_mapIdx] at e1 e2
    match hx : data[n]?, e1, e2 with
    | some x, e1, e2 =>
      simp only [Option.map_some, Option.some.injEq] at e1 e2
      subst e1 e2
      have hmem := List.mem_of_getElem? hx
      obtain ⟨_, _, k3⟩ := key n x hmem
      have szF := sized_VL (sc := sumsScalars hr ho s) (chanP_sized (k := sumsKit r o s) hv nullDenoiser_sized (shp n x hmem))
      have szR := chanP_sized (k := codeKit) hv nullDenoiser_sized (shaped_of (sR.2 _ (List.mem_map_of_mem hmem)))
      rw [val_liftMat hr ho] at k3
      have e : ((chanP p (scaling (sumsKit r o s) p) nullDenoiser (liftMat o s [n] x)).map settle).map matNumbers =
          VL (sumsScalars hr ho s) (chanP p (scaling (sumsKit r o s) p) nullDenoiser (liftMat o s [n] x)) := by
        rw [List.map_map]
        exact List.map_congr_left fun m _ => numbers_settle hr ho m
      rw [e, ← apart_eq szF szR]
      refine k3.trans ?_
      split_ifs with h0
      · positivity
      · obtain ⟨_, s2, _⟩ := steps_code hr hv hw h0 (k := p.steps) (by omega) (q := Real.sqrt (padSize p) * M) (by positivity)
        have hA : 1 ≤ sa p (scaling codeKit p) ^ p.steps := one_le_pow₀ ((code_coef hr hv hw h0).sides (τ := 0) le_rfl).1
        have : Real.sqrt (padSize p) * M ≤ sa p (scaling codeKit p) ^ p.steps * (Real.sqrt (padSize p) * M) :=
          le_mul_of_one_le_left (by positivity) hA
        refine (sub_le_sub_left this _).trans (s2.trans (le_of_eq ?_))
        ring

theorem VL_lift (hr : r.IEEE) (ho : o.Correct r) (n : ℕ) (c : Channel F32) :
    VL (sumsScalars hr ho s) (c.mapIdx fun i m => liftMat o s [n, i] m) = c.map matNumbers := by
  unfold VL
  rw [map_mapIdx]
  simp only [val_liftMat]
  exact mapIdx_map' matNumbers c

theorem fin_lift (hr : r.IEEE) (ho : o.Correct r) (n : ℕ) {c : Channel F32} (h : ∀ m ∈ c, ∀ i < m.rows, ∀ j < m.cols, finiteBits (m.get i j)) :
    ∀ m ∈ c.mapIdx fun i m => liftMat o s [n, i] m, FinV (sumsScalars hr ho s) m := by
  intro m hm
  obtain ⟨k, hk, rfl⟩ := List.mem_mapIdx.1 hm
  intro i hi j hj
  show finiteBits ((liftMat o s [n, k] c[k]).get i j).value
  rw [get_liftMat _ _ hi hj]
  exact h _ (List.getElem_mem hk) i hi j hj

/-- C121, composition at every scale, as C105 with the sums in any order. -/
theorem C121_compose (r : Rounding) (hr : r.IEEE) (o : FusedOps) (ho : o.Correct r) (s : SumPlan)
    (p : Params) (d : Decs F32) (hb : WellFormed (Buffer.mk p d)) (hw : p.wtype ≤ 5) (hK : p.steps ≤ 2000)
    (hp : ∀ c ∈ d, PrescribedShapes p c) (hfin : ∀ c ∈ d, ∀ m ∈ c, ∀ i < m.rows, ∀ j < m.cols, finiteBits (m.get i j)) (Q : ℝ) (hQ0 : 0 ≤ Q)
    (hQ : ∀ c ∈ d, Real.sqrt ((c.map matNumbers).map fun m => ∑ i ∈ range m.rows, ∑ j ∈ range m.cols, m.get i j ^ 2).sum ≤ Q)
    (hΩ : 3 * Q + Real.sqrt ((p.shape.map (paddedSide p)).prod : ℕ) ≤ maxFloat) (k : ℕ) (hs : k ≤ p.steps) :
    ∃ out outR, (Buffer.mk p d).composeBy r o s k = .ok out ∧ (Buffer.mk p (d.map (List.map matNumbers))).compose codeKit k = .ok outR ∧
      out.length = d.length ∧ outR.length = d.length ∧
      ∀ (n : ℕ) (y : Mat F32) (z : Mat ℝ), out[n]? = some y → outR[n]? = some z →
        y.rows = z.rows ∧ y.cols = z.cols ∧ (∀ i < y.rows, ∀ j < y.cols, finiteBits (y.get i j)) ∧
        Real.sqrt (sqDist (matNumbers y) z) ≤
          (9 / 2 * (p.wtype + 2) * (p.shape.length * (p.steps - k : ℕ)) / 2 ^ 24 * Q +
            9 / 2 * p.wtype * (p.shape.length * (p.steps - k : ℕ)) / 2 ^ 150 * Real.sqrt ((p.shape.map (paddedSide p)).prod : ℕ)) /
              Real.sqrt 2 ^ (p.shape.length * k) +
          (if k = 0 then 0 else 1 / 2 ^ 22 * (2 * Q + Real.sqrt ((p.shape.map (paddedSide p)).prod : ℕ)) / Real.sqrt 2 ^ (p.shape.length * k) +
            1 / 2 ^ 149 * Real.sqrt ((p.shape.map (paddedSide p)).prod : ℕ)) := by
  have hv : ValidParams p := hb.1
  have hkR := codeKit_present (p := p) (by omega)
  have z1 : ∀ c ∈ d, SizedChan p c := fun c hc => (sized_iff hv c).2 (hp c hc)
  have z2 : ∀ c ∈ d.map (List.map matNumbers), SizedChan p c := by
    intro c hc
    rw [List.mem_map] at hc
    obtain ⟨c, hc, rfl⟩ := hc
    exact sized_map _ hv (z1 c hc)
  rw [← padSize_eq hv] at hΩ ⊢
  refine ⟨_, _, composeBy_ok (b := ⟨p, d⟩) hv hb.2.1 (by show p.wtype ≤ 10; omega) z1 hs,
    compose_ok (b := ⟨p, d.map (List.map matNumbers)⟩) hv (by simpa using hb.2.1) hkR z2 hs, by simp, by simp, ?_⟩
  intro n y z e1 e2
  simp only [List.getElem?_map, List.getElem?_mapIdx] at e1 e2
  match hx : d[n]?, e1, e2 with
  | some c, e1, e2 =>
    simp only [Option.map_some, Option.some.injEq] at e1 e2
    subst e1 e2
    have hmem := List.mem_of_getElem? hx
    have hw0 : 0 ≤ Real.sqrt (padSize p) := Real.sqrt_nonneg _
    have szL := sized_lift (o := o) (s := s) hv n (z1 c hmem)
    have hQ' : total p (VL (sumsScalars hr ho s) (c.mapIdx fun i m => liftMat o s [n, i] m)) ≤ Q := by
      have := hQ c hmem
      rw [← energy_sum, ← VL_lift hr ho n c, ← total_sq (sized_VL (sc := sumsScalars hr ho s) szL).1, Real.sqrt_mul_self (total_nonneg _ _)] at this
      exact this
    have big : ∀ h0 : p.steps ≠ 0, nit (stepG p) (stepT p) (p.steps - k) Q ≤ 61 / 60 * Q + 1 / 1000 * Real.sqrt (padSize p) := fun h0 =>
      (steps_code hr hv hw h0 (k := p.steps - k) (by omega) hQ0).2.2
    obtain ⟨o1, o2, o3, o4⟩ := out_apart (sc := sumsScalars hr ho s) (kF := sumsKit r o s) (k := codeKit) (s := k) (Q := Q)
      (τ := 401 / 100 * p.wtype / 2 ^ 150 * Real.sqrt (padSize p)) hv hkR (sums_coef hr ho hv hw) (by positivity)
      (lw_code_sqrt hw) szL (fin_lift hr ho n (hfin c hmem)) hQ0 hQ' hs (fun _ _ _ => rfl) (u' := 1 / 2 ^ 22) (ω' := 1 / 2 ^ 149) (by norm_num) (by norm_num)
      (sums_gain hr ho) (fun h0 => (gr_mono' (code_coef hr hv hw h0) (big h0)).trans (no_overflow_code hr hv hw h0 (by nlinarith) (by positivity)))
      (fun h => by
        split_ifs
        · linarith
        · exact (big (by omega)).trans (by linarith))
    rw [VL_lift hr ho] at o1 o2 o4
    refine ⟨o1, o2, fun i hi j hj => ?_, ?_⟩
    · rw [get_settle _ hi hj]
      exact o3 i hi j hj
    rw [sqDist_nrm ⟨o1, o2⟩, numbers_settle hr ho]
    refine o4.trans ?_
    have hgp : 0 < Real.sqrt 2 ^ (p.dimension * k) := pow_pos (Real.sqrt_pos.2 (by norm_num)) _
    have hdim : p.dimension = p.shape.length := rfl
    rw [hdim] at hgp ⊢
    refine add_le_add (div_le_div_of_nonneg_right ?_ hgp.le) ?_
    · split_ifs with h0
      · positivity
      · have hne : p.steps ≠ 0 := by omega
        obtain ⟨_, s2, _⟩ := steps_code hr hv hw hne (k := p.steps - k) (by omega) hQ0
        have hA : 1 ≤ sa p (scaling codeKit p) ^ (p.steps - k) := one_le_pow₀ ((code_coef hr hv hw hne).sides (τ := 0) le_rfl).1
        have : Q ≤ sa p (scaling codeKit p) ^ (p.steps - k) * Q := le_mul_of_one_le_left hQ0 hA
        exact (sub_le_sub_left this _).trans s2
    · by_cases h0 : k = 0
      · rw [if_pos h0, if_pos h0]
      · rw [if_neg h0, if_neg h0]
        refine add_le_add (div_le_div_of_nonneg_right (mul_le_mul_of_nonneg_left ?_ (by norm_num)) hgp.le) le_rfl
        split_ifs
        · linarith
        · exact (big (by omega)).trans (by linarith)

theorem VL_settle (hr : r.IEEE) (ho : o.Correct r) (c : Channel (Sums o s)) : (c.map settle).map matNumbers = VL (sumsScalars hr ho s) c := by
  rw [List.map_map]
  exact List.map_congr_left fun m _ => numbers_settle hr ho m

/-- C121, archive. As C106: decomposed by one program, stored, read back and composed by another one. The two may order and fuse their sums in different ways,
as programs built by different compilers or for different processors do. The bound is that of C106. -/
theorem C121_archive (r : Rounding) (hr : r.IEEE) (o : FusedOps) (ho : o.Correct r) (s s' : SumPlan) (e : Ext) (hcod : CodecsWork e truncBits)
    (Mem : ℕ) (hroom : Room e Mem) (level : ℕ) (h24 : level ≤ 24) (old : Bytes) (b : Buffer F32) (hb : WellFormed b) (hw : b.params.wtype ≤ 5)
    (hK : b.params.steps ≤ 2000) (hside : ∀ n ∈ b.params.shape, 0 < n ∧ n < 2 ^ 64) (hch : 0 < b.params.signalNumber)
    (hch64 : b.params.signalNumber < 2 ^ 64) (hsub : b.params.signalNumber * subbandCount b.params ≤ Mem)
    (hN : (b.params.shape.map (paddedSide b.params)).prod < 2 ^ 31) (hNM : (b.params.shape.map (paddedSide b.params)).prod ≤ Mem)
    (data : List (Mat F32)) (hd : IsSignal b.params data) (M : ℝ) (hM0 : 0 ≤ M)
    (hM : ∀ x ∈ data, ∀ i < x.rows, ∀ j < x.cols, finiteBits (x.get i j) ∧ |((number (x.get i j) : ℚ) : ℝ)| ≤ M)
    (hΩ : Real.sqrt ((b.params.shape.map (paddedSide b.params)).prod : ℕ) * (7 * M + 2) ≤ maxFloat) :
    ∃ d blob d' out, b.decomposeBy r o s data = .ok d true ∧
      serialize e ⟨b.params, d⟩ old level = .ok (true, blob) ∧
      (blob.length ≤ Mem → parse e blob = .ok (some ⟨b.params, d'⟩)) ∧
      Buffer.composeBy r o s' ⟨b.params, d'⟩ 0 = .ok out ∧ out.length = data.length ∧
      ∀ (n : ℕ) (x : Mat F32), data[n]? = some x →
        ∃ y : Mat F32, out[n]? = some y ∧ y.rows = x.rows ∧ y.cols = x.cols ∧ (∀ i < y.rows, ∀ j < y.cols, finiteBits (y.get i j)) ∧
          Real.sqrt (sqDist (matNumbers y) (matNumbers x)) ≤
            Real.sqrt ((b.params.shape.map (paddedSide b.params)).prod : ℕ) *
              (9 * (b.params.wtype + 2) * (b.params.shape.length * b.params.steps) / 2 ^ 24 * M +
                9 * b.params.wtype * (b.params.shape.length * b.params.steps) / 2 ^ 150 + lossOf level * (103 / 100 * M + 1 / 2 ^ 124)) := by
  have hv := hb.1
  have hkR := codeKit_present (p := b.params) (by omega)
  have c1 := decomposeBy_ok (r := r) (o := o) (s := s) hb (by omega) hch hd
  rw [← padSize_eq hv] at hΩ hN hNM ⊢
  set p := b.params with hp
  have hw0 : 0 ≤ Real.sqrt (padSize p) := Real.sqrt_nonneg _
  have hq0 : 0 ≤ Real.sqrt (padSize p) * M := mul_nonneg hw0 hM0
  have hL0 := lossOf_nonneg level
  have hL1 := lossOf_le h24
  have shp : ∀ n, ∀ x ∈ data, Shaped p (liftMat o s [n] x) := fun n x hx => (shaped_of (hd.2 x hx) : Shaped p x)
  have hM' : ∀ n, ∀ x ∈ data, ∀ i < (liftMat o s [n] x).rows, ∀ j < (liftMat o s [n] x).cols, finiteBits ((liftMat o s [n] x).get i j).value ∧
      |((number ((liftMat o s [n] x).get i j).value : ℚ) : ℝ)| ≤ M := by
    intro n x hx i hi j hj
    rw [get_liftMat _ x hi hj]
    exact hM x hx i hi j hj
  obtain ⟨F, hF⟩ : ∃ F : ℕ → Mat F32 → Channel F32, ∀ n x, F n x = (chanP p (scaling (sumsKit r o s) p) nullDenoiser (liftMat o s [n] x)).map settle :=
    ⟨_, fun _ _ => rfl⟩
  obtain ⟨G, hG⟩ : ∃ G : ℕ → Channel F32 → Mat F32, ∀ n c, G n c = settle (outP (sumsKit r o s') p 0 (c.mapIdx fun i m => liftMat o s' [n, i] m)) :=
    ⟨_, fun _ _ => rfl⟩
  obtain ⟨d, hdd⟩ : ∃ d : Decs F32, d = data.mapIdx F := ⟨_, rfl⟩
  have c1 : b.decomposeBy r o s data = .ok d true := by
    rw [hdd, show F = _ from funext fun n => funext (hF n)]
    exact c1
  have hdlen : d.length = data.length := by rw [hdd]; simp
  have sz : ∀ c ∈ d, SizedChan p c := by
    intro c hc
    rw [hdd] at hc
    obtain ⟨n, hn, rfl⟩ := List.mem_mapIdx.1 hc
    rw [hF]
    exact sized_map _ hv (chanP_sized hv nullDenoiser_sized (shp n _ (List.getElem_mem hn)))
  have hΩ1 : Real.sqrt (padSize p) * (3 * M + 1) ≤ maxFloat := by nlinarith
  have tot := fun n x (hx : x ∈ data) => sums_total hr ho hv hw hK (shp n x hx) hM0 (hM' n x hx) hΩ1
  have hbD : WellFormed (Buffer.mk p d) := by
    refine ⟨hv, by rw [hdlen]; exact hd.1, fun c hc => ?_⟩
    rw [(sz c hc).1]
    rfl
  have msize : ∀ c ∈ d, ∀ m ∈ c, 0 < m.rows * m.cols ∧ m.rows * m.cols ≤ padSize p := by
    intro c hc m hm
    obtain ⟨k, hs, hf⟩ := mem_fits (sz c hc) hm
    exact ⟨fits_pos hv (fun n hn => (hside n hn).1) hs hf, size_le hf⟩
  have hfit : FitsFormat (Buffer.mk p d) := by
    refine ⟨fun n hn => (hside n hn).2, hch64, by show p.wtype < 8; omega, fun c hc m hm => ?_⟩
    obtain ⟨h1, h2⟩ := msize c hc m hm
    have h3 : m.rows * m.cols < 2 ^ 31 := by omega
    constructor
    · exact lt_of_le_of_lt (Nat.le_mul_of_pos_right _ (Nat.pos_of_mul_pos_left h1)) (h3.trans (by norm_num))
    · exact lt_of_le_of_lt (Nat.le_mul_of_pos_left _ (Nat.pos_of_mul_pos_right h1)) (h3.trans (by norm_num))
  obtain ⟨blob, d', a1, a2, a3⟩ := archive_changes e Mem level (Buffer.mk p d) old hbD hfit hcod
    (fun c hc m hm => ⟨(msize c hc m hm).1, lt_of_le_of_lt (msize c hc m hm).2 hN⟩) hroom ⟨hsub, fun c hc m hm => (msize c hc m hm).2.trans hNM⟩ h24
  have a3 : List.Forall₂ _ d d' := a3
  have hl : d'.length = d.length := a3.length_eq.symm
  have z1 : ∀ c' ∈ d', SizedChan p c' := by
    intro c' hc'
    obtain ⟨n, hn, rfl⟩ := List.mem_iff_getElem.1 hc'
    have g := a3.get (by omega) hn
    refine (sized_iff hv _).2 (prescribed_congr (g.imp fun _ _ g => ⟨g.1.1, g.1.2.1⟩) ((sized_iff hv _).1 (sz _ (List.getElem_mem (by omega)))))
  have hlen : d'.length = data.length := by rw [hl, hdlen]
  have c2 : Buffer.composeBy r o s' ⟨p, d'⟩ 0 = .ok (d'.mapIdx G) := by
    rw [show G = _ from funext fun n => funext (hG n)]
    exact composeBy_ok (b := ⟨p, d'⟩) (k := 0) hv (by show d'.length = _; rw [hlen]; exact hd.1) (by show p.wtype ≤ 10; omega) z1 (Nat.zero_le _)
  refine ⟨d, blob, d', d'.mapIdx G, c1, a1, a2, c2, List.length_mapIdx.trans hlen, ?_⟩
  intro n x hn
  have hmem := List.mem_of_getElem? hn
  obtain ⟨hn1, hn2⟩ := List.getElem?_eq_some_iff.1 hn
  have hnl : n < d'.length := by omega
  have hnd : n < d.length := by omega
  have hc' : d'[n]? = some d'[n] := List.getElem?_eq_getElem hnl
  have hmem' := List.getElem_mem hnl
  have hdn : d[n] = (chanP p (scaling (sumsKit r o s) p) nullDenoiser (liftMat o s [n] x)).map settle := by
    rw [← hF]
    simp [hdd, hn2]
  have g := a3.get hnd hnl
  simp only [List.get_eq_getElem] at g
  rw [hdn] at g
  have szF0 := chanP_sized (k := sumsKit r o s) hv nullDenoiser_sized (shp n x hmem)
  have szF := sized_VL (sc := sumsScalars hr ho s) szF0
  have szL := sized_lift (o := o) (s := s') hv n (z1 _ hmem')
  have szC := sized_VL (sc := sumsScalars hr ho s') szL
  obtain ⟨t1, t2⟩ := tot n x hmem
  rw [VL_lift hr ho] at szC
  rw [← VL_settle hr ho] at szF t2
  set q : ℝ := Real.sqrt (padSize p) * M with hq
  set P : ℝ := Real.sqrt (padSize p) * (lossOf level * (101 / 100 * M + 1 / 2 ^ 125)) with hP
  have hP0 : 0 ≤ P := by positivity
  have dist : apart p (VL (sumsScalars hr ho s') (d'[n].mapIdx fun i m => liftMat o s' [n, i] m))
      (VL (sumsScalars hr ho s) (chanP p (scaling (sumsKit r o s) p) nullDenoiser (liftMat o s [n] x))) ≤ P := by
    rw [VL_lift hr ho, ← VL_settle hr ho]
    refine (kept_apart hv szF szC hL0 (show (0 : ℝ) ≤ lossOf level / 2 ^ 126 by positivity) (g.imp fun _ _ g => g.1) t2).trans (le_of_le_of_eq ?_ hP.symm)
    nlinarith [mul_nonneg hw0 hL0]
  have hfin : ∀ m ∈ d'[n].mapIdx fun i m => liftMat o s' [n, i] m, FinV (sumsScalars hr ho s') m := by
    refine fin_lift hr ho n ?_
    intro m hm
    obtain ⟨i, hi, rfl⟩ := List.mem_iff_getElem.1 hm
    have hi' := lt_of_lt_of_eq hi g.length_eq.symm
    refine (g.get hi' hi).2 ?_
    simp only [List.get_eq_getElem, List.getElem_map]
    intro a ha c hc
    rw [get_settle _ ha hc]
    exact t1 _ (List.getElem_mem _) a ha c hc
  have hP3 : 3 * P ≤ Real.sqrt (padSize p) * (304 / 100 * M + 1 / 2) := by
    have : lossOf level * (101 / 100 * M + 1 / 2 ^ 125) ≤ 1 * (101 / 100 * M + 1 / 2 ^ 125) := mul_le_mul_of_nonneg_right hL1 (by positivity)
    have := mul_le_mul_of_nonneg_left this hw0
    rw [hP]
    nlinarith
  have hGn : (d'.mapIdx G)[n]? = some (settle (outP (sumsKit r o s') p 0 (d'[n].mapIdx fun i m => liftMat o s' [n, i] m))) := by
    rw [← hG, List.getElem?_mapIdx, hc']
    rfl
  have pf := pad_fin (sc := sumsScalars hr ho s) hv (shp n x hmem) hM0 (hM' n x hmem)
  obtain ⟨u1, u2, u3, u4⟩ := trip_changed2 (sc := sumsScalars hr ho s) (sc' := sumsScalars hr ho s') (kF := sumsKit r o s) (kF' := sumsKit r o s') (k := codeKit) (q := q) (P := P)
    (τ := 401 / 100 * p.wtype / 2 ^ 150 * Real.sqrt (padSize p)) hv hkR (sums_coef hr ho hv hw) (sums_coef hr ho hv hw) (by positivity) (lw_code_sqrt hw)
    (shp n x hmem) pf.1 pf.2 hP0
    szL hfin dist (fun _ _ _ => rfl) (u' := 1 / 2 ^ 22) (ω' := 1 / 2 ^ 149) (by norm_num) (by norm_num) (sums_gain hr ho) (by
      intro h0
      obtain ⟨_, _, s3⟩ := steps_code hr hv hw h0 (k := 2 * p.steps) (by omega) hq0
      obtain ⟨s1, _, _⟩ := steps_code hr hv hw h0 (k := p.steps) (by omega) hq0
      have hc := code_coef hr hv hw h0
      have s1 := mul_le_mul_of_nonneg_right (s1 hK) hP0
      refine (gr_mono' hc (add_le_add s3 s1)).trans (no_overflow_code hr hv hw h0 ?_ (by positivity))
      nlinarith)
  rw [val_liftMat hr ho] at u4
  refine ⟨_, hGn, u1, u2, fun i hi j hj => ?_, ?_⟩
  · rw [get_settle _ hi hj]
    exact u3 i hi j hj
  rw [sqDist_nrm (x := matNumbers (settle _)) (y := matNumbers x) ⟨u1, u2⟩, numbers_settle hr ho]
  refine le_trans u4 ?_
  split_ifs with h0
  · refine mul_le_mul_of_nonneg_left ?_ hw0
    have : lossOf level * (101 / 100 * M + 1 / 2 ^ 125) ≤ lossOf level * (103 / 100 * M + 1 / 2 ^ 124) :=
      mul_le_mul_of_nonneg_left (by linarith) hL0
    have : (0 : ℝ) ≤ 9 * (p.wtype + 2) * (p.shape.length * p.steps) / 2 ^ 24 * M := by positivity
    have : (0 : ℝ) ≤ 9 * p.wtype * (p.shape.length * p.steps) / 2 ^ 150 := by positivity
    linarith
  · obtain ⟨_, s2, _⟩ := steps_code hr hv hw h0 (k := 2 * p.steps) (by omega) hq0
    obtain ⟨s1, _, _⟩ := steps_code hr hv hw h0 (k := p.steps) (by omega) hq0
    have s1 := mul_le_mul_of_nonneg_right (s1 hK) hP0
    refine (add_le_add s2 s1).trans ?_
    have : 101 / 100 * (lossOf level * (101 / 100 * M + 1 / 2 ^ 125)) ≤ lossOf level * (103 / 100 * M + 1 / 2 ^ 124) := by nlinarith
    have := mul_le_mul_of_nonneg_left this hw0
    rw [hP, hq]
    push_cast
    linarith

/-! ### cases -/

/-- One term after the other from the left, as the loops are written. -/
def SumPlan.inOrder : SumPlan where
  plan ts := Plan.inOrder ts.length
  once ts := by
    have : ∀ n, (Plan.inOrder n).uses = List.range n := by
      intro n
      induction n with
      | zero => rfl
      | succ n ih => rw [Plan.inOrder, Plan.uses, ih, List.range_succ]; rfl
    rw [this]

/-- From the right, every product fused with the addition. -/
def SumPlan.fused : SumPlan where
  plan ts := (List.range ts.length).foldr Plan.fma Plan.zero
  once ts := by
    have : ∀ l : List ℕ, (l.foldr Plan.fma Plan.zero).uses = l := by
      intro l
      induction l with
      | nil => rfl
      | cons a l ih => rw [List.foldr_cons, Plan.uses, ih]
    rw [this]

/-- C121, the loops as they are written. In that order, nothing fused, a sum has the value it has in the model of C106. -/
theorem C121_in_order (o : FusedOps) (n : ℕ) (x y : ℕ → Sums o SumPlan.inOrder) :
    ((List.range n).foldl (fun acc j => acc + x j * y j) (0 : Sums o SumPlan.inOrder)).value =
      (List.range n).foldl (fun acc j => o.add acc (o.mul (x j).value (y j).value)) 0#32 := by
  rcases Nat.eq_zero_or_pos n with rfl | hn
  · rfl
  rw [Sums.value_fold x y (by omega)]
  set ts := (List.range n).map fun j => Term.prod (x j).value (y j).value (.both (x j).origin (y j).origin) with hts
  have hlen : ts.length = n := by rw [hts]; simp
  show (Plan.inOrder ts.length).eval o ts = _
  rw [hlen]
  have key : ∀ k ≤ n, (Plan.inOrder k).eval o ts = (List.range k).foldl (fun acc j => o.add acc (o.mul (x j).value (y j).value)) 0#32 := by
    intro k
    induction k with
    | zero => exact fun _ => rfl
    | succ k ih =>
      intro hk
      have e : ts.getD k (.val 0#32 .fixed) = Term.prod (x k).value (y k).value (.both (x k).origin (y k).origin) := by
        rw [hts, List.getD, List.getElem?_map, List.getElem?_range (by omega)]
        rfl
      rw [List.range_succ, List.foldl_append, ← ih (by omega), Plan.inOrder, Plan.eval, Plan.eval, e]
      rfl
  exact key n le_rfl

/-- Operations as IEEE 754 prescribes them exist, fused multiply-add included. -/
theorem fusedOps_exist {r : Rounding} (hr : r.IEEE) : ∃ o : FusedOps, o.Correct r := by
  classical
  obtain ⟨o, ho⟩ := floatOps_exist hr
  have enc : ∀ v : ℝ, ∃ x : F32, |r.toFloat v| ≤ maxFloat → finiteBits x ∧ (number x : ℝ) = r.toFloat v := by
    intro v
    by_cases h : |r.toFloat v| ≤ maxFloat
    · obtain ⟨x, hx⟩ := number_surj (hr.1 v).1 h
      exact ⟨x, fun _ => hx⟩
    · exact ⟨0, fun h' => absurd h' h⟩
  choose f hf using enc
  exact ⟨⟨o, fun x y z => f ((number x : ℝ) * number y + number z)⟩, ⟨ho, fun x y z _ _ _ h => hf _ h⟩⟩

/-- `FusedOps.Correct` can be met, with rounding to nearest, ties to even. -/
example : ∃ (r : Rounding) (o : FusedOps), r.IEEE ∧ o.Correct r := by
  obtain ⟨r, hr, _⟩ := ties_exist
  obtain ⟨o, ho⟩ := fusedOps_exist hr
  exact ⟨r, o, hr, ho⟩

/-- A 1024 × 1024 picture of finite floats between -1 and 1, five steps of the fifth wavelet, level 10, the codecs of `exExt`, written by
a program with loops as they stand in the code and read by one with fused multiply-add: the picture read back differs by at most 0.11 in the root of the sum of
squares, so by 0.00011 per pixel in the root mean square. -/
example (r : Rounding) (hr : r.IEEE) (o : FusedOps) (ho : o.Correct r) (f : ℕ → ℕ → F32) (hf : ∀ i j, finiteBits (f i j))
    (h1 : ∀ i j, |((number (f i j) : ℚ) : ℝ)| ≤ 1) :
    let p : Params := ⟨[1024, 1024], 1, 5, 5⟩
    ∃ d blob d' out y, Buffer.decomposeBy r o SumPlan.inOrder ⟨p, [List.replicate 16 Mat.empty]⟩ [Mat.ofFn 1024 1024 f] = .ok d true ∧
      serialize exExt ⟨p, d⟩ [] 10 = .ok (true, blob) ∧ parse exExt blob = .ok (some ⟨p, d'⟩) ∧
      Buffer.composeBy r o SumPlan.fused ⟨p, d'⟩ 0 = .ok out ∧ out[0]? = some y ∧
      Real.sqrt (sqDist (matNumbers y) (matNumbers (Mat.ofFn 1024 1024 f))) ≤ 11 / 100 := by
  intro p
  have hN : Real.sqrt ((p.shape.map (paddedSide p)).prod : ℕ) = 1024 := by
    rw [show (p.shape.map (paddedSide p)).prod = 1024 * 1024 by decide, Nat.cast_mul]
    exact Real.sqrt_mul_self (x := 1024) (by norm_num)
  have hNe : (p.shape.map (paddedSide p)).prod = 1024 * 1024 := by decide
  have key := fun Mem (hm : 1024 * 1024 ≤ Mem) => C121_archive r hr o ho SumPlan.inOrder SumPlan.fused exExt (exTrunc_eq ▸ exExt_works) Mem (fun _ _ _ => rfl) 10 (by norm_num) []
    (Buffer.mk p [List.replicate 16 Mat.empty])
    ⟨⟨by simp [p], by simp [p], by simp [p]⟩, by simp [p], by simp [p, subbandCount, detailsPerStep]⟩ (by simp [p]) (by simp [p]) (by simp [p])
    (by simp [p]) (by simp [p]) (le_trans (by simp [p, subbandCount, detailsPerStep]) hm) (by show (p.shape.map (paddedSide p)).prod < _; rw [hNe]; norm_num)
    (by show (p.shape.map (paddedSide p)).prod ≤ _; rw [hNe]; exact hm)
    [Mat.ofFn 1024 1024 f] ⟨by simp [p], by simp [p, HasShape]⟩ 1 (by norm_num) (by
      intro x hx i hi j hj
      rw [List.mem_singleton] at hx
      subst hx
      simp only [Mat.rows_ofFn, Mat.cols_ofFn] at hi hj
      rw [Mat.get_ofFn hi hj]
      exact ⟨hf i j, h1 i j⟩) (by rw [hN]; simp only [maxFloat]; norm_num)
  obtain ⟨d, blob, _, _, k1, k2, _⟩ := key (1024 * 1024) le_rfl
  obtain ⟨d1, blob1, d', out, j1, j2, j3, j4, _, j5⟩ := key (max (1024 * 1024) blob.length) (le_max_left _ _)
  rw [k1] at j1
  cases j1
  rw [k2] at j2
  cases j2
  obtain ⟨y, e1, _, _, _, e2⟩ := j5 0 _ rfl
  refine ⟨d, blob, d', out, y, k1, k2, j3 (le_max_right _ _), j4, e1, e2.trans ?_⟩
  rw [hN, lossOf, if_neg (by norm_num)]
  simp only [p, List.length_cons, List.length_nil]
  norm_num

/-- Coefficients of a signal of eight samples that no signal was decomposed to, `db1`, composed at scale 1 with fused multiply-add. -/
example (r : Rounding) (hr : r.IEEE) (o : FusedOps) (ho : o.Correct r) (a : ℕ → F32) (hf0 : ∀ i, finiteBits (a i))
    (ha : ∀ i, |((number (a i) : ℚ) : ℝ)| ≤ 1) :
    let p : Params := ⟨[8], 1, 2, 1⟩
    let d : Decs F32 := [[Mat.ofFn 4 1 (fun i _ => a i), Mat.ofFn 2 1 (fun i _ => a i), Mat.ofFn 2 1 (fun i _ => a i)]]
    ∃ out outR, (Buffer.mk p d).composeBy r o SumPlan.fused 1 = .ok out ∧ (Buffer.mk p (d.map (List.map matNumbers))).compose codeKit 1 = .ok outR ∧
      ∀ (n : ℕ) (y : Mat F32) (z : Mat ℝ), out[n]? = some y → outR[n]? = some z →
        Real.sqrt (sqDist (matNumbers y) z) ≤ 1 / 10 ^ 5 := by
  intro p d
  have hN : Real.sqrt ((p.shape.map (paddedSide p)).prod : ℕ) ≤ 3 := by
    rw [show (p.shape.map (paddedSide p)).prod = 8 by decide, Real.sqrt_le_left (by norm_num)]
    norm_num
  have hN0 : 0 ≤ Real.sqrt ((p.shape.map (paddedSide p)).prod : ℕ) := Real.sqrt_nonneg _
  have hv : ValidParams p := ⟨by simp [p], by simp [p], by simp [p]⟩
  have hsq : ∀ i, ((number (a i) : ℚ) : ℝ) ^ 2 ≤ 1 := fun i => by rw [← sq_abs]; exact pow_le_one₀ (abs_nonneg _) (ha i)
  obtain ⟨out, outR, h1, h2, _, _, h3⟩ := C121_compose r hr o ho SumPlan.fused p d
    ⟨hv, by simp [p, d], by simp [p, d, subbandCount, detailsPerStep]⟩ (by simp [p]) (by simp [p])
    (by
      intro c hc
      simp only [d, List.mem_singleton] at hc
      subst hc
      have hf : ∀ {k n : ℕ} (g : ℕ → ℕ → F32), n = 8 / 2 ^ k → Fits p k (Mat.ofFn n 1 g) := fun {k n} g h => by
        refine ⟨?_, rfl⟩
        rw [show matRows (paddedShape p) = 8 by decide +kernel, ← h]; rfl
      refine (sized_iff hv _).1 ⟨rfl, ?_, hf (k := 2) (n := 2) (fun i _ => a i) (by decide)⟩
      intro s hs j hj
      have hs : s < 2 := hs
      have hj : j < 1 := hj
      interval_cases s <;> interval_cases j
      · exact hf (k := 1) (n := 4) (fun i _ => a i) (by decide)
      · exact hf (k := 2) (n := 2) (fun i _ => a i) (by decide))
    (by
      intro c hc m hm i hi j hj
      simp only [d, List.mem_singleton] at hc
      subst hc
      simp only [List.mem_cons, List.not_mem_nil, or_false] at hm
      rcases hm with rfl | rfl | rfl <;> (simp only [Mat.rows_ofFn, Mat.cols_ofFn] at hi hj; rw [Mat.get_ofFn hi hj]; exact hf0 _)) 4 (by norm_num)
    (by
      intro c hc
      simp only [d, List.mem_singleton] at hc
      subst hc
      rw [Real.sqrt_le_left (by norm_num)]
      have rc : ∀ n, (matNumbers (Mat.ofFn n 1 (fun i _ => a i))).rows = n ∧ (matNumbers (Mat.ofFn n 1 (fun i _ => a i))).cols = 1 := fun n => ⟨rfl, rfl⟩
      simp only [List.map_cons, List.map_nil, (rc 4).1, (rc 4).2, (rc 2).1, (rc 2).2, List.sum_cons, List.sum_nil,
        sum_range_succ, sum_range_zero, zero_add]
      have e : ∀ n i, i < n → (matNumbers (Mat.ofFn n 1 (fun i _ => a i))).get i 0 = ((number (a i) : ℚ) : ℝ) := fun n i hi => by
        rw [matNumbers, Mat.get_map _ _ (by simpa using hi) (by simp), Mat.get_ofFn hi (by norm_num)]
      rw [e 4 0 (by norm_num), e 4 1 (by norm_num), e 4 2 (by norm_num), e 4 3 (by norm_num), e 2 0 (by norm_num), e 2 1 (by norm_num)]
      linarith [hsq 0, hsq 1, hsq 2, hsq 3]) ((add_le_add le_rfl hN).trans (by simp only [maxFloat]; norm_num)) 1 (by simp [p])
  refine ⟨out, outR, h1, h2, fun n y z e1 e2 => ?_⟩
  obtain ⟨_, _, _, h4⟩ := h3 n y z e1 e2
  refine h4.trans ?_
  have hg : 1 ≤ Real.sqrt 2 ^ (p.shape.length * 1) := gain_ge_one false _
  generalize Real.sqrt ((p.shape.map (paddedSide p)).prod : ℕ) = w at *
  rw [if_neg one_ne_zero]
  generalize Real.sqrt 2 ^ (p.shape.length * 1) = g at *
  refine (add_le_add (div_le_self (by positivity) hg) (add_le_add (div_le_self (by positivity) hg) le_rfl)).trans ?_
  norm_num [p]
  linarith

/-- The coefficients of such a picture: more than a million, off by at most 0.02 in the root of the sum of squares. -/
example (r : Rounding) (hr : r.IEEE) (o : FusedOps) (ho : o.Correct r) (s : SumPlan) (f : ℕ → ℕ → F32) (hf : ∀ i j, finiteBits (f i j))
    (h1 : ∀ i j, |((number (f i j) : ℚ) : ℝ)| ≤ 1) :
    let p : Params := ⟨[1024, 1024], 1, 5, 5⟩
    ∃ d dR, Buffer.decomposeBy r o s ⟨p, [List.replicate 16 Mat.empty]⟩ [Mat.ofFn 1024 1024 f] = .ok d true ∧
      (Buffer.mk p [List.replicate 16 Mat.empty] : Buffer ℝ).decompose codeKit ([Mat.ofFn 1024 1024 f].map matNumbers) nullDenoiser = .ok dR true ∧
      ∀ (n : ℕ) (c : List (Mat F32)) (cR : List (Mat ℝ)), d[n]? = some c → dR[n]? = some cR →
        Real.sqrt (List.zipWith sqDist (c.map matNumbers) cR).sum ≤ 2 / 100 := by
  intro p
  have hN : Real.sqrt ((p.shape.map (paddedSide p)).prod : ℕ) = 1024 := by
    rw [show (p.shape.map (paddedSide p)).prod = 1024 * 1024 by decide, Nat.cast_mul]
    exact Real.sqrt_mul_self (x := 1024) (by norm_num)
  have hv : ValidParams p := ⟨by simp [p], by simp [p], by simp [p]⟩
  obtain ⟨d, dR, k1, k2, _, _, _, _, _, k3⟩ := C121_decompose r hr o ho s (Buffer.mk p [List.replicate 16 Mat.empty])
    ⟨hv, by simp [p], by simp [p, subbandCount, detailsPerStep]⟩ (Buffer.mk p [List.replicate 16 Mat.empty])
    ⟨hv, by simp [p], by simp [p, subbandCount, detailsPerStep]⟩ rfl (by simp [p]) (by simp [p])
    (by simp [p]) [Mat.ofFn 1024 1024 f] ⟨by simp [p], by simp [p, HasShape]⟩
    1 (by norm_num) (by
      intro x hx i hi j hj
      rw [List.mem_singleton] at hx
      subst hx
      simp only [Mat.rows_ofFn, Mat.cols_ofFn] at hi hj
      rw [Mat.get_ofFn hi hj]
      exact ⟨hf i j, h1 i j⟩) (by rw [hN]; simp only [maxFloat]; norm_num)
  refine ⟨d, dR, k1, k2, fun n c cR e1 e2 => ?_⟩
  have := k3 n c cR e1 e2
  rw [hN] at this
  norm_num [p] at this ⊢
  linarith

end WB.Props
