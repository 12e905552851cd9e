import Verif.Proof.FloatDenoise

/-!
C107: denoising on the stored bit patterns.
-/

namespace WB.Props

open Finset Spec

/-- `Decompose` with `den`, `Serialize` over the bytes `old`, `Parse` of an archive of at most `Mem` bytes and `Compose` with nothing left out all
succeed, in the IEEE operations `o`; the channels that come out have the sizes of those that went in, are finite, and differ from them by at most
`√N bound` in the root of the sum of squares. -/
def ReturnsWithin (r : Rounding) (o : FloatOps) (e : Ext) (Mem level : ℕ) (old : Bytes) (b : Buffer F32) (den : Denoiser F32)
    (data : List (Mat F32)) (bound : ℝ) : Prop :=
  ∃ d blob d' out, Buffer.decompose (α := Bits o) (bitsKit r o) b data den = .ok d true ∧
    serialize e ⟨b.params, d⟩ old level = .ok (true, blob) ∧
    (blob.length ≤ Mem → parse e blob = .ok (some ⟨b.params, d'⟩)) ∧
    Buffer.compose (α := Bits o) (bitsKit r o) ⟨b.params, d'⟩ 0 = .ok out ∧ out.length = data.length ∧
    ∀ (n : ℕ) (x : Mat F32), data[n]? = some x →
      ∃ y : Mat F32, out[n]? = some y ∧ y.rows = x.rows ∧ y.cols = x.cols ∧ (∀ i < y.rows, ∀ j < y.cols, finiteBits (y.get i j)) ∧
        Real.sqrt (sqDist (matNumbers y) (matNumbers x)) ≤ Real.sqrt ((b.params.shape.map (paddedSide b.params)).prod : ℕ) * bound

theorem ReturnsWithin.mono {r : Rounding} {o : FloatOps} {e : Ext} {Mem level : ℕ} {old : Bytes} {b : Buffer F32} {den : Denoiser F32}
    {data : List (Mat F32)} {s t : ℝ} (h : ReturnsWithin r o e Mem level old b den data s) (hst : s ≤ t) :
    ReturnsWithin r o e Mem level old b den data t := by
  obtain ⟨d, blob, d', out, h1, h2, h3, h4, h5, h6⟩ := h
  refine ⟨d, blob, d', out, h1, h2, h3, h4, h5, fun n x hx => ?_⟩
  obtain ⟨y, y1, y2, y3, y4, y5⟩ := h6 n x hx
  exact ⟨y, y1, y2, y3, y4, y5.trans (mul_le_mul_of_nonneg_left hst (Real.sqrt_nonneg _))⟩

set_option maxHeartbeats 1000000 in
/-- C107, for any denoiser that changes a subband by at most a share `A` of its root of the sum of squares and `B` per entry. Samples as bit patterns,
every operation in IEEE `float`: `Decompose` with the denoiser, `Serialize` with a level up to 24, `Parse`, `Compose`. Every step succeeds, no result
is infinite or NaN, and the signal that comes out differs from the one that went in by at most the rounding error of an unchanged round trip, what
the denoiser removes and what the archive removes from the rest. -/
theorem C107_any_denoiser (r : Rounding) (hr : r.IEEE) (o : FloatOps) (ho : o.Correct r) (e : Ext) (hcod : CodecsWork e truncBits)
    (Mem : ℕ) (hroom : Room e Mem) (level : ℕ) (h24 : level ≤ 24) (old : Bytes) (b : Buffer F32) (hb : WellFormed b) (hw : b.params.wtype ≤ 5)
    (hK : b.params.steps ≤ 2000) (hside : ∀ n ∈ b.params.shape, 0 < n ∧ n < 2 ^ 64) (hch : 0 < b.params.signalNumber)
    (hch64 : b.params.signalNumber < 2 ^ 64) (hsub : b.params.signalNumber * subbandCount b.params ≤ Mem)
    (hN : (b.params.shape.map (paddedSide b.params)).prod < 2 ^ 31) (hNM : (b.params.shape.map (paddedSide b.params)).prod ≤ Mem)
    (den : Denoiser F32) (A B : ℝ) (hA : 0 ≤ A) (hA1 : A ≤ 101 / 100) (hB : 0 ≤ B)
    (hden : MovesLittle (b.params.shape.map (paddedSide b.params)).prod b.params.steps A B den)
    (data : List (Mat F32)) (hd : IsSignal b.params data) (M : ℝ) (hM0 : 0 ≤ M)
    (hM : ∀ x ∈ data, ∀ i < x.rows, ∀ j < x.cols, finiteBits (x.get i j) ∧ |((number (x.get i j) : ℚ) : ℝ)| ≤ M)
    (hΩ : Real.sqrt ((b.params.shape.map (paddedSide b.params)).prod : ℕ) * (13 * M + 7 * B + 2) ≤ maxFloat) :
    ReturnsWithin r o e Mem level old b den data
      (9 * (b.params.wtype + 2) * (b.params.shape.length * b.params.steps) / 2 ^ 24 * M +
        9 * b.params.wtype * (b.params.shape.length * b.params.steps) / 2 ^ 150 + (A + lossOf level * (1 + A)) * (103 / 100 * M + 1 / 2 ^ 124) +
        103 / 100 * (1 + lossOf level) * B) := by
  unfold ReturnsWithin
  have hv := hb.1
  have hkR := codeKit_present (p := b.params) (by omega)
  have hkF := bitsKit_present (r := r) (o := o) (p := b.params) (by omega)
  have hszd : Denoiser.Sized (α := Bits o) den := hden.keeps
  have c1 := decompose_ok (α := Bits o) (den := den) hb hkF hch hd (fun _ => hszd)
  rw [← padSize_eq hv] at hΩ hN hNM hden ⊢
  set p := b.params with hp
  have hw0 : 0 ≤ Real.sqrt (padSize p) := Real.sqrt_nonneg _
  have hq0 : 0 ≤ Real.sqrt (padSize p) * M := mul_nonneg hw0 hM0
  have hL0 := lossOf_nonneg level
  have hL1 := lossOf_le h24
  obtain ⟨F, hF⟩ : ∃ F : Mat F32 → Channel F32, ∀ x, F x = chanP (α := Bits o) p (scaling (bitsKit r o) p) den x := ⟨_, fun _ => rfl⟩
  obtain ⟨G, hG⟩ : ∃ G : Channel F32 → Mat F32, ∀ c, G c = outP (α := Bits o) (bitsKit r o) p 0 c := ⟨_, fun _ => rfl⟩
  obtain ⟨d, hdd⟩ : ∃ d : Decs F32, d = data.map F := ⟨_, rfl⟩
  have c1 : Buffer.decompose (α := Bits o) (bitsKit r o) b data den = .ok d true := by
    rw [hdd, show F = _ from funext hF]
    exact c1
  have hdlen : d.length = data.length := by rw [hdd]; simp
  have sz : ∀ c ∈ d, SizedChan p c := by
    intro c hc
    rw [hdd, List.mem_map] at hc
    obtain ⟨x, hx, rfl⟩ := hc
    rw [hF]
    exact chanP_sized (α := Bits o) hv hszd (shaped_of (hd.2 x hx))
  have hΩ1 : Real.sqrt (padSize p) * (3 * M + 1) ≤ maxFloat := by nlinarith
  have tot := fun x (hx : x ∈ data) => bits_total hr ho hv hw hK (shaped_of (hd.2 x hx)) hM0 (hM x hx) hΩ1
  have hbD : WellFormed (Buffer.mk p d) := by
    refine ⟨hv, by rw [hdlen]; exact hd.1, fun c hc => ?_⟩
    rw [(sz c hc).1]
    rfl
  have msize : ∀ c ∈ d, ∀ m ∈ c, 0 < m.rows * m.cols ∧ m.rows * m.cols ≤ padSize p := by
    intro c hc m hm
    obtain ⟨s, hs, hf⟩ := mem_fits (sz c hc) hm
    exact ⟨fits_pos hv (fun n hn => (hside n hn).1) hs hf, size_le hf⟩
  have hfit : FitsFormat (Buffer.mk p d) := by
    refine ⟨fun n hn => (hside n hn).2, hch64, by show p.wtype < 8; omega, fun c hc m hm => ?_⟩
    obtain ⟨h1, h2⟩ := msize c hc m hm
    have h3 : m.rows * m.cols < 2 ^ 31 := by omega
    constructor
    · exact lt_of_le_of_lt (Nat.le_mul_of_pos_right _ (Nat.pos_of_mul_pos_left h1)) (h3.trans (by norm_num))
    · exact lt_of_le_of_lt (Nat.le_mul_of_pos_left _ (Nat.pos_of_mul_pos_right h1)) (h3.trans (by norm_num))
  obtain ⟨blob, d', a1, a2, a3⟩ := archive_changes e Mem level (Buffer.mk p d) old hbD hfit hcod
    (fun c hc m hm => ⟨(msize c hc m hm).1, lt_of_le_of_lt (msize c hc m hm).2 hN⟩) hroom ⟨hsub, fun c hc m hm => (msize c hc m hm).2.trans hNM⟩ h24
  have a3 : List.Forall₂ _ d d' := a3
  have hl : d'.length = d.length := a3.length_eq.symm
  have z1 : ∀ c' ∈ d', SizedChan p c' := by
    intro c' hc'
    obtain ⟨n, hn, rfl⟩ := List.mem_iff_getElem.1 hc'
    have g := a3.get (by omega) hn
    refine (sized_iff hv _).2 (prescribed_congr (g.imp fun _ _ g => ⟨g.1.1, g.1.2.1⟩) ((sized_iff hv _).1 (sz _ (List.getElem_mem (by omega)))))
  have hlen : d'.length = data.length := by rw [hl, hdlen]
  have c2 : Buffer.compose (α := Bits o) (bitsKit r o) ⟨p, d'⟩ 0 = .ok (d'.map G) := by
    rw [show G = _ from funext hG]
    exact compose_ok (α := Bits o) (b := ⟨p, d'⟩) hv (by show d'.length = _; rw [hlen]; exact hd.1) hkF z1 (Nat.zero_le _)
  refine ⟨d, blob, d', d'.map G, c1, a1, a2, c2, (List.length_map _).trans hlen, ?_⟩
  intro n x hn
  have hmem := List.mem_of_getElem? hn
  obtain ⟨hn1, hn2⟩ := List.getElem?_eq_some_iff.1 hn
  have hnl : n < d'.length := by omega
  have hnd : n < d.length := by omega
  have hc' : d'[n]? = some d'[n] := List.getElem?_eq_getElem hnl
  have hmem' := List.getElem_mem hnl
  have hdn : d[n] = chanP (α := Bits o) p (scaling (bitsKit r o) p) den x := by
    rw [← hF]
    simp [hdd, hn2]
  have g := a3.get hnd hnl
  simp only [List.get_eq_getElem] at g
  rw [hdn] at g
  have hxs := shaped_of (hd.2 x hmem)
  have szF := sized_VL (sc := bitsScalars hr ho) (chanP_sized (k := bitsKit r o) hv nullDenoiser_sized hxs)
  have szD := sized_VL (sc := bitsScalars hr ho) (chanP_sized (α := Bits o) (k := bitsKit r o) hv hszd hxs)
  have szC := sized_VL (sc := bitsScalars hr ho) (z1 _ hmem')
  obtain ⟨t1, t2⟩ := tot x hmem
  have kd := chan_kept hden hv (bitsKit r o) hxs t1
  set q : ℝ := Real.sqrt (padSize p) * M with hq
  set E : ℝ := 101 / 100 * M + 1 / 2 ^ 130 with hE
  have hE0 : 0 ≤ E := by positivity
  have p1 := kept_apart hv szF szD hA hB (kd.imp fun _ _ g => g.1) t2
  have p2 := kept_apart hv szD szC hL0 (show (0 : ℝ) ≤ lossOf level / 2 ^ 126 by positivity) (g.imp fun _ _ g => g.1)
    ((total_le szD szF).trans (add_le_add p1 t2))
  set P : ℝ := Real.sqrt (padSize p) * ((A + lossOf level * (1 + A)) * E + (1 + lossOf level) * B + lossOf level / 2 ^ 126) with hP
  have hP0 : 0 ≤ P := by positivity
  have dist : apart p (VL (bitsScalars hr ho) d'[n]) (VL (bitsScalars hr ho) (chanP (α := Bits o) p (scaling (bitsKit r o) p) nullDenoiser x)) ≤ P := by
    refine (apart_tri szC szD szF).trans ((add_le_add p2 p1).trans (le_of_eq ?_))
    rw [hP]
    ring
  have hfin : ∀ m ∈ d'[n], FinV (bitsScalars hr ho) m := by
    intro m hm
    obtain ⟨i, hi, rfl⟩ := List.mem_iff_getElem.1 hm
    have hi' : i < (chanP (α := Bits o) p (scaling (bitsKit r o) p) den x).length := lt_of_lt_of_eq hi g.length_eq.symm
    have hi2 : i < (chanP (α := Bits o) p (scaling (bitsKit r o) p) nullDenoiser x).length := lt_of_lt_of_eq hi' kd.length_eq.symm
    exact (g.get hi' hi).2 (kd.get hi2 hi').2
  have hP3 : 3 * P ≤ Real.sqrt (padSize p) * (92 / 10 * M + 6 * B + 1 / 2) := by
    have h1 : A + lossOf level * (1 + A) ≤ 302 / 100 := by nlinarith
    have h2 := mul_le_mul_of_nonneg_right h1 hE0
    have h3 : (1 + lossOf level) * B ≤ 2 * B := mul_le_mul_of_nonneg_right (by linarith) hB
    rw [hP, ← mul_assoc, mul_comm 3, mul_assoc]
    refine mul_le_mul_of_nonneg_left ?_ hw0
    rw [hE] at h2 ⊢
    linarith
  have hGn : (d'.map G)[n]? = some (outP (α := Bits o) (bitsKit r o) p 0 d'[n]) := by
    rw [← hG, List.getElem?_map, hc']
    rfl
  have pf := pad_fin (sc := bitsScalars hr ho) hv hxs hM0 (hM x hmem)
  obtain ⟨u1, u2, u3, u4⟩ := trip_changed (sc := bitsScalars hr ho) (kF := bitsKit r o) (k := codeKit) (q := q) (P := P)
    (τ := 401 / 100 * p.wtype / 2 ^ 150 * Real.sqrt (padSize p)) hv hkR (bits_coef hr ho hv hw) (by positivity) (lw_code_sqrt hw)
    hxs pf.1 pf.2 hP0
    (z1 _ hmem') hfin dist (fun _ _ _ => rfl) (u' := 1 / 2 ^ 22) (ω' := 1 / 2 ^ 149) (by norm_num) (by norm_num) (bits_gain hr ho) (by
      intro h0
      obtain ⟨_, _, s3⟩ := steps_code hr hv hw h0 (k := 2 * p.steps) (by omega) hq0
      obtain ⟨s1, _, _⟩ := steps_code hr hv hw h0 (k := p.steps) (by omega) hq0
      have hc := code_coef hr hv hw h0
      have s1 := mul_le_mul_of_nonneg_right (s1 hK) hP0
      refine (gr_mono' hc (add_le_add s3 s1)).trans (no_overflow_code hr hv hw h0 ?_ (by positivity))
      nlinarith)
  refine ⟨outP (α := Bits o) (bitsKit r o) p 0 d'[n], hGn, u1, u2, u3, ?_⟩
  have e1 := sqDist_nrm (x := matNumbers (outP (α := Bits o) (bitsKit r o) p 0 d'[n])) (y := matNumbers x) ⟨u1, u2⟩
  rw [e1]
  refine le_trans u4 ?_
  have hP1 : 101 / 100 * P ≤ Real.sqrt (padSize p) * ((A + lossOf level * (1 + A)) * (103 / 100 * M + 1 / 2 ^ 124) + 103 / 100 * (1 + lossOf level) * B) := by
    rw [hP, ← mul_assoc, mul_comm (101 / 100), mul_assoc]
    refine mul_le_mul_of_nonneg_left ?_ hw0
    have hAL : 0 ≤ A + lossOf level * (1 + A) := by positivity
    have h1 : 101 / 100 * E + 101 / 100 / 2 ^ 126 ≤ 103 / 100 * M + 1 / 2 ^ 124 := by
      rw [hE]
      linarith
    have h2 := mul_le_mul_of_nonneg_left h1 hAL
    have h3 : lossOf level * (101 / 100 / 2 ^ 126) ≤ (A + lossOf level * (1 + A)) * (101 / 100 / 2 ^ 126) :=
      mul_le_mul_of_nonneg_right (by nlinarith) (by positivity)
    have h4 : 0 ≤ (1 + lossOf level) * B := by positivity
    linarith
  split_ifs with h0
  · have : (0 : ℝ) ≤ 9 * (p.wtype + 2) * (p.shape.length * p.steps) / 2 ^ 24 * M := by positivity
    have : (0 : ℝ) ≤ 9 * p.wtype * (p.shape.length * p.steps) / 2 ^ 150 := by positivity
    have h2 : P ≤ 101 / 100 * P := by linarith
    refine (h2.trans hP1).trans (mul_le_mul_of_nonneg_left ?_ hw0)
    linarith
  · obtain ⟨_, s2, _⟩ := steps_code hr hv hw h0 (k := 2 * p.steps) (by omega) hq0
    obtain ⟨s1, _, _⟩ := steps_code hr hv hw h0 (k := p.steps) (by omega) hq0
    have s1 := mul_le_mul_of_nonneg_right (s1 hK) hP0
    refine (add_le_add s2 s1).trans ?_
    rw [hq]
    push_cast
    linarith



/-- The padded size is at least one. -/
theorem one_le_sqrt_padded {p : Params} (hv : ValidParams p) (hside : ∀ n ∈ p.shape, 0 < n) : 1 ≤ Real.sqrt ((p.shape.map (paddedSide p)).prod : ℕ) := by
  rw [Real.one_le_sqrt]
  have : 0 < (p.shape.map (paddedSide p)).prod := by
    refine List.prod_pos ?_
    intro k hk
    obtain ⟨n, hn, rfl⟩ := List.mem_map.1 hk
    simpa using side_pos hv (hside n hn) (Nat.zero_le p.steps)
  exact_mod_cast this

/-- C107 for `ThresholdAbsDenoiseAlgorithm<float>(a, b)`, computed in `float` too: what it removes is at most the largest threshold `T` per entry. -/
theorem C107_threshold (r : Rounding) (hr : r.IEEE) (o : FloatOps) (ho : o.Correct r) (e : Ext) (hcod : CodecsWork e truncBits)
    (Mem : ℕ) (hroom : Room e Mem) (level : ℕ) (h24 : level ≤ 24) (old : Bytes) (b : Buffer F32) (hb : WellFormed b) (hw : b.params.wtype ≤ 5)
    (hK : b.params.steps ≤ 2000) (hside : ∀ n ∈ b.params.shape, 0 < n ∧ n < 2 ^ 64) (hch : 0 < b.params.signalNumber)
    (hch64 : b.params.signalNumber < 2 ^ 64) (hsub : b.params.signalNumber * subbandCount b.params ≤ Mem)
    (hN : (b.params.shape.map (paddedSide b.params)).prod < 2 ^ 31) (hNM : (b.params.shape.map (paddedSide b.params)).prod ≤ Mem)
    (a c : F32) (ha : finiteBits a) (hc : finiteBits c) (T : ℝ) (hT0 : 0 ≤ T)
    (hT : ∀ s < b.params.steps, |((number a : ℚ) : ℝ)| * s + |((number c : ℚ) : ℝ)| ≤ T)
    (data : List (Mat F32)) (hd : IsSignal b.params data) (M : ℝ) (hM0 : 0 ≤ M)
    (hM : ∀ x ∈ data, ∀ i < x.rows, ∀ j < x.cols, finiteBits (x.get i j) ∧ |((number (x.get i j) : ℚ) : ℝ)| ≤ M)
    (hΩ : Real.sqrt ((b.params.shape.map (paddedSide b.params)).prod : ℕ) * (13 * M + 8 * T + 3) ≤ maxFloat) :
    ReturnsWithin r o e Mem level old b (bitsThreshold o a c) data
      (9 * (b.params.wtype + 2) * (b.params.shape.length * b.params.steps) / 2 ^ 24 * M +
        9 * b.params.wtype * (b.params.shape.length * b.params.steps) / 2 ^ 150 + lossOf level * (103 / 100 * M + 1 / 2 ^ 124) +
        (1 + lossOf level) * (104 / 100 * T + 1 / 2 ^ 147)) := by
  have h1 := one_le_sqrt_padded hb.1 fun n hn => (hside n hn).1
  have hL0 := lossOf_nonneg level
  have hT2 : T ≤ 2 ^ 126 := by
    have : 1 * (13 * M + 8 * T + 3) ≤ Real.sqrt ((b.params.shape.map (paddedSide b.params)).prod : ℕ) * (13 * M + 8 * T + 3) :=
      mul_le_mul_of_nonneg_right h1 (by positivity)
    have h2 : maxFloat ≤ 2 ^ 128 := by simp only [maxFloat]; norm_num
    linarith
  have k := C107_any_denoiser r hr o ho e hcod Mem hroom level h24 old b hb hw hK hside hch hch64 hsub hN hNM (bitsThreshold o a c) 0
    ((1 + 1 / 2 ^ 22) * T + 1 / 2 ^ 148) le_rfl (by norm_num) (by positivity)
    (threshold_moves hr ho ha hc (by omega) hT0 hT hT2) data hd M hM0 hM
    (le_trans (mul_le_mul_of_nonneg_left (by linarith) (Real.sqrt_nonneg _)) hΩ)
  refine k.mono ?_
  have := mul_le_mul_of_nonneg_left (show 103 / 100 * ((1 + 1 / 2 ^ 22) * T + 1 / 2 ^ 148) ≤ 104 / 100 * T + 1 / 2 ^ 147 by linarith)
    (show 0 ≤ 1 + lossOf level by linarith)
  linarith

/-- C107 for `SimpleDenoiseAlgorithm<float>(l)`, computed in `float` too: `l` is a finite float between 0 and 1; what it removes of each subband is at
most the share `√l` of the root of the sum of squares. -/
theorem C107_simple (r : Rounding) (hr : r.IEEE) (o : FloatOps) (ho : o.Correct r) (e : Ext) (hcod : CodecsWork e truncBits)
    (Mem : ℕ) (hroom : Room e Mem) (level : ℕ) (h24 : level ≤ 24) (old : Bytes) (b : Buffer F32) (hb : WellFormed b) (hw : b.params.wtype ≤ 5)
    (hK : b.params.steps ≤ 2000) (hside : ∀ n ∈ b.params.shape, 0 < n ∧ n < 2 ^ 64) (hch : 0 < b.params.signalNumber)
    (hch64 : b.params.signalNumber < 2 ^ 64) (hsub : b.params.signalNumber * subbandCount b.params ≤ Mem)
    (hN : (b.params.shape.map (paddedSide b.params)).prod < 2 ^ 31) (hNM : (b.params.shape.map (paddedSide b.params)).prod ≤ Mem)
    (nth1 : List (F32 × ℕ) → ℕ → List (F32 × ℕ)) (nth2 : List (F32 × ℕ × ℕ) → ℕ → List (F32 × ℕ × ℕ)) (hnth : NthOkBits o nth1 nth2)
    (l : F32) (hl : finiteBits l) (h0 : (0 : ℝ) ≤ (number l : ℚ)) (h1 : ((number l : ℚ) : ℝ) ≤ 1) (den : Denoiser F32)
    (hden : IsSimpleBits o (bitsSimple o nth1 nth2) l den)
    (data : List (Mat F32)) (hd : IsSignal b.params data) (M : ℝ) (hM0 : 0 ≤ M)
    (hM : ∀ x ∈ data, ∀ i < x.rows, ∀ j < x.cols, finiteBits (x.get i j) ∧ |((number (x.get i j) : ℚ) : ℝ)| ≤ M)
    (hΩ : Real.sqrt ((b.params.shape.map (paddedSide b.params)).prod : ℕ) * (13 * M + 2) ≤ maxFloat) :
    ReturnsWithin r o e Mem level old b den data
      (9 * (b.params.wtype + 2) * (b.params.shape.length * b.params.steps) / 2 ^ 24 * M +
        9 * b.params.wtype * (b.params.shape.length * b.params.steps) / 2 ^ 150 +
        (Real.sqrt (number l : ℚ) + lossOf level * (1 + Real.sqrt (number l : ℚ))) * (104 / 100 * M + 1 / 2 ^ 123)) := by
  have hL0 := lossOf_nonneg level
  have hs0 := Real.sqrt_nonneg ((number l : ℚ) : ℝ)
  have hs1 : Real.sqrt ((number l : ℚ) : ℝ) ≤ 1 := Real.sqrt_le_one.2 h1
  have k := C107_any_denoiser r hr o ho e hcod Mem hroom level h24 old b hb hw hK hside hch hch64 hsub hN hNM den
    (Real.sqrt (number l : ℚ) * (1 + 1 / 2 ^ 22)) 0 (by positivity) (by linarith) le_rfl
    (simple_moves hr ho hnth hl h0 h1 hden (by omega)) data hd M hM0 hM (by simpa using hΩ)
  refine k.mono ?_
  set s := Real.sqrt ((number l : ℚ) : ℝ)
  have e1 : s * (1 + 1 / 2 ^ 22) + lossOf level * (1 + s * (1 + 1 / 2 ^ 22)) ≤ (s + lossOf level * (1 + s)) * (1 + 1 / 2 ^ 22) := by linarith
  have e2 := mul_le_mul_of_nonneg_right e1 (show 0 ≤ 103 / 100 * M + 1 / 2 ^ 124 by positivity)
  have e3 := mul_le_mul_of_nonneg_left (show (1 + 1 / 2 ^ 22) * (103 / 100 * M + 1 / 2 ^ 124) ≤ 104 / 100 * M + 1 / 2 ^ 123 by linarith)
    (show 0 ≤ s + lossOf level * (1 + s) by positivity)
  linarith

/-- A `std::nth_element` that sorts. -/
noncomputable def sortFloats {δ : Type} (v : List (F32 × δ)) (_ : ℕ) : List (F32 × δ) := v.insertionSort fun a b => number b.1 ≤ number a.1

theorem sortFloats_contract {o : FloatOps} {δ : Type} (v : List (F32 × δ)) (n : ℕ) : NthContract (α := Bits o) Prod.fst v n (sortFloats v n) := by
  refine ⟨List.perm_insertionSort _ _, ?_⟩
  intro i j x y hi hj hx hy
  have htot : Std.Total (fun a b : F32 × δ => number b.1 ≤ number a.1) := ⟨fun a b => le_total _ _⟩
  have htr : IsTrans (F32 × δ) (fun a b => number b.1 ≤ number a.1) := ⟨fun a b c h1 h2 => le_trans h2 h1⟩
  have hs := List.pairwise_insertionSort (fun a b : F32 × δ => number b.1 ≤ number a.1) v
  obtain ⟨h1, rfl⟩ := List.getElem?_eq_some_iff.1 hx
  obtain ⟨h2, rfl⟩ := List.getElem?_eq_some_iff.1 hy
  have := List.pairwise_iff_getElem.1 hs i j h1 h2 (by omega)
  exact fun h => absurd h.2.2 (not_lt.2 this)

/-- The simple denoiser with that `std::nth_element`; where the run is undefined, or would change the size, the subband is left alone. -/
noncomputable def simpleFloat (o : FloatOps) (l : F32) : Denoiser F32 :=
  ⟨fun v _ => match simple1 (bitsSimple o sortFloats sortFloats) l v with | .ok r => if r.length = v.length then r else v | _ => v,
   fun m _ => match simple2 (bitsSimple o sortFloats sortFloats) l m with | .ok r => if r.rows = m.rows ∧ r.cols = m.cols then r else m | _ => m⟩

/-- All hypotheses of C107 about the denoiser can be met. -/
theorem simpleFloat_ok {r : Rounding} (hr : r.IEEE) {o : FloatOps} (ho : o.Correct r) {l : F32} (hl : finiteBits l) (h0 : (0 : ℝ) ≤ (number l : ℚ))
    (h1 : ((number l : ℚ) : ℝ) ≤ 1) :
    NthOkBits o sortFloats sortFloats ∧ IsSimpleBits o (bitsSimple o sortFloats sortFloats) l (simpleFloat o l) := by
  have hn : NthOkBits o sortFloats sortFloats := ⟨fun v n _ _ => sortFloats_contract v n, fun v n _ _ => sortFloats_contract v n⟩
  refine ⟨hn, ⟨?_, ?_⟩, ?_, ?_⟩
  · intro v s
    simp only [simpleFloat]
    split
    · rename_i r' _
      by_cases h : List.length r' = v.length
      · exact (congrArg List.length (if_pos h)).trans h
      · exact congrArg List.length (if_neg h)
    · rfl
  · intro m s
    simp only [simpleFloat]
    split
    · rename_i r' _
      by_cases h : Mat.rows r' = m.rows ∧ Mat.cols r' = m.cols
      · exact ⟨(congrArg Mat.rows (if_pos h)).trans h.1, (congrArg Mat.cols (if_pos h)).trans h.2⟩
      · exact ⟨congrArg Mat.rows (if_neg h), congrArg Mat.cols (if_neg h)⟩
    · exact ⟨rfl, rfl⟩
  · intro v s r' hv hf h
    obtain ⟨cut, c1, _⟩ := cut_float hr ho hl h0 h1 hv
    obtain ⟨r2, e2, hk⟩ := simple1_of (bitsSimple o sortFloats sortFloats) l v cut (fun x => ¬ isNaN x) (fun x hx => not_nan (finite_abs (hf x hx))) c1 hn.1
    rw [h] at e2
    injection e2 with e
    subst e
    have hlen : List.length r' = List.length v := by simpa using hk.rows
    simp only [simpleFloat, h]
    exact if_pos hlen
  · intro m s r' hm hf h
    obtain ⟨cut, c1, _⟩ := cut_float hr ho hl h0 h1 hm
    obtain ⟨r2, e2, hk⟩ := simple2_of (bitsSimple o sortFloats sortFloats) l m cut (fun x => ¬ isNaN x)
      (fun i hi j hj => not_nan (finite_abs (hf i hi j hj))) c1 hn.2
    rw [h] at e2
    injection e2 with e
    subst e
    simp only [simpleFloat, h]
    exact if_pos ⟨hk.rows, hk.cols⟩

/-- A 1024 × 1024 picture of finite floats between -1 and 1, five steps of the fifth wavelet, level 10, the codecs of `exExt`; `SimpleDenoiseAlgorithm`
with the level 1/100, and `ThresholdAbsDenoiseAlgorithm` with `a = 0` and `b = 1/1024`. The picture read back differs by at most 0.11 and 0.0013 per pixel
in the root mean square. -/
example (r : Rounding) (hr : r.IEEE) (o : FloatOps) (ho : o.Correct r) (f : ℕ → ℕ → F32) (hf : ∀ i j, finiteBits (f i j))
    (h1 : ∀ i j, |((number (f i j) : ℚ) : ℝ)| ≤ 1) :
    let p : Params := ⟨[1024, 1024], 1, 5, 5⟩
    ReturnsWithin r o exExt (2 ^ 40) 10 [] ⟨p, [List.replicate 16 Mat.empty]⟩ (simpleFloat o 0x3c23d70a#32) [Mat.ofFn 1024 1024 f] (11 / 100) ∧
    ReturnsWithin r o exExt (2 ^ 40) 10 [] ⟨p, [List.replicate 16 Mat.empty]⟩ (bitsThreshold o 0#32 0x3a800000#32) [Mat.ofFn 1024 1024 f] (13 / 10000) := by
  intro p
  have hN : Real.sqrt ((p.shape.map (paddedSide p)).prod : ℕ) = 1024 := by
    rw [show (p.shape.map (paddedSide p)).prod = 1024 * 1024 by decide, Nat.cast_mul]
    exact Real.sqrt_mul_self (x := 1024) (by norm_num)
  have hNe : (p.shape.map (paddedSide p)).prod = 1024 * 1024 := by decide
  have hwf : WellFormed (Buffer.mk p [List.replicate 16 Mat.empty] : Buffer F32) :=
    ⟨⟨by simp [p], by simp [p], by simp [p]⟩, by simp [p], by simp [p, subbandCount, detailsPerStep]⟩
  have hdata : ∀ x ∈ [Mat.ofFn 1024 1024 f], ∀ i < x.rows, ∀ j < x.cols, finiteBits (x.get i j) ∧ |((number (x.get i j) : ℚ) : ℝ)| ≤ 1 := by
    intro x hx i hi j hj
    rw [List.mem_singleton] at hx
    subst hx
    simp only [Mat.rows_ofFn, Mat.cols_ofFn] at hi hj
    rw [Mat.get_ofFn hi hj]
    exact ⟨hf i j, h1 i j⟩
  have hL : lossOf 10 = 1 / 2 ^ 14 := by
    rw [lossOf, if_neg (by norm_num)]
    norm_num
  have n1 : number 0x3c23d70a#32 = 10737418 / 2 ^ 30 := by norm_num [number, magnitude]
  have n2 : number 0x3a800000#32 = 1 / 1024 := by norm_num [number, magnitude]
  have hs : Real.sqrt ((number 0x3c23d70a#32 : ℚ) : ℝ) ≤ 1 / 10 := by
    rw [n1]
    refine Real.sqrt_le_iff.2 ⟨by norm_num, by norm_num⟩
  constructor
  · have hl : finiteBits 0x3c23d70a#32 := by unfold finiteBits; decide
    obtain ⟨k1, k2⟩ := simpleFloat_ok hr ho hl (by rw [n1]; norm_num) (by rw [n1]; norm_num)
    refine (C107_simple r hr o ho exExt (exTrunc_eq ▸ exExt_works) (2 ^ 40) (fun _ _ _ => rfl) 10 (by norm_num) [] (Buffer.mk p [List.replicate 16 Mat.empty]) hwf
      (by simp [p]) (by simp [p]) (by simp [p]) (by simp [p]) (by simp [p]) (by simp [p, subbandCount, detailsPerStep])
      (by show (p.shape.map (paddedSide p)).prod < _; rw [hNe]; norm_num) (by show (p.shape.map (paddedSide p)).prod ≤ _; rw [hNe]; norm_num) _ _ k1 _ hl
      (by rw [n1]; norm_num) (by rw [n1]; norm_num) _ k2 _ ⟨by simp [p], by simp [p, HasShape]⟩ 1 (by norm_num) hdata
      (by rw [hN]; simp only [maxFloat]; norm_num)).mono ?_
    rw [hL]
    simp only [p, List.length_cons, List.length_nil]
    generalize Real.sqrt ((number 0x3c23d70a#32 : ℚ) : ℝ) = s at hs
    norm_num
    linarith
  · refine (C107_threshold r hr o ho exExt (exTrunc_eq ▸ exExt_works) (2 ^ 40) (fun _ _ _ => rfl) 10 (by norm_num) [] (Buffer.mk p [List.replicate 16 Mat.empty]) hwf
      (by simp [p]) (by simp [p]) (by simp [p]) (by simp [p]) (by simp [p]) (by simp [p, subbandCount, detailsPerStep])
      (by show (p.shape.map (paddedSide p)).prod < _; rw [hNe]; norm_num) (by show (p.shape.map (paddedSide p)).prod ≤ _; rw [hNe]; norm_num) _ _ finite_zero
      (by unfold finiteBits; decide) (1 / 1024) (by norm_num) (by intro s _; rw [n2, number_zero]; norm_num) _ ⟨by simp [p], by simp [p, HasShape]⟩ 1
      (by norm_num) hdata (by rw [hN]; simp only [maxFloat]; norm_num)).mono ?_
    rw [hL]
    simp only [p, List.length_cons, List.length_nil]
    norm_num

end WB.Props
