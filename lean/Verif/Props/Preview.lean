import Verif.Proof.Preview

/-!
C112: scaled previews from the archive, on the stored bit patterns.
-/

namespace WB.Props

open Finset Spec

/-- `Decompose` with `den`, `Serialize` over the bytes `old`, `Parse` of an archive of at most `Mem` bytes and `Compose` at the scale `s` all succeed, in
the IEEE operations `o`. So do `Decompose` without denoiser and `Compose` at the same scale in exact arithmetic, for any buffer of the same
parameters. The channels that come out have the declared shape divided by `2^s`, those of the first run are finite, and the two runs differ by at most
`bound` in the root of the sum of squares of a channel. -/
def PreviewWithin (r : Rounding) (o : FloatOps) (e : Ext) (Mem level : ℕ) (old : Bytes) (b : Buffer F32) (den : Denoiser F32)
    (data : List (Mat F32)) (s : ℕ) (bound : ℝ) : Prop :=
  ∃ d blob d' out, Buffer.decompose (α := Bits o) (bitsKit r o) b data den = .ok d true ∧
    serialize e ⟨b.params, d⟩ old level = .ok (true, blob) ∧
    (blob.length ≤ Mem → parse e blob = .ok (some ⟨b.params, d'⟩)) ∧
    Buffer.compose (α := Bits o) (bitsKit r o) ⟨b.params, d'⟩ s = .ok out ∧ out.length = data.length ∧
    ∀ bR : Buffer ℝ, WellFormed bR → bR.params = b.params →
      ∃ dR outR, bR.decompose codeKit (data.map matNumbers) nullDenoiser = .ok dR true ∧
        (Buffer.mk b.params dR).compose codeKit s = .ok outR ∧ outR.length = data.length ∧
        ∀ (n : ℕ) (y : Mat F32) (z : Mat ℝ), out[n]? = some y → outR[n]? = some z →
          HasShape (b.params.shape.map (· / 2 ^ s)) y ∧ HasShape (b.params.shape.map (· / 2 ^ s)) z ∧
          (∀ i < y.rows, ∀ j < y.cols, finiteBits (y.get i j)) ∧ Real.sqrt (sqDist (matNumbers y) z) ≤ bound

theorem PreviewWithin.mono {r : Rounding} {o : FloatOps} {e : Ext} {Mem level : ℕ} {old : Bytes} {b : Buffer F32} {den : Denoiser F32}
    {data : List (Mat F32)} {s : ℕ} {t u : ℝ} (h : PreviewWithin r o e Mem level old b den data s t) (htu : t ≤ u) :
    PreviewWithin r o e Mem level old b den data s u := by
  obtain ⟨d, blob, d', out, h1, h2, h3, h4, h5, h6⟩ := h
  refine ⟨d, blob, d', out, h1, h2, h3, h4, h5, fun bR hw hp => ?_⟩
  obtain ⟨dR, outR, k1, k2, k3, k4⟩ := h6 bR hw hp
  refine ⟨dR, outR, k1, k2, k3, fun n y z hy hz => ?_⟩
  obtain ⟨y1, y2, y3, y4⟩ := k4 n y z hy hz
  exact ⟨y1, y2, y3, y4.trans htu⟩

theorem outP_size {α : Type} [Zero α] [Add α] [Mul α] [Neg α] [Inhabited α] {k : Kit α} {p : Params} (hv : ValidParams p) (hk : FilterLen k p) {s : ℕ}
    (hs : s ≤ p.steps) {c : Channel α} (hc : SizedChan p c) :
    (outP k p s c).rows = matRows (p.shape.map (· / 2 ^ s)) ∧ (outP k p s c).cols = matCols (p.shape.map (· / 2 ^ s)) := by
  have fit := (composeChannel_ok hv hk (d := [c]) (ch := 0) hs (by simp) hc).2
  simp only [List.getD, List.getElem?_cons_zero, Option.getD_some] at fit
  exact finishP_size (k := k) hv hs fit

theorem hasShape_of {α : Type} {p : Params} (hv : ValidParams p) {s : ℕ} {m : Mat α} (h1 : m.rows = matRows (p.shape.map (· / 2 ^ s)))
    (h2 : m.cols = matCols (p.shape.map (· / 2 ^ s))) : HasShape (p.shape.map (· / 2 ^ s)) m := by
  rcases dim_cases hv with h | h
  · obtain ⟨a, ha⟩ := List.length_eq_one_iff.1 h
    rw [ha] at h1 h2 ⊢
    exact ⟨h1, h2⟩
  · obtain ⟨a, c, ha⟩ := List.length_eq_two.1 h
    rw [ha] at h1 h2 ⊢
    exact ⟨h1, h2⟩

set_option maxHeartbeats 2000000 in
/-- C112, for any denoiser that changes a subband by at most a share `A` of its root of the sum of squares and `B` per entry. Samples as bit patterns,
every operation in IEEE `float`: a signal is decomposed with the denoiser, serialized with a level up to 24, parsed and composed at any scale `s`. Every step
succeeds, nothing is infinite or NaN, and the preview differs from the one that exact arithmetic computes from the signal itself by at most the bound
given. Dividing by the root of the number of samples of the (padded) preview, which is `√N / √2^(D s)`, gives the root mean square: the bound is the one
of C107 for the whole signal, and `2^-22` and `2^-149` from the division by the gain. -/
theorem C112_any_denoiser (r : Rounding) (hr : r.IEEE) (o : FloatOps) (ho : o.Correct r) (e : Ext) (hcod : CodecsWork e truncBits)
    (Mem : ℕ) (hroom : Room e Mem) (level : ℕ) (h24 : level ≤ 24) (old : Bytes) (b : Buffer F32) (hb : WellFormed b) (hw : b.params.wtype ≤ 5)
    (hK : b.params.steps ≤ 2000) (hside : ∀ n ∈ b.params.shape, 0 < n ∧ n < 2 ^ 64) (hch : 0 < b.params.signalNumber)
    (hch64 : b.params.signalNumber < 2 ^ 64) (hsub : b.params.signalNumber * subbandCount b.params ≤ Mem)
    (hN : (b.params.shape.map (paddedSide b.params)).prod < 2 ^ 31) (hNM : (b.params.shape.map (paddedSide b.params)).prod ≤ Mem)
    (s : ℕ) (hs : s ≤ b.params.steps) (den : Denoiser F32) (A B : ℝ) (hA : 0 ≤ A) (hA1 : A ≤ 101 / 100) (hB : 0 ≤ B)
    (hden : MovesLittle (b.params.shape.map (paddedSide b.params)).prod b.params.steps A B den)
    (data : List (Mat F32)) (hd : IsSignal b.params data) (M : ℝ) (hM0 : 0 ≤ M)
    (hM : ∀ x ∈ data, ∀ i < x.rows, ∀ j < x.cols, finiteBits (x.get i j) ∧ |((number (x.get i j) : ℚ) : ℝ)| ≤ M)
    (hΩ : Real.sqrt ((b.params.shape.map (paddedSide b.params)).prod : ℕ) * (13 * M + 7 * B + 2) ≤ maxFloat) :
    PreviewWithin r o e Mem level old b den data s
      (Real.sqrt ((b.params.shape.map (paddedSide b.params)).prod : ℕ) *
        (91 / 10 * (b.params.wtype + 2) * (b.params.shape.length * b.params.steps) / 2 ^ 24 * M +
          10 * (b.params.wtype + 2) * (b.params.shape.length * b.params.steps) / 2 ^ 150 +
          ((A + lossOf level * (1 + A)) * (104 / 100 * M + 1 / 2 ^ 124) + 103 / 100 * (1 + lossOf level) * B)) /
          Real.sqrt 2 ^ (b.params.shape.length * s) +
        (if s = 0 then 0 else Real.sqrt ((b.params.shape.map (paddedSide b.params)).prod : ℕ) *
          (1 / 2 ^ 22 * (42 / 10 * M + 21 / 10 * B + 1 / 50) / Real.sqrt 2 ^ (b.params.shape.length * s) + 1 / 2 ^ 149))) := by
  unfold PreviewWithin
  have hv := hb.1
  have hkR := codeKit_present (p := b.params) (by omega)
  have hkF := bitsKit_present (r := r) (o := o) (p := b.params) (by omega)
  have hszd : Denoiser.Sized (α := Bits o) den := hden.keeps
  have c1 := decompose_ok (α := Bits o) (den := den) hb hkF hch hd (fun _ => hszd)
  rw [← padSize_eq hv] at hΩ hN hNM hden ⊢
  set p := b.params with hp
  have hw0 : 0 ≤ Real.sqrt (padSize p) := Real.sqrt_nonneg _
  have hq0 : 0 ≤ Real.sqrt (padSize p) * M := mul_nonneg hw0 hM0
  have hL0 := lossOf_nonneg level
  have hL1 := lossOf_le h24
  obtain ⟨F, hF⟩ : ∃ F : Mat F32 → Channel F32, ∀ x, F x = chanP (α := Bits o) p (scaling (bitsKit r o) p) den x := ⟨_, fun _ => rfl⟩
  obtain ⟨G, hG⟩ : ∃ G : Channel F32 → Mat F32, ∀ c, G c = outP (α := Bits o) (bitsKit r o) p s c := ⟨_, fun _ => rfl⟩
  obtain ⟨d, hdd⟩ : ∃ d : Decs F32, d = data.map F := ⟨_, rfl⟩
  have c1 : Buffer.decompose (α := Bits o) (bitsKit r o) b data den = .ok d true := by
    rw [hdd, show F = _ from funext hF]
    exact c1
  have hdlen : d.length = data.length := by rw [hdd]; simp
  have sz : ∀ c ∈ d, SizedChan p c := by
    intro c hc
    rw [hdd, List.mem_map] at hc
    obtain ⟨x, hx, rfl⟩ := hc
    rw [hF]
    exact chanP_sized (α := Bits o) hv hszd (shaped_of (hd.2 x hx))
  have hΩ1 : Real.sqrt (padSize p) * (3 * M + 1) ≤ maxFloat := by nlinarith
  have tot := fun x (hx : x ∈ data) => bits_total hr ho hv hw hK (shaped_of (hd.2 x hx)) hM0 (hM x hx) hΩ1
  have hbD : WellFormed (Buffer.mk p d) := by
    refine ⟨hv, by rw [hdlen]; exact hd.1, fun c hc => ?_⟩
    rw [(sz c hc).1]
    rfl
  have msize : ∀ c ∈ d, ∀ m ∈ c, 0 < m.rows * m.cols ∧ m.rows * m.cols ≤ padSize p := by
    intro c hc m hm
    obtain ⟨s, hs, hf⟩ := mem_fits (sz c hc) hm
    exact ⟨fits_pos hv (fun n hn => (hside n hn).1) hs hf, size_le hf⟩
  have hfit : FitsFormat (Buffer.mk p d) := by
    refine ⟨fun n hn => (hside n hn).2, hch64, by show p.wtype < 8; omega, fun c hc m hm => ?_⟩
    obtain ⟨h1, h2⟩ := msize c hc m hm
    have h3 : m.rows * m.cols < 2 ^ 31 := by omega
    constructor
    · exact lt_of_le_of_lt (Nat.le_mul_of_pos_right _ (Nat.pos_of_mul_pos_left h1)) (h3.trans (by norm_num))
    · exact lt_of_le_of_lt (Nat.le_mul_of_pos_left _ (Nat.pos_of_mul_pos_right h1)) (h3.trans (by norm_num))
  obtain ⟨blob, d', a1, a2, a3⟩ := archive_changes e Mem level (Buffer.mk p d) old hbD hfit hcod
    (fun c hc m hm => ⟨(msize c hc m hm).1, lt_of_le_of_lt (msize c hc m hm).2 hN⟩) hroom ⟨hsub, fun c hc m hm => (msize c hc m hm).2.trans hNM⟩ h24
  have a3 : List.Forall₂ _ d d' := a3
  have hl : d'.length = d.length := a3.length_eq.symm
  have z1 : ∀ c' ∈ d', SizedChan p c' := by
    intro c' hc'
    obtain ⟨n, hn, rfl⟩ := List.mem_iff_getElem.1 hc'
    have g := a3.get (by omega) hn
    refine (sized_iff hv _).2 (prescribed_congr (g.imp fun _ _ g => ⟨g.1.1, g.1.2.1⟩) ((sized_iff hv _).1 (sz _ (List.getElem_mem (by omega)))))
  have hlen : d'.length = data.length := by rw [hl, hdlen]
  have c2 : Buffer.compose (α := Bits o) (bitsKit r o) ⟨p, d'⟩ s = .ok (d'.map G) := by
    rw [show G = _ from funext hG]
    exact compose_ok (α := Bits o) (b := ⟨p, d'⟩) hv (by show d'.length = _; rw [hlen]; exact hd.1) hkF z1 hs
  refine ⟨d, blob, d', d'.map G, c1, a1, a2, c2, (List.length_map _).trans hlen, ?_⟩
  intro bR hbR hpR
  have hdR : IsSignal p (data.map matNumbers) := isSignal_val (fun x : F32 => ((number x : ℚ) : ℝ)) hv hd
  have c3 := decompose_ok hbR (k := codeKit) (by rw [hpR]; exact hkR) (by rw [hpR]; exact hch) (data := data.map matNumbers)
    (by rw [hpR]; exact hdR) (fun _ => nullDenoiser_sized)
  rw [hpR] at c3
  have zR : ∀ c ∈ (data.map matNumbers).map (chanP p (scaling codeKit p) nullDenoiser), SizedChan p c := by
    intro c hc
    rw [List.mem_map] at hc
    obtain ⟨x, hx, rfl⟩ := hc
    exact chanP_sized hv nullDenoiser_sized (shaped_of (hdR.2 x hx))
  have c4 := compose_ok (k := codeKit) (b := ⟨p, (data.map matNumbers).map (chanP p (scaling codeKit p) nullDenoiser)⟩) hv
    (by simpa using hd.1) hkR zR hs
  refine ⟨_, _, c3, c4, by simp, ?_⟩
  intro n y z hy hz
  have hz' : ∃ x, data[n]? = some x ∧ z = outP codeKit p s (chanP p (scaling codeKit p) nullDenoiser (matNumbers x)) := by
    simp only [List.getElem?_map] at hz
    match hx : data[n]?, hz with
    | some x, hz =>
      simp only [Option.map_some, Option.some.injEq] at hz
      exact ⟨x, rfl, hz.symm⟩
  obtain ⟨x, hn, rfl⟩ := hz'
  have hmem := List.mem_of_getElem? hn
  obtain ⟨hn1, hn2⟩ := List.getElem?_eq_some_iff.1 hn
  have hnl : n < d'.length := by omega
  have hnd : n < d.length := by omega
  have hc' : d'[n]? = some d'[n] := List.getElem?_eq_getElem hnl
  have hmem' := List.getElem_mem hnl
  have hdn : d[n] = chanP (α := Bits o) p (scaling (bitsKit r o) p) den x := by
    rw [← hF]
    simp [hdd, hn2]
  have g := a3.get hnd hnl
  simp only [List.get_eq_getElem] at g
  rw [hdn] at g
  have hxs := shaped_of (hd.2 x hmem)
  have szF := sized_VL (sc := bitsScalars hr ho) (chanP_sized (k := bitsKit r o) hv nullDenoiser_sized hxs)
  have szD := sized_VL (sc := bitsScalars hr ho) (chanP_sized (α := Bits o) (k := bitsKit r o) hv hszd hxs)
  have szC := sized_VL (sc := bitsScalars hr ho) (z1 _ hmem')
  obtain ⟨t1, t2⟩ := tot x hmem
  have kd := chan_kept hden hv (bitsKit r o) hxs t1
  set E : ℝ := 101 / 100 * M + 1 / 2 ^ 130 with hE
  have hE0 : 0 ≤ E := by positivity
  have p1 := kept_apart hv szF szD hA hB (kd.imp fun _ _ g => g.1) t2
  have p2 := kept_apart hv szD szC hL0 (show (0 : ℝ) ≤ lossOf level / 2 ^ 126 by positivity) (g.imp fun _ _ g => g.1)
    ((total_le szD szF).trans (add_le_add p1 t2))
  set P : ℝ := (A + lossOf level * (1 + A)) * E + (1 + lossOf level) * B + lossOf level / 2 ^ 126 with hP
  have hP0 : 0 ≤ P := by positivity
  have dist : apart p (VL (bitsScalars hr ho) d'[n]) (VL (bitsScalars hr ho) (chanP (α := Bits o) p (scaling (bitsKit r o) p) nullDenoiser x)) ≤
      Real.sqrt (padSize p) * P := by
    refine (apart_tri szC szD szF).trans ((add_le_add p2 p1).trans (le_of_eq ?_))
    rw [hP]
    ring
  have hfin : ∀ m ∈ d'[n], FinV (bitsScalars hr ho) m := by
    intro m hm
    obtain ⟨i, hi, rfl⟩ := List.mem_iff_getElem.1 hm
    have hi' : i < (chanP (α := Bits o) p (scaling (bitsKit r o) p) den x).length := lt_of_lt_of_eq hi g.length_eq.symm
    have hi2 : i < (chanP (α := Bits o) p (scaling (bitsKit r o) p) nullDenoiser x).length := lt_of_lt_of_eq hi' kd.length_eq.symm
    exact (g.get hi' hi).2 (kd.get hi2 hi').2
  have hP3 : P ≤ 306 / 100 * M + 2 * B + 1 / 1000 := by
    have h1 : A + lossOf level * (1 + A) ≤ 302 / 100 := by nlinarith
    have h2 := mul_le_mul_of_nonneg_right h1 hE0
    have h3 : (1 + lossOf level) * B ≤ 2 * B := mul_le_mul_of_nonneg_right (by linarith) hB
    rw [hE] at h2
    rw [hP, hE]
    linarith
  have hGn : (d'.map G)[n]? = some (outP (α := Bits o) (bitsKit r o) p s d'[n]) := by
    rw [← hG, List.getElem?_map, hc']
    rfl
  have hyG : y = outP (α := Bits o) (bitsKit r o) p s d'[n] := Option.some.inj (hy.symm.trans hGn)
  subst hyG
  obtain ⟨u1, u2, u3, u4⟩ := preview_channel hr ho hv hw hK hs hxs hM0 (hM x hmem) (z1 _ hmem') hfin hP0 dist (by
    refine (mul_le_mul_of_nonneg_left ?_ hw0).trans hΩ
    linarith)
  have sz1 := outP_size (k := codeKit) hv hkR hs (chanP_sized (k := codeKit) hv nullDenoiser_sized (show Shaped p (matNumbers x) from hxs))
  refine ⟨hasShape_of hv (u1.trans sz1.1) (u2.trans sz1.2), hasShape_of hv sz1.1 sz1.2, u3, ?_⟩
  have e1 := sqDist_nrm (x := matNumbers (outP (α := Bits o) (bitsKit r o) p s d'[n]))
    (y := outP codeKit p s (chanP p (scaling codeKit p) nullDenoiser (matNumbers x))) ⟨u1, u2⟩
  rw [e1]
  refine le_trans u4 (add_le_add (div_le_div_of_nonneg_right (mul_le_mul_of_nonneg_left ?_ hw0) (by positivity)) ?_)
  · have hAL : 0 ≤ A + lossOf level * (1 + A) := by positivity
    have h1 : 102 / 100 * E + 102 / 100 / 2 ^ 126 ≤ 104 / 100 * M + 1 / 2 ^ 124 := by
      rw [hE]
      linarith
    have h2 := mul_le_mul_of_nonneg_left h1 hAL
    have h3 : lossOf level * (102 / 100 / 2 ^ 126) ≤ (A + lossOf level * (1 + A)) * (102 / 100 / 2 ^ 126) :=
      mul_le_mul_of_nonneg_right (by nlinarith) (by positivity)
    have h4 : 0 ≤ (1 + lossOf level) * B := by positivity
    rw [hP]
    linarith
  · by_cases h0 : s = 0
    · rw [if_pos h0, if_pos h0]
    · rw [if_neg h0, if_neg h0]
      refine mul_le_mul_of_nonneg_left (add_le_add_left (div_le_div_of_nonneg_right (mul_le_mul_of_nonneg_left ?_ (by norm_num)) (by positivity)) _) hw0
      linarith

theorem null_moves (n K : ℕ) : MovesLittle n K 0 0 nullDenoiser := by
  refine ⟨nullDenoiser_sized, fun v s _ _ h => ⟨h, ?_⟩, fun m s _ _ h => ⟨h, ?_⟩⟩
  · show sqDist (matNumbers (Mat.ofCol v)) (matNumbers (Mat.ofCol v)) ≤ _
    simp [sqDist]
  · show sqDist (matNumbers m) (matNumbers m) ≤ _
    simp [sqDist]

theorem bound_mono {w g a b c d : ℝ} {s : ℕ} (hw : 0 ≤ w) (hg : 0 < g) (h1 : a ≤ b) (h2 : c ≤ d) :
    w * a / g + (if s = 0 then 0 else w * (1 / 2 ^ 22 * c / g + 1 / 2 ^ 149)) ≤ w * b / g + (if s = 0 then 0 else w * (1 / 2 ^ 22 * d / g + 1 / 2 ^ 149)) := by
  refine add_le_add (div_le_div_of_nonneg_right (mul_le_mul_of_nonneg_left h1 hw) hg.le) ?_
  split_ifs
  · exact le_rfl
  · refine mul_le_mul_of_nonneg_left (add_le_add_left (div_le_div_of_nonneg_right (mul_le_mul_of_nonneg_left h2 (by norm_num)) hg.le) _) hw

/-- C112 without denoising. -/
theorem C112_no_denoiser (r : Rounding) (hr : r.IEEE) (o : FloatOps) (ho : o.Correct r) (e : Ext) (hcod : CodecsWork e truncBits)
    (Mem : ℕ) (hroom : Room e Mem) (level : ℕ) (h24 : level ≤ 24) (old : Bytes) (b : Buffer F32) (hb : WellFormed b) (hw : b.params.wtype ≤ 5)
    (hK : b.params.steps ≤ 2000) (hside : ∀ n ∈ b.params.shape, 0 < n ∧ n < 2 ^ 64) (hch : 0 < b.params.signalNumber)
    (hch64 : b.params.signalNumber < 2 ^ 64) (hsub : b.params.signalNumber * subbandCount b.params ≤ Mem)
    (hN : (b.params.shape.map (paddedSide b.params)).prod < 2 ^ 31) (hNM : (b.params.shape.map (paddedSide b.params)).prod ≤ Mem)
    (s : ℕ) (hs : s ≤ b.params.steps)
    (data : List (Mat F32)) (hd : IsSignal b.params data) (M : ℝ) (hM0 : 0 ≤ M)
    (hM : ∀ x ∈ data, ∀ i < x.rows, ∀ j < x.cols, finiteBits (x.get i j) ∧ |((number (x.get i j) : ℚ) : ℝ)| ≤ M)
    (hΩ : Real.sqrt ((b.params.shape.map (paddedSide b.params)).prod : ℕ) * (13 * M + 2) ≤ maxFloat) :
    PreviewWithin r o e Mem level old b nullDenoiser data s
      (Real.sqrt ((b.params.shape.map (paddedSide b.params)).prod : ℕ) *
        (91 / 10 * (b.params.wtype + 2) * (b.params.shape.length * b.params.steps) / 2 ^ 24 * M +
          10 * (b.params.wtype + 2) * (b.params.shape.length * b.params.steps) / 2 ^ 150 +
          lossOf level * (104 / 100 * M + 1 / 2 ^ 124)) / Real.sqrt 2 ^ (b.params.shape.length * s) +
        (if s = 0 then 0 else Real.sqrt ((b.params.shape.map (paddedSide b.params)).prod : ℕ) *
          (1 / 2 ^ 22 * (42 / 10 * M + 1 / 50) / Real.sqrt 2 ^ (b.params.shape.length * s) + 1 / 2 ^ 149))) := by
  have k := C112_any_denoiser r hr o ho e hcod Mem hroom level h24 old b hb hw hK hside hch hch64 hsub hN hNM s hs nullDenoiser 0 0 le_rfl (by norm_num)
    le_rfl (null_moves _ _) data hd M hM0 hM (by simpa using hΩ)
  refine k.mono (bound_mono (Real.sqrt_nonneg _) (pow_pos (Real.sqrt_pos.2 (by norm_num)) _) (le_of_eq ?_) (le_of_eq ?_))
  · ring
  · ring

/-- C112 for `ThresholdAbsDenoiseAlgorithm<float>(a, b)`, computed in `float` too; `T` is the largest threshold. -/
theorem C112_threshold (r : Rounding) (hr : r.IEEE) (o : FloatOps) (ho : o.Correct r) (e : Ext) (hcod : CodecsWork e truncBits)
    (Mem : ℕ) (hroom : Room e Mem) (level : ℕ) (h24 : level ≤ 24) (old : Bytes) (b : Buffer F32) (hb : WellFormed b) (hw : b.params.wtype ≤ 5)
    (hK : b.params.steps ≤ 2000) (hside : ∀ n ∈ b.params.shape, 0 < n ∧ n < 2 ^ 64) (hch : 0 < b.params.signalNumber)
    (hch64 : b.params.signalNumber < 2 ^ 64) (hsub : b.params.signalNumber * subbandCount b.params ≤ Mem)
    (hN : (b.params.shape.map (paddedSide b.params)).prod < 2 ^ 31) (hNM : (b.params.shape.map (paddedSide b.params)).prod ≤ Mem)
    (s : ℕ) (hs : s ≤ b.params.steps) (a c : F32) (ha : finiteBits a) (hc : finiteBits c) (T : ℝ) (hT0 : 0 ≤ T)
    (hT : ∀ s < b.params.steps, |((number a : ℚ) : ℝ)| * s + |((number c : ℚ) : ℝ)| ≤ T)
    (data : List (Mat F32)) (hd : IsSignal b.params data) (M : ℝ) (hM0 : 0 ≤ M)
    (hM : ∀ x ∈ data, ∀ i < x.rows, ∀ j < x.cols, finiteBits (x.get i j) ∧ |((number (x.get i j) : ℚ) : ℝ)| ≤ M)
    (hΩ : Real.sqrt ((b.params.shape.map (paddedSide b.params)).prod : ℕ) * (13 * M + 8 * T + 3) ≤ maxFloat) :
    PreviewWithin r o e Mem level old b (bitsThreshold o a c) data s
      (Real.sqrt ((b.params.shape.map (paddedSide b.params)).prod : ℕ) *
        (91 / 10 * (b.params.wtype + 2) * (b.params.shape.length * b.params.steps) / 2 ^ 24 * M +
          10 * (b.params.wtype + 2) * (b.params.shape.length * b.params.steps) / 2 ^ 150 +
          (lossOf level * (104 / 100 * M + 1 / 2 ^ 124) + (1 + lossOf level) * (104 / 100 * T + 1 / 2 ^ 147))) / Real.sqrt 2 ^ (b.params.shape.length * s) +
        (if s = 0 then 0 else Real.sqrt ((b.params.shape.map (paddedSide b.params)).prod : ℕ) *
          (1 / 2 ^ 22 * (42 / 10 * M + 22 / 10 * T + 1 / 40) / Real.sqrt 2 ^ (b.params.shape.length * s) + 1 / 2 ^ 149))) := by
  have h1 := one_le_sqrt_padded hb.1 fun n hn => (hside n hn).1
  have hL0 := lossOf_nonneg level
  have hT2 : T ≤ 2 ^ 126 := by
    have : 1 * (13 * M + 8 * T + 3) ≤ Real.sqrt ((b.params.shape.map (paddedSide b.params)).prod : ℕ) * (13 * M + 8 * T + 3) :=
      mul_le_mul_of_nonneg_right h1 (by positivity)
    have h2 : maxFloat ≤ 2 ^ 128 := by simp only [maxFloat]; norm_num
    linarith
  have k := C112_any_denoiser r hr o ho e hcod Mem hroom level h24 old b hb hw hK hside hch hch64 hsub hN hNM s hs (bitsThreshold o a c) 0
    ((1 + 1 / 2 ^ 22) * T + 1 / 2 ^ 148) le_rfl (by norm_num) (by positivity)
    (threshold_moves hr ho ha hc (by omega) hT0 hT hT2) data hd M hM0 hM
    (le_trans (mul_le_mul_of_nonneg_left (by linarith) (Real.sqrt_nonneg _)) hΩ)
  refine k.mono (bound_mono (Real.sqrt_nonneg _) (pow_pos (Real.sqrt_pos.2 (by norm_num)) _) ?_ (by linarith))
  have := mul_le_mul_of_nonneg_left (show 103 / 100 * ((1 + 1 / 2 ^ 22) * T + 1 / 2 ^ 148) ≤ 104 / 100 * T + 1 / 2 ^ 147 by linarith)
    (show 0 ≤ 1 + lossOf level by linarith)
  linarith

/-- C112 for `SimpleDenoiseAlgorithm<float>(l)`, computed in `float` too. -/
theorem C112_simple (r : Rounding) (hr : r.IEEE) (o : FloatOps) (ho : o.Correct r) (e : Ext) (hcod : CodecsWork e truncBits)
    (Mem : ℕ) (hroom : Room e Mem) (level : ℕ) (h24 : level ≤ 24) (old : Bytes) (b : Buffer F32) (hb : WellFormed b) (hw : b.params.wtype ≤ 5)
    (hK : b.params.steps ≤ 2000) (hside : ∀ n ∈ b.params.shape, 0 < n ∧ n < 2 ^ 64) (hch : 0 < b.params.signalNumber)
    (hch64 : b.params.signalNumber < 2 ^ 64) (hsub : b.params.signalNumber * subbandCount b.params ≤ Mem)
    (hN : (b.params.shape.map (paddedSide b.params)).prod < 2 ^ 31) (hNM : (b.params.shape.map (paddedSide b.params)).prod ≤ Mem)
    (s : ℕ) (hs : s ≤ b.params.steps)
    (nth1 : List (F32 × ℕ) → ℕ → List (F32 × ℕ)) (nth2 : List (F32 × ℕ × ℕ) → ℕ → List (F32 × ℕ × ℕ)) (hnth : NthOkBits o nth1 nth2)
    (l : F32) (hl : finiteBits l) (h0 : (0 : ℝ) ≤ (number l : ℚ)) (h1 : ((number l : ℚ) : ℝ) ≤ 1) (den : Denoiser F32)
    (hden : IsSimpleBits o (bitsSimple o nth1 nth2) l den)
    (data : List (Mat F32)) (hd : IsSignal b.params data) (M : ℝ) (hM0 : 0 ≤ M)
    (hM : ∀ x ∈ data, ∀ i < x.rows, ∀ j < x.cols, finiteBits (x.get i j) ∧ |((number (x.get i j) : ℚ) : ℝ)| ≤ M)
    (hΩ : Real.sqrt ((b.params.shape.map (paddedSide b.params)).prod : ℕ) * (13 * M + 2) ≤ maxFloat) :
    PreviewWithin r o e Mem level old b den data s
      (Real.sqrt ((b.params.shape.map (paddedSide b.params)).prod : ℕ) *
        (91 / 10 * (b.params.wtype + 2) * (b.params.shape.length * b.params.steps) / 2 ^ 24 * M +
          10 * (b.params.wtype + 2) * (b.params.shape.length * b.params.steps) / 2 ^ 150 +
          (Real.sqrt (number l : ℚ) + lossOf level * (1 + Real.sqrt (number l : ℚ))) * (105 / 100 * M + 1 / 2 ^ 123)) / Real.sqrt 2 ^ (b.params.shape.length * s) +
        (if s = 0 then 0 else Real.sqrt ((b.params.shape.map (paddedSide b.params)).prod : ℕ) *
          (1 / 2 ^ 22 * (42 / 10 * M + 1 / 50) / Real.sqrt 2 ^ (b.params.shape.length * s) + 1 / 2 ^ 149))) := by
  have hL0 := lossOf_nonneg level
  have hs0 := Real.sqrt_nonneg ((number l : ℚ) : ℝ)
  have hs1 : Real.sqrt ((number l : ℚ) : ℝ) ≤ 1 := Real.sqrt_le_one.2 h1
  have k := C112_any_denoiser r hr o ho e hcod Mem hroom level h24 old b hb hw hK hside hch hch64 hsub hN hNM s hs den
    (Real.sqrt (number l : ℚ) * (1 + 1 / 2 ^ 22)) 0 (by positivity) (by linarith) le_rfl
    (simple_moves hr ho hnth hl h0 h1 hden (by omega)) data hd M hM0 hM (by simpa using hΩ)
  refine k.mono (bound_mono (Real.sqrt_nonneg _) (pow_pos (Real.sqrt_pos.2 (by norm_num)) _) ?_ (by linarith))
  generalize Real.sqrt ((number l : ℚ) : ℝ) = q at *
  have e1 : q * (1 + 1 / 2 ^ 22) + lossOf level * (1 + q * (1 + 1 / 2 ^ 22)) ≤ (q + lossOf level * (1 + q)) * (1 + 1 / 2 ^ 22) := by linarith
  have e2 := mul_le_mul_of_nonneg_right e1 (show 0 ≤ 104 / 100 * M + 1 / 2 ^ 124 by positivity)
  have e3 := mul_le_mul_of_nonneg_left (show (1 + 1 / 2 ^ 22) * (104 / 100 * M + 1 / 2 ^ 124) ≤ 105 / 100 * M + 1 / 2 ^ 123 by linarith)
    (show 0 ≤ q + lossOf level * (1 + q) by positivity)
  linarith

/-- A 1024 × 1024 picture of finite floats between -1 and 1, five steps of the fifth wavelet, level 10, the codecs of `exExt`: the 128 × 128 preview from the
archive, without denoiser and with `SimpleDenoiseAlgorithm` of level 1/100, differs from the exact one by at most 0.00012 and 0.11 per pixel in the root mean
square. -/
example (r : Rounding) (hr : r.IEEE) (o : FloatOps) (ho : o.Correct r) (f : ℕ → ℕ → F32) (hf : ∀ i j, finiteBits (f i j))
    (h1 : ∀ i j, |((number (f i j) : ℚ) : ℝ)| ≤ 1) :
    let p : Params := ⟨[1024, 1024], 1, 5, 5⟩
    PreviewWithin r o exExt (2 ^ 40) 10 [] ⟨p, [List.replicate 16 Mat.empty]⟩ nullDenoiser [Mat.ofFn 1024 1024 f] 3 (128 * (12 / 100000)) ∧
    PreviewWithin r o exExt (2 ^ 40) 10 [] ⟨p, [List.replicate 16 Mat.empty]⟩ (simpleFloat o 0x3c23d70a#32) [Mat.ofFn 1024 1024 f] 3 (128 * (11 / 100)) := by
  intro p
  have hN : Real.sqrt ((p.shape.map (paddedSide p)).prod : ℕ) = 1024 := by
    rw [show (p.shape.map (paddedSide p)).prod = 1024 * 1024 by decide, Nat.cast_mul]
    exact Real.sqrt_mul_self (x := 1024) (by norm_num)
  have hNe : (p.shape.map (paddedSide p)).prod = 1024 * 1024 := by decide
  have hwf : WellFormed (Buffer.mk p [List.replicate 16 Mat.empty] : Buffer F32) :=
    ⟨⟨by simp [p], by simp [p], by simp [p]⟩, by simp [p], by simp [p, subbandCount, detailsPerStep]⟩
  have hdata : ∀ x ∈ [Mat.ofFn 1024 1024 f], ∀ i < x.rows, ∀ j < x.cols, finiteBits (x.get i j) ∧ |((number (x.get i j) : ℚ) : ℝ)| ≤ 1 := by
    intro x hx i hi j hj
    rw [List.mem_singleton] at hx
    subst hx
    simp only [Mat.rows_ofFn, Mat.cols_ofFn] at hi hj
    rw [Mat.get_ofFn hi hj]
    exact ⟨hf i j, h1 i j⟩
  have hL : lossOf 10 = 1 / 2 ^ 14 := by
    rw [lossOf, if_neg (by norm_num)]
    norm_num
  have n1 : number 0x3c23d70a#32 = 10737418 / 2 ^ 30 := by norm_num [number, magnitude]
  have hs : Real.sqrt ((number 0x3c23d70a#32 : ℚ) : ℝ) ≤ 1 / 10 := by
    rw [n1]
    refine Real.sqrt_le_iff.2 ⟨by norm_num, by norm_num⟩
  have hg : Real.sqrt 2 ^ (p.shape.length * 3) = 8 := by
    simp only [p, List.length_cons, List.length_nil]
    rw [show (0 + 1 + 1) * 3 = 2 * 3 by norm_num, pow_mul, Real.sq_sqrt (by norm_num)]
    norm_num
  constructor
  · refine (C112_no_denoiser r hr o ho exExt (exTrunc_eq ▸ exExt_works) (2 ^ 40) (fun _ _ _ => rfl) 10 (by norm_num) [] (Buffer.mk p [List.replicate 16 Mat.empty]) hwf
      (by simp [p]) (by simp [p]) (by simp [p]) (by simp [p]) (by simp [p]) (by simp [p, subbandCount, detailsPerStep])
      (by show (p.shape.map (paddedSide p)).prod < _; rw [hNe]; norm_num) (by show (p.shape.map (paddedSide p)).prod ≤ _; rw [hNe]; norm_num) 3 (by simp [p])
      _ ⟨by simp [p], by simp [p, HasShape]⟩ 1 (by norm_num) hdata (by rw [hN]; simp only [maxFloat]; norm_num)).mono ?_
    rw [hL, hN, hg]
    simp only [p, List.length_cons, List.length_nil]
    norm_num
  · have hl : finiteBits 0x3c23d70a#32 := by unfold finiteBits; decide
    obtain ⟨k1, k2⟩ := simpleFloat_ok hr ho hl (by rw [n1]; norm_num) (by rw [n1]; norm_num)
    refine (C112_simple r hr o ho exExt (exTrunc_eq ▸ exExt_works) (2 ^ 40) (fun _ _ _ => rfl) 10 (by norm_num) [] (Buffer.mk p [List.replicate 16 Mat.empty]) hwf
      (by simp [p]) (by simp [p]) (by simp [p]) (by simp [p]) (by simp [p]) (by simp [p, subbandCount, detailsPerStep])
      (by show (p.shape.map (paddedSide p)).prod < _; rw [hNe]; norm_num) (by show (p.shape.map (paddedSide p)).prod ≤ _; rw [hNe]; norm_num) 3 (by simp [p])
      _ _ k1 _ hl (by rw [n1]; norm_num) (by rw [n1]; norm_num) _ k2 _ ⟨by simp [p], by simp [p, HasShape]⟩ 1 (by norm_num) hdata
      (by rw [hN]; simp only [maxFloat]; norm_num)).mono ?_
    rw [hL, hN, hg]
    simp only [p, List.length_cons, List.length_nil]
    generalize Real.sqrt ((number 0x3c23d70a#32 : ℚ) : ℝ) = s at hs
    norm_num
    linarith

end WB.Props
