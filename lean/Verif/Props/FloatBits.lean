import Verif.Proof.FloatBits
import Verif.Proof.Quality
import Verif.Props.Lossy

/-!
C106: `Decompose`, `Serialize`, `Parse` and `Compose` one after the other, on the bit patterns the program stores.
-/

namespace WB.Props

open Finset Spec

/-- Relative size of the error of a stored value: none for levels 0 and 1. -/
noncomputable def lossOf (level : ℕ) : ℝ := if level ≤ 1 then 0 else 2 ^ level / 2 ^ 24

theorem lossOf_nonneg (level : ℕ) : 0 ≤ lossOf level := by unfold lossOf; split_ifs <;> positivity

theorem lossOf_le {level : ℕ} (h : level ≤ 24) : lossOf level ≤ 1 := by
  unfold lossOf
  split_ifs
  · norm_num
  · rw [div_le_one (by norm_num)]
    exact pow_le_pow_right₀ (by norm_num) h

theorem side_pos {p : Params} (hv : ValidParams p) {n s : ℕ} (hn : 0 < n) (hs : s ≤ p.steps) : 0 < paddedSide p n / 2 ^ s := by
  have hp : 0 < 2 ^ s := by positivity
  rw [Nat.div_pos_iff]
  refine ⟨hp, ?_⟩
  unfold paddedSide
  by_cases ht : p.wtype = 0
  · have h0 : p.steps = 0 := by have := hv.2.2; rwa [if_pos ht] at this
    have : s = 0 := by omega
    subst this
    rw [if_pos ht]
    simpa using Nat.succ_le_of_lt hn
  · rw [if_neg ht]
    have hq : 1 ≤ (n + 2 ^ p.steps - 1) / 2 ^ p.steps := by
      rw [Nat.one_le_div_iff (by positivity)]
      omega
    calc 2 ^ s ≤ 2 ^ p.steps := Nat.pow_le_pow_right (by norm_num) hs
      _ = 1 * 2 ^ p.steps := (one_mul _).symm
      _ ≤ _ := Nat.mul_le_mul_right _ hq

theorem fits_pos {α : Type} {p : Params} (hv : ValidParams p) (h : ∀ n ∈ p.shape, 0 < n) {s : ℕ} (hs : s ≤ p.steps) {m : Mat α} (hm : Fits p s m) :
    0 < m.rows * m.cols := by
  rw [fits_iff hv] at hm
  rcases shape_cases hv with ⟨n, hsh, _⟩ | ⟨w, hh, hsh, _⟩
  · rw [hsh] at hm h
    have h1 : m.rows = _ := hm.1
    have h2 : m.cols = 1 := hm.2
    rw [h1, h2, mul_one]
    exact side_pos hv (h n (by simp)) hs
  · rw [hsh] at hm h
    have h1 : m.rows = _ := hm.1
    have h2 : m.cols = _ := hm.2
    rw [h1, h2]
    exact Nat.mul_pos (side_pos hv (h _ (by simp)) hs) (side_pos hv (h _ (by simp)) hs)

/-- Every subband of a channel is one of the levels. -/
theorem mem_fits {α : Type} [Inhabited α] {p : Params} {c : Channel α} (hc : SizedChan p c) {m : Mat α} (hm : m ∈ c) :
    ∃ s ≤ p.steps, Fits p s m := by
  obtain ⟨i, hi, rfl⟩ := List.mem_iff_getElem.1 hm
  have e : c[i] = c.getD i default := by simp [List.getD, hi]
  rw [e]
  rw [hc.1] at hi
  rcases sub_cases p hi with rfl | ⟨s, hs, q, hq, rfl⟩
  · exact ⟨p.steps, le_rfl, hc.2.2⟩
  · exact ⟨s + 1, hs, hc.2.1 s hs q hq⟩

/-- The number of coefficients of a channel. -/
theorem coef_count {p : Params} (hv : ValidParams p) {c : Channel ℝ} (hc : SizedChan p c) :
    (c.map fun m => ((m.rows * m.cols : ℕ) : ℝ)).sum = (padSize p : ℝ) := by
  rw [WB.sum_getD hc.1, sum_subbands]
  have h1 : ∀ s ∈ range p.steps, ∑ q ∈ range (subbandsPerWT p), (((c.getD (s * subbandsPerWT p + q) default).rows *
      (c.getD (s * subbandsPerWT p + q) default).cols : ℕ) : ℝ) = ((subbandsPerWT p * (lvlR p (s + 1) * lvlC p (s + 1)) : ℕ) : ℝ) := by
    intro s hs
    rw [sum_congr rfl fun q hq => by
      have f := hc.2.1 s (mem_range.1 hs) q (mem_range.1 hq)
      rw [show (c.getD (s * subbandsPerWT p + q) default).rows = lvlR p (s + 1) from f.1,
        show (c.getD (s * subbandsPerWT p + q) default).cols = lvlC p (s + 1) from f.2]]
    rw [sum_const, card_range, nsmul_eq_mul]
    push_cast
    ring
  rw [sum_congr rfl h1, show (c.getD (p.steps * subbandsPerWT p) default).rows = lvlR p p.steps from hc.2.2.1,
    show (c.getD (p.steps * subbandsPerWT p) default).cols = lvlC p p.steps from hc.2.2.2, ← Nat.cast_sum, ← Nat.cast_add, add_comm,
    levels_sum hv le_rfl]
  congr 1
  unfold lvlR lvlC padSize
  simp

/-- What storing does to the values, for levels up to 24. -/
theorem archive_changes (e : Ext) (Mem level : ℕ) (b : Buffer F32) (old : Bytes) (hb : WellFormed b) (hf : FitsFormat b)
    (hw : CodecsWork e truncBits) (hc : Compressible b) (hM : Room e Mem) (hm : FitsMemory b Mem) (h24 : level ≤ 24) :
    ∃ blob d', serialize e b old level = .ok (true, blob) ∧ (blob.length ≤ Mem → parse e blob = .ok (some ⟨b.params, d'⟩)) ∧
      List.Forall₂ (List.Forall₂ fun m m' => Kept (lossOf level ^ 2) ((lossOf level / 2 ^ 126) ^ 2) m m' ∧
        ((∀ i < m.rows, ∀ j < m.cols, finiteBits (m.get i j)) → ∀ i < m'.rows, ∀ j < m'.cols, finiteBits (m'.get i j))) b.decs d' := by
  have fin : ∀ {prec : ℕ} {m m' : Mat F32}, 1 ≤ prec → MappedNonzeros (truncBits prec) m m' → (∀ i < m.rows, ∀ j < m.cols, finiteBits (m.get i j)) →
      ∀ i < m'.rows, ∀ j < m'.cols, finiteBits (m'.get i j) := by
    intro prec m m' hp hmm hfin i hi j hj
    rw [hmm.2.2 i (by rw [← hmm.1]; exact hi) j (by rw [← hmm.2.1]; exact hj)]
    exact expBits_stored _ (hfin i (by rw [← hmm.1]; exact hi) j (by rw [← hmm.2.1]; exact hj)) hp
  rcases Nat.eq_zero_or_pos level with rfl | hl
  · obtain ⟨blob, h1, h2⟩ := C27_uncompressed_round_trip e Mem b old hb hf hM hm
    refine ⟨blob, b.decs, h1, h2, ?_⟩
    refine List.forall₂_same.2 fun c _ => List.forall₂_same.2 fun m _ => ⟨⟨rfl, rfl, ?_⟩, fun h => h⟩
    have : sqDist (matNumbers m) (matNumbers m) = 0 := by simp [sqDist]
    rw [this, show lossOf 0 = 0 from if_pos (by norm_num)]
    simp
  · obtain ⟨blob, d', h1, h2, h3⟩ := C28_compressed_round_trip e truncBits Mem level b old hb hf hw hc hM hm hl
    refine ⟨blob, d', h1, h2, h3.imp fun _ _ g => g.imp fun m m' g => ⟨kept_of (by omega) ?_ g, fin (by omega) g⟩⟩
    intro x
    by_cases h1 : level = 1
    · subst h1
      have e1 : truncBits (33 - min 31 1) x = x := hw.lossless x
      rw [e1, show lossOf 1 = 0 from if_pos (by norm_num)]
      simp
    · have := value_error hl h24 x
      have e1 : (2 : ℝ) ^ (level - 24 : ℤ) = lossOf level := by
        rw [lossOf, if_neg (by omega), zpow_sub₀ (by norm_num)]
        norm_cast
      have e2 : (2 : ℝ) ^ (level - 150 : ℤ) = lossOf level / 2 ^ 126 := by
        rw [← e1, show (level - 150 : ℤ) = (level - 24 : ℤ) - 126 by ring, zpow_sub₀ (a := (2 : ℝ)) (by norm_num) (level - 24 : ℤ) 126]
        norm_cast
      rw [e1, e2] at this
      exact this

/-- The numbers of a channel of bit patterns. -/
theorem VL_bits {r : Rounding} (hr : r.IEEE) {o : FloatOps} (ho : o.Correct r) (c : List (Mat F32)) :
    VL (bitsScalars hr ho) c = c.map matNumbers := rfl

theorem apart_symm {p : Params} {x y : Channel ℝ} (hx : SizedChan p x) (hy : SizedChan p y) : apart p x y = apart p y x := by
  unfold apart
  refine len_congr fun i hi => ?_
  obtain ⟨h1, h2⟩ := sized_dims hx hy (mem_range.1 hi)
  rw [← sqDist_nrm ⟨h1, h2⟩, ← sqDist_nrm ⟨h1.symm, h2.symm⟩]
  congr 1
  unfold sqDist
  rw [h1, h2]
  exact sum_congr rfl fun i _ => sum_congr rfl fun j _ => by ring

/-- Storing moves the coefficients of a channel by little, compared with their norm. -/
theorem kept_apart {p : Params} (hv : ValidParams p) {c c' : List (Mat F32)} (hc : SizedChan p (c.map matNumbers))
    (hc' : SizedChan p (c'.map matNumbers)) {a β T : ℝ} (ha : 0 ≤ a) (hβ : 0 ≤ β) (h : List.Forall₂ (Kept (a ^ 2) (β ^ 2)) c c')
    (hT : total p (c.map matNumbers) ≤ T) :
    apart p (c'.map matNumbers) (c.map matNumbers) ≤ a * T + β * Real.sqrt (padSize p) := by
  have hw0 : 0 ≤ Real.sqrt (padSize p) := Real.sqrt_nonneg _
  have hT0 : 0 ≤ T := (total_nonneg _ _).trans hT
  rw [apart_symm hc' hc]
  refine (abs_le_of_sq_le_sq' ?_ (by positivity)).2
  rw [sq, apart_sq hc hc']
  refine (kept_sum h).trans ?_
  have e1 : (c.map fun m => energy (matNumbers m)).sum = total p (c.map matNumbers) ^ 2 := by
    rw [sq, total_sq hc.1, List.map_map]
    rfl
  have e2 : (((c.map fun m => m.rows * m.cols).sum : ℕ) : ℝ) = Real.sqrt (padSize p) ^ 2 := by
    rw [Real.sq_sqrt (by positivity), ← coef_count hv hc, List.map_map, Nat.cast_list_sum, List.map_map]
    rfl
  rw [e1, e2]
  have h1 : total p (c.map matNumbers) ^ 2 ≤ T ^ 2 := pow_le_pow_left₀ (total_nonneg _ _) hT 2
  have h2 : 0 ≤ a * T * (β * Real.sqrt (padSize p)) := by positivity
  have h3 := mul_le_mul_of_nonneg_left h1 (sq_nonneg a)
  rw [add_sq, mul_pow a T, mul_pow β]
  linarith

/-- The float coefficients of a channel are not much larger than the samples. -/
theorem bits_total {r : Rounding} (hr : r.IEEE) {o : FloatOps} (ho : o.Correct r) {p : Params} (hv : ValidParams p) (hw : p.wtype ≤ 5)
    (hK : p.steps ≤ 2000) {x : Mat F32} (hx : Shaped p x) {M : ℝ} (hM0 : 0 ≤ M)
    (hM : ∀ i < x.rows, ∀ j < x.cols, finiteBits (x.get i j) ∧ |((number (x.get i j) : ℚ) : ℝ)| ≤ M)
    (hΩ : Real.sqrt (padSize p) * (3 * M + 1) ≤ maxFloat) :
    (∀ m ∈ chanP (α := Bits o) p (scaling (bitsKit r o) p) nullDenoiser x, FinV (bitsScalars hr ho) m) ∧
    total p (VL (bitsScalars hr ho) (chanP (α := Bits o) p (scaling (bitsKit r o) p) nullDenoiser x)) ≤
      Real.sqrt (padSize p) * (101 / 100 * M + 1 / 2 ^ 130) := by
  have hw0 : 0 ≤ Real.sqrt (padSize p) := Real.sqrt_nonneg _
  have hq0 : 0 ≤ Real.sqrt (padSize p) * M := mul_nonneg hw0 hM0
  have hkR := codeKit_present (p := p) (by omega)
  have pf := pad_fin (sc := bitsScalars hr ho) hv hx hM0 hM
  obtain ⟨k1, k2, k3⟩ := chan_apart (sc := bitsScalars hr ho) (kF := bitsKit r o) (k := codeKit) (q := Real.sqrt (padSize p) * M)
    (τ := 401 / 100 * p.wtype / 2 ^ 150 * Real.sqrt (padSize p)) hv hkR (bits_coef hr ho hv hw) (by positivity) (lw_code_sqrt hw) hx pf.1 pf.2 (by
      intro h0
      obtain ⟨_, _, s3⟩ := steps_code hr hv hw h0 (k := p.steps) (by omega) hq0
      have hc := code_coef hr hv hw h0
      refine (gr_mono' hc s3).trans (no_overflow_code hr hv hw h0 ?_ (by positivity))
      nlinarith)
  refine ⟨k1, ?_⟩
  have szF := sized_VL (sc := bitsScalars hr ho) (chanP_sized (k := bitsKit r o) hv nullDenoiser_sized hx)
  have szR := chanP_sized (k := codeKit) hv nullDenoiser_sized (show Shaped p (x.map (bitsScalars hr ho).val) from hx)
  refine (total_le szF szR).trans ?_
  by_cases h0 : p.steps = 0
  · rw [if_pos h0] at k3
    rw [h0, pow_zero, one_mul] at k2
    nlinarith
  · rw [if_neg h0] at k3
    have k4 := add_le_add k3 k2
    rw [sub_add_cancel] at k4
    refine k4.trans ?_
    obtain ⟨_, s2, _⟩ := steps_code hr hv hw h0 (k := p.steps) (by omega) hq0
    have hD := dims_le hv
    have hDk : ((p.shape.length : ℝ) * p.steps) ≤ 4000 := by
      exact_mod_cast (Nat.mul_le_mul hD hK).trans (by norm_num)
    have hDk0 : (0 : ℝ) ≤ (p.shape.length : ℝ) * p.steps := by positivity
    have htR : (p.wtype : ℝ) ≤ 5 := by exact_mod_cast hw
    have a1 : 9 / 2 * (p.wtype + 2) * (p.shape.length * p.steps) / 2 ^ 24 * (Real.sqrt (padSize p) * M) ≤ 1 / 100 * (Real.sqrt (padSize p) * M) := by
      refine mul_le_mul_of_nonneg_right ?_ hq0
      have : (p.wtype + 2 : ℝ) * (p.shape.length * p.steps) ≤ 7 * 4000 := mul_le_mul (by linarith) hDk hDk0 (by norm_num)
      rw [div_le_iff₀ (by norm_num)]
      nlinarith
    have a2 : 9 / 2 * p.wtype * (p.shape.length * p.steps) / 2 ^ 150 * Real.sqrt (padSize p) ≤ 1 / 2 ^ 130 * Real.sqrt (padSize p) := by
      refine mul_le_mul_of_nonneg_right ?_ hw0
      have : (p.wtype : ℝ) * (p.shape.length * p.steps) ≤ 5 * 4000 := mul_le_mul htR hDk hDk0 (by norm_num)
      rw [div_le_iff₀ (by norm_num)]
      nlinarith
    have s2' : nit (stepG p) (stepT p) p.steps (Real.sqrt (padSize p) * M) ≤ Real.sqrt (padSize p) * (101 / 100 * M + 1 / 2 ^ 130) := by linarith
    exact s2'

/-- C106. Samples as bit patterns, every operation in IEEE `float`: `Decompose`, `Serialize` with a level up to 24, `Parse`, `Compose`. Every step
succeeds, no result is infinite or NaN, and the signal that comes out differs from the one that went in by at most the rounding error of an
unchanged round trip and `√N 2^(level - 24) (1.03 M + 2^-124)`, which is absent for the levels 0 and 1 (`lossOf`). The bound is on the root of
the sum of squares over a channel. -/
theorem C106_archive_in_float (r : Rounding) (hr : r.IEEE) (o : FloatOps) (ho : o.Correct r) (e : Ext) (hcod : CodecsWork e truncBits)
    (Mem : ℕ) (hroom : Room e Mem) (level : ℕ) (h24 : level ≤ 24) (old : Bytes) (b : Buffer F32) (hb : WellFormed b) (hw : b.params.wtype ≤ 5)
    (hK : b.params.steps ≤ 2000) (hside : ∀ n ∈ b.params.shape, 0 < n ∧ n < 2 ^ 64) (hch : 0 < b.params.signalNumber)
    (hch64 : b.params.signalNumber < 2 ^ 64) (hsub : b.params.signalNumber * subbandCount b.params ≤ Mem)
    (hN : (b.params.shape.map (paddedSide b.params)).prod < 2 ^ 31) (hNM : (b.params.shape.map (paddedSide b.params)).prod ≤ Mem)
    (data : List (Mat F32)) (hd : IsSignal b.params data) (M : ℝ) (hM0 : 0 ≤ M)
    (hM : ∀ x ∈ data, ∀ i < x.rows, ∀ j < x.cols, finiteBits (x.get i j) ∧ |((number (x.get i j) : ℚ) : ℝ)| ≤ M)
    (hΩ : Real.sqrt ((b.params.shape.map (paddedSide b.params)).prod : ℕ) * (7 * M + 2) ≤ maxFloat) :
    ∃ d blob d' out, Buffer.decompose (α := Bits o) (bitsKit r o) b data nullDenoiser = .ok d true ∧
      serialize e ⟨b.params, d⟩ old level = .ok (true, blob) ∧
      (blob.length ≤ Mem → parse e blob = .ok (some ⟨b.params, d'⟩)) ∧
      Buffer.compose (α := Bits o) (bitsKit r o) ⟨b.params, d'⟩ 0 = .ok out ∧ out.length = data.length ∧
      ∀ (n : ℕ) (x : Mat F32), data[n]? = some x →
        ∃ y : Mat F32, out[n]? = some y ∧ y.rows = x.rows ∧ y.cols = x.cols ∧ (∀ i < y.rows, ∀ j < y.cols, finiteBits (y.get i j)) ∧
          Real.sqrt (sqDist (matNumbers y) (matNumbers x)) ≤
            Real.sqrt ((b.params.shape.map (paddedSide b.params)).prod : ℕ) *
              (9 * (b.params.wtype + 2) * (b.params.shape.length * b.params.steps) / 2 ^ 24 * M +
                9 * b.params.wtype * (b.params.shape.length * b.params.steps) / 2 ^ 150 + lossOf level * (103 / 100 * M + 1 / 2 ^ 124)) := by
  have hv := hb.1
  have hkR := codeKit_present (p := b.params) (by omega)
  have hkF := bitsKit_present (r := r) (o := o) (p := b.params) (by omega)
  have c1 := decompose_ok (α := Bits o) hb hkF hch hd (fun _ => nullDenoiser_sized)
  rw [← padSize_eq hv] at hΩ hN hNM ⊢
  set p := b.params with hp
  have hw0 : 0 ≤ Real.sqrt (padSize p) := Real.sqrt_nonneg _
  have hq0 : 0 ≤ Real.sqrt (padSize p) * M := mul_nonneg hw0 hM0
  have hL0 := lossOf_nonneg level
  have hL1 := lossOf_le h24
  obtain ⟨F, hF⟩ : ∃ F : Mat F32 → Channel F32, ∀ x, F x = chanP (α := Bits o) p (scaling (bitsKit r o) p) nullDenoiser x := ⟨_, fun _ => rfl⟩
  obtain ⟨G, hG⟩ : ∃ G : Channel F32 → Mat F32, ∀ c, G c = outP (α := Bits o) (bitsKit r o) p 0 c := ⟨_, fun _ => rfl⟩
  obtain ⟨d, hdd⟩ : ∃ d : Decs F32, d = data.map F := ⟨_, rfl⟩
  have c1 : Buffer.decompose (α := Bits o) (bitsKit r o) b data nullDenoiser = .ok d true := by
    rw [hdd, show F = _ from funext hF]
    exact c1
  have hdlen : d.length = data.length := by rw [hdd]; simp
  have sz : ∀ c ∈ d, SizedChan p c := by
    intro c hc
    rw [hdd, List.mem_map] at hc
    obtain ⟨x, hx, rfl⟩ := hc
    rw [hF]
    exact chanP_sized (α := Bits o) hv nullDenoiser_sized (shaped_of (hd.2 x hx))
  have hΩ1 : Real.sqrt (padSize p) * (3 * M + 1) ≤ maxFloat := by nlinarith
  have tot := fun x (hx : x ∈ data) => bits_total hr ho hv hw hK (shaped_of (hd.2 x hx)) hM0 (hM x hx) hΩ1
  have hbD : WellFormed (Buffer.mk p d) := by
    refine ⟨hv, by rw [hdlen]; exact hd.1, fun c hc => ?_⟩
    rw [(sz c hc).1]
    rfl
  have msize : ∀ c ∈ d, ∀ m ∈ c, 0 < m.rows * m.cols ∧ m.rows * m.cols ≤ padSize p := by
    intro c hc m hm
    obtain ⟨s, hs, hf⟩ := mem_fits (sz c hc) hm
    exact ⟨fits_pos hv (fun n hn => (hside n hn).1) hs hf, size_le hf⟩
  have hfit : FitsFormat (Buffer.mk p d) := by
    refine ⟨fun n hn => (hside n hn).2, hch64, by show p.wtype < 8; omega, fun c hc m hm => ?_⟩
    obtain ⟨h1, h2⟩ := msize c hc m hm
    have h3 : m.rows * m.cols < 2 ^ 31 := by omega
    constructor
    · exact lt_of_le_of_lt (Nat.le_mul_of_pos_right _ (Nat.pos_of_mul_pos_left h1)) (h3.trans (by norm_num))
    · exact lt_of_le_of_lt (Nat.le_mul_of_pos_left _ (Nat.pos_of_mul_pos_right h1)) (h3.trans (by norm_num))
  obtain ⟨blob, d', a1, a2, a3⟩ := archive_changes e Mem level (Buffer.mk p d) old hbD hfit hcod
    (fun c hc m hm => ⟨(msize c hc m hm).1, lt_of_le_of_lt (msize c hc m hm).2 hN⟩) hroom ⟨hsub, fun c hc m hm => (msize c hc m hm).2.trans hNM⟩ h24
  have a3 : List.Forall₂ _ d d' := a3
  have hl : d'.length = d.length := a3.length_eq.symm
  have z1 : ∀ c' ∈ d', SizedChan p c' := by
    intro c' hc'
    obtain ⟨n, hn, rfl⟩ := List.mem_iff_getElem.1 hc'
    have g := a3.get (by omega) hn
    refine (sized_iff hv _).2 (prescribed_congr (g.imp fun _ _ g => ⟨g.1.1, g.1.2.1⟩) ((sized_iff hv _).1 (sz _ (List.getElem_mem (by omega)))))
  have hlen : d'.length = data.length := by rw [hl, hdlen]
  have c2 : Buffer.compose (α := Bits o) (bitsKit r o) ⟨p, d'⟩ 0 = .ok (d'.map G) := by
    rw [show G = _ from funext hG]
    exact compose_ok (α := Bits o) (b := ⟨p, d'⟩) hv (by show d'.length = _; rw [hlen]; exact hd.1) hkF z1 (Nat.zero_le _)
  refine ⟨d, blob, d', d'.map G, c1, a1, a2, c2, (List.length_map _).trans hlen, ?_⟩
  intro n x hn
  have hmem := List.mem_of_getElem? hn
  obtain ⟨hn1, hn2⟩ := List.getElem?_eq_some_iff.1 hn
  have hnl : n < d'.length := by omega
  have hnd : n < d.length := by omega
  have hc' : d'[n]? = some d'[n] := List.getElem?_eq_getElem hnl
  have hmem' := List.getElem_mem hnl
  have hdn : d[n] = chanP (α := Bits o) p (scaling (bitsKit r o) p) nullDenoiser x := by
    rw [← hF]
    simp [hdd, hn2]
  have g := a3.get hnd hnl
  simp only [List.get_eq_getElem] at g
  rw [hdn] at g
  have szF0 := chanP_sized (k := bitsKit r o) hv nullDenoiser_sized (shaped_of (hd.2 x hmem))
  have szF := sized_VL (sc := bitsScalars hr ho) szF0
  have szC := sized_VL (sc := bitsScalars hr ho) (z1 _ hmem')
  obtain ⟨t1, t2⟩ := tot x hmem
  set q : ℝ := Real.sqrt (padSize p) * M with hq
  set P : ℝ := Real.sqrt (padSize p) * (lossOf level * (101 / 100 * M + 1 / 2 ^ 125)) with hP
  have hP0 : 0 ≤ P := by positivity
  have dist : apart p (VL (bitsScalars hr ho) d'[n]) (VL (bitsScalars hr ho) (chanP (α := Bits o) p (scaling (bitsKit r o) p) nullDenoiser x)) ≤ P := by
    refine (kept_apart hv szF szC hL0 (show (0 : ℝ) ≤ lossOf level / 2 ^ 126 by positivity) (g.imp fun _ _ g => g.1) t2).trans (le_of_le_of_eq ?_ hP.symm)
    nlinarith [mul_nonneg hw0 hL0]
  have hfin : ∀ m ∈ d'[n], FinV (bitsScalars hr ho) m := by
    intro m hm
    obtain ⟨i, hi, rfl⟩ := List.mem_iff_getElem.1 hm
    have hi' : i < (chanP (α := Bits o) p (scaling (bitsKit r o) p) nullDenoiser x).length := lt_of_lt_of_eq hi g.length_eq.symm
    exact (g.get hi' hi).2 (t1 _ (List.getElem_mem hi'))
  have hP3 : 3 * P ≤ Real.sqrt (padSize p) * (304 / 100 * M + 1 / 2) := by
    have : lossOf level * (101 / 100 * M + 1 / 2 ^ 125) ≤ 1 * (101 / 100 * M + 1 / 2 ^ 125) := mul_le_mul_of_nonneg_right hL1 (by positivity)
    have := mul_le_mul_of_nonneg_left this hw0
    rw [hP]
    nlinarith
  have hGn : (d'.map G)[n]? = some (outP (α := Bits o) (bitsKit r o) p 0 d'[n]) := by
    rw [← hG, List.getElem?_map, hc']
    rfl
  have pf := pad_fin (sc := bitsScalars hr ho) hv (shaped_of (hd.2 x hmem)) hM0 (hM x hmem)
  obtain ⟨u1, u2, u3, u4⟩ := trip_changed (sc := bitsScalars hr ho) (kF := bitsKit r o) (k := codeKit) (q := q) (P := P)
    (τ := 401 / 100 * p.wtype / 2 ^ 150 * Real.sqrt (padSize p)) hv hkR (bits_coef hr ho hv hw) (by positivity) (lw_code_sqrt hw)
    (shaped_of (hd.2 x hmem)) pf.1 pf.2 hP0
    (z1 _ hmem') hfin dist (fun _ _ _ => rfl) (u' := 1 / 2 ^ 22) (ω' := 1 / 2 ^ 149) (by norm_num) (by norm_num) (bits_gain hr ho) (by
      intro h0
      obtain ⟨_, _, s3⟩ := steps_code hr hv hw h0 (k := 2 * p.steps) (by omega) hq0
      obtain ⟨s1, _, _⟩ := steps_code hr hv hw h0 (k := p.steps) (by omega) hq0
      have hc := code_coef hr hv hw h0
      have s1 := mul_le_mul_of_nonneg_right (s1 hK) hP0
      refine (gr_mono' hc (add_le_add s3 s1)).trans (no_overflow_code hr hv hw h0 ?_ (by positivity))
      nlinarith)
  refine ⟨outP (α := Bits o) (bitsKit r o) p 0 d'[n], hGn, u1, u2, u3, ?_⟩
  have e1 := sqDist_nrm (x := matNumbers (outP (α := Bits o) (bitsKit r o) p 0 d'[n])) (y := matNumbers x) ⟨u1, u2⟩
  rw [e1]
  refine le_trans u4 ?_
  split_ifs with h0
  · refine mul_le_mul_of_nonneg_left ?_ hw0
    have : lossOf level * (101 / 100 * M + 1 / 2 ^ 125) ≤ lossOf level * (103 / 100 * M + 1 / 2 ^ 124) :=
      mul_le_mul_of_nonneg_left (by linarith) hL0
    have : (0 : ℝ) ≤ 9 * (p.wtype + 2) * (p.shape.length * p.steps) / 2 ^ 24 * M := by positivity
    have : (0 : ℝ) ≤ 9 * p.wtype * (p.shape.length * p.steps) / 2 ^ 150 := by positivity
    linarith
  · obtain ⟨_, s2, _⟩ := steps_code hr hv hw h0 (k := 2 * p.steps) (by omega) hq0
    obtain ⟨s1, _, _⟩ := steps_code hr hv hw h0 (k := p.steps) (by omega) hq0
    have s1 := mul_le_mul_of_nonneg_right (s1 hK) hP0
    refine (add_le_add s2 s1).trans ?_
    have : 101 / 100 * (lossOf level * (101 / 100 * M + 1 / 2 ^ 125)) ≤ lossOf level * (103 / 100 * M + 1 / 2 ^ 124) := by nlinarith
    have := mul_le_mul_of_nonneg_left this hw0
    rw [hP, hq]
    push_cast
    linarith

/-- `FloatOps.Correct` can be met, with rounding to nearest, ties to even. -/
example : ∃ (r : Rounding) (o : FloatOps), r.IEEE ∧ o.Correct r := by
  obtain ⟨r, hr, _⟩ := ties_exist
  obtain ⟨o, ho⟩ := floatOps_exist hr
  exact ⟨r, o, hr, ho⟩

/-- A 1024 × 1024 picture of finite floats between -1 and 1, five steps of the fifth wavelet, level 10, the codecs of `exExt`: the picture read back
differs by at most 0.11 in the root of the sum of squares, so by 0.00011 per pixel in the root mean square. -/
example (r : Rounding) (hr : r.IEEE) (o : FloatOps) (ho : o.Correct r) (f : ℕ → ℕ → F32) (hf : ∀ i j, finiteBits (f i j))
    (h1 : ∀ i j, |((number (f i j) : ℚ) : ℝ)| ≤ 1) :
    let p : Params := ⟨[1024, 1024], 1, 5, 5⟩
    ∃ d blob d' out y, Buffer.decompose (α := Bits o) (bitsKit r o) ⟨p, [List.replicate 16 Mat.empty]⟩ [Mat.ofFn 1024 1024 f] nullDenoiser = .ok d true ∧
      serialize exExt ⟨p, d⟩ [] 10 = .ok (true, blob) ∧ parse exExt blob = .ok (some ⟨p, d'⟩) ∧
      Buffer.compose (α := Bits o) (bitsKit r o) ⟨p, d'⟩ 0 = .ok out ∧ out[0]? = some y ∧
      Real.sqrt (sqDist (matNumbers y) (matNumbers (Mat.ofFn 1024 1024 f))) ≤ 11 / 100 := by
  intro p
  have hN : Real.sqrt ((p.shape.map (paddedSide p)).prod : ℕ) = 1024 := by
    rw [show (p.shape.map (paddedSide p)).prod = 1024 * 1024 by decide, Nat.cast_mul]
    exact Real.sqrt_mul_self (x := 1024) (by norm_num)
  have hNe : (p.shape.map (paddedSide p)).prod = 1024 * 1024 := by decide
  have key := fun Mem (hm : 1024 * 1024 ≤ Mem) => C106_archive_in_float r hr o ho exExt (exTrunc_eq ▸ exExt_works) Mem (fun _ _ _ => rfl) 10 (by norm_num) []
    (Buffer.mk p [List.replicate 16 Mat.empty])
    ⟨⟨by simp [p], by simp [p], by simp [p]⟩, by simp [p], by simp [p, subbandCount, detailsPerStep]⟩ (by simp [p]) (by simp [p]) (by simp [p])
    (by simp [p]) (by simp [p]) (le_trans (by simp [p, subbandCount, detailsPerStep]) hm) (by show (p.shape.map (paddedSide p)).prod < _; rw [hNe]; norm_num)
    (by show (p.shape.map (paddedSide p)).prod ≤ _; rw [hNe]; exact hm)
    [Mat.ofFn 1024 1024 f] ⟨by simp [p], by simp [p, HasShape]⟩ 1 (by norm_num) (by
      intro x hx i hi j hj
      rw [List.mem_singleton] at hx
      subst hx
      simp only [Mat.rows_ofFn, Mat.cols_ofFn] at hi hj
      rw [Mat.get_ofFn hi hj]
      exact ⟨hf i j, h1 i j⟩) (by rw [hN]; simp only [maxFloat]; norm_num)
  obtain ⟨d, blob, _, _, k1, k2, _⟩ := key (1024 * 1024) le_rfl
  obtain ⟨d1, blob1, d', out, j1, j2, j3, j4, _, j5⟩ := key (max (1024 * 1024) blob.length) (le_max_left _ _)
  rw [k1] at j1
  cases j1
  rw [k2] at j2
  cases j2
  obtain ⟨y, e1, _, _, _, e2⟩ := j5 0 _ rfl
  refine ⟨d, blob, d', out, y, k1, k2, j3 (le_max_right _ _), j4, e1, e2.trans ?_⟩
  rw [hN, lossOf, if_neg (by norm_num)]
  simp only [p, List.length_cons, List.length_nil]
  norm_num

end WB.Props
