import Verif.Spec.Quiet
import Verif.Proof.Quiet
import Verif.Props.FloatDenoise

/-!
C133: how large coefficients can be, and what a threshold above them leaves of a signal.
-/

namespace WB.Props

open Finset Spec

/-- The channel as the program computes it, without a denoiser. -/
theorem quiet_bits {r : Rounding} (hr : r.IEEE) {o : FloatOps} (ho : o.Correct r) {p : Params} (hv : ValidParams p) (hw : p.wtype ≤ 5)
    {x : Mat F32} (hx : Shaped p x) {M : ℝ} (hM0 : 0 ≤ M) (hM : EntriesWithin M x)
    (hΩ : (202 / 100) ^ (p.shape.length * p.steps) * (M + 1 / 2 ^ 145) ≤ maxFloat) :
    (∀ s < p.steps, ∀ q < subbandsPerWT p, ∀ m : Mat F32,
      m = (detailStep (α := Bits o) p (scaling (bitsKit r o) p) nullDenoiser s (sig (α := Bits o) p (scaling (bitsKit r o) p) (padOf (α := Bits o) p x) s)).getD q default →
      EntriesWithin ((202 / 100) ^ (p.shape.length * (s + 1)) * (M + 1 / 2 ^ 145)) m) ∧
    ∀ m : Mat F32, m = sig (α := Bits o) p (scaling (bitsKit r o) p) (padOf (α := Bits o) p x) p.steps →
      EntriesWithin ((202 / 100) ^ (p.shape.length * p.steps) * (M + 1 / 2 ^ 145)) m := by
  have hkR := codeKit_present (p := p) (by omega)
  have hη : (0 : ℝ) ≤ (1 + 1 / 2 ^ 24) ^ 3 - 1 := by norm_num
  obtain ⟨k1, k2⟩ := quiet_chan (sc := bitsScalars hr ho) (S := 201 / 100) (by norm_num) (by norm_num) hη (by norm_num) hM0 hv (kF := bitsKit r o) hkR
    (fun h0 => bits_apF hr ho hw (wavelet_of_steps hv (Nat.pos_of_ne_zero h0))) (fun h0 => by
      rw [← length_scaling hkR (wavelet_of_steps hv (Nat.pos_of_ne_zero h0)), sum_getD_abs]
      exact sum_code hw) ((quiet_bound hM0 hw _).trans hΩ) hx hM
  refine ⟨fun s hs q hq m hm i hi j hj => ?_, fun m hm i hi j hj => ?_⟩
  · obtain ⟨g1, g2⟩ := k1 s hs q hq m hm i hi j hj
    exact ⟨g1, g2.trans (quiet_bound hM0 hw _)⟩
  · obtain ⟨g1, g2⟩ := k2 m hm i hi j hj
    exact ⟨g1, g2.trans (quiet_bound hM0 hw _)⟩

theorem satisfy_of {α : Type} [Zero α] [Add α] [Mul α] [Neg α] [Inhabited α] {p : Params} (hv : ValidParams p) {D : ℕ → Mat α → Prop} {A : Mat α → Prop}
    {k : Kit α} {den : Denoiser α} (hden : den.Sized) {x : Mat α} (hx : Shaped p x)
    (h1 : ∀ s < p.steps, ∀ q < subbandsPerWT p, D s ((detailStep p (scaling k p) den s (sig p (scaling k p) (padOf p x) s)).getD q default))
    (h2 : A (sig p (scaling k p) (padOf p x) p.steps)) : SubbandsSatisfy p D A (chanP p (scaling k p) den x) := by
  refine ⟨(sized_iff hv _).1 (chanP_sized hv hden hx), fun s hs q hq m hm => ?_, fun m hm => ?_⟩
  · have := h1 s hs q hq
    rw [← subbandsPerWT_eq] at hm
    rwa [← chanP_detail _ _ _ _ hs hq default, List.getD, hm, Option.getD_some] at this
  · rw [← subbandsPerWT_eq] at hm
    rwa [← chanP_last p (scaling k p) den x default, List.getD, hm, Option.getD_some] at h2

/-- C133. In `float` without a denoiser, no coefficient is larger than about `2.02` to the number of passes over the data times the largest sample: one pass in
each dimension for every step. -/
theorem C133_coefficients (r : Rounding) (hr : r.IEEE) (o : FloatOps) (ho : o.Correct r) (b : Buffer F32) (hb : WellFormed b) (hw : b.params.wtype ≤ 5)
    (hch : 0 < b.params.signalNumber) (data : List (Mat F32)) (hd : IsSignal b.params data) (M : ℝ) (hM0 : 0 ≤ M) (hM : ∀ x ∈ data, EntriesWithin M x)
    (hΩ : (202 / 100) ^ (b.params.shape.length * b.params.steps) * (M + 1 / 2 ^ 145) ≤ maxFloat) :
    ∃ d : Decs F32, Buffer.decompose (α := Bits o) (bitsKit r o) b data nullDenoiser = .ok d true ∧ d.length = b.params.signalNumber ∧
      ∀ c ∈ d, SubbandsSatisfy b.params (fun s => EntriesWithin ((202 / 100) ^ (b.params.shape.length * (s + 1)) * (M + 1 / 2 ^ 145)))
        (EntriesWithin ((202 / 100) ^ (b.params.shape.length * b.params.steps) * (M + 1 / 2 ^ 145))) c := by
  have hv := hb.1
  have c1 := decompose_ok (α := Bits o) (den := nullDenoiser) hb (bitsKit_present (r := r) (o := o) (p := b.params) (by omega)) hch hd (fun _ => nullDenoiser_sized)
  refine ⟨_, c1, (List.length_map _).trans hd.1, fun c hc => ?_⟩
  obtain ⟨x, hx, rfl⟩ := List.mem_map.1 hc
  obtain ⟨k1, k2⟩ := quiet_bits hr ho hv hw (shaped_of (hd.2 x hx)) hM0 (hM x hx) hΩ
  exact satisfy_of (α := Bits o) hv nullDenoiser_sized (shaped_of (hd.2 x hx)) (fun s hs q hq => k1 s hs q hq _ rfl) (k2 _ rfl)

theorem quiet_margin {M T : ℝ} (hM : 0 ≤ M) {m : ℕ} (hm : m ≠ 0) (h : (203 / 100) ^ m * (M + 1 / 2 ^ 140) ≤ T) :
    (202 / 100) ^ m * (M + 1 / 2 ^ 145) ≤ T - (1 / 2 ^ 22 * T + 1 / 2 ^ 148) := by
  obtain ⟨n, rfl⟩ := Nat.exists_eq_succ_of_ne_zero hm
  have a1 : (1 : ℝ) ≤ (202 / 100) ^ n := one_le_pow₀ (by norm_num)
  have a2 : (202 / 100 : ℝ) ^ n ≤ (203 / 100) ^ n := pow_le_pow_left₀ (by norm_num) (by norm_num) n
  have b1 : M + 1 / 2 ^ 145 ≤ M + 1 / 2 ^ 140 := by
    have : (1 : ℝ) / 2 ^ 145 ≤ 1 / 2 ^ 140 := by norm_num
    linarith
  have b2 : (1 : ℝ) / 2 ^ 148 ≤ 1 / 256 * (M + 1 / 2 ^ 140) := by
    have : (1 : ℝ) / 2 ^ 148 = 1 / 256 * (1 / 2 ^ 140) := by norm_num
    rw [this]
    linarith
  have b0 : 0 ≤ M + 1 / 2 ^ 140 := by positivity
  have c1 : (202 / 100 : ℝ) ^ (n + 1) * (M + 1 / 2 ^ 145) ≤ 202 / 100 * ((202 / 100) ^ n * (M + 1 / 2 ^ 140)) := by
    rw [pow_succ', mul_assoc]
    exact mul_le_mul_of_nonneg_left (mul_le_mul_of_nonneg_left b1 (by positivity)) (by norm_num)
  have c2 : (202 / 100 : ℝ) ^ n * (M + 1 / 2 ^ 140) ≤ (203 / 100) ^ n * (M + 1 / 2 ^ 140) := mul_le_mul_of_nonneg_right a2 b0
  have c3 : M + 1 / 2 ^ 140 ≤ (202 / 100 : ℝ) ^ n * (M + 1 / 2 ^ 140) := le_mul_of_one_le_left b0 a1
  have h' : 203 / 100 * ((203 / 100) ^ n * (M + 1 / 2 ^ 140)) ≤ T := by rwa [Nat.succ_eq_add_one, pow_succ', mul_assoc] at h
  have h22 : (1 : ℝ) / 2 ^ 22 ≤ 1 / 10000 := by norm_num
  have hT0 : 0 ≤ T := le_trans (by positivity) h'
  have := mul_le_mul_of_nonneg_right h22 hT0
  show (202 / 100 : ℝ) ^ (n + 1) * (M + 1 / 2 ^ 145) ≤ _
  linarith

/-- C133. A threshold above what the samples can become leaves nothing of the details: all are zero. The approximation is as in `C133_coefficients`. -/
theorem C133_quiet (r : Rounding) (hr : r.IEEE) (o : FloatOps) (ho : o.Correct r) (b : Buffer F32) (hb : WellFormed b) (hw : b.params.wtype ≤ 5)
    (hch : 0 < b.params.signalNumber) (hK : b.params.steps ≤ 2 ^ 24) (a c : F32) (ha : finiteBits a) (hc : finiteBits c) (ha0 : 0 ≤ number a) (hc0 : 0 ≤ number c)
    (data : List (Mat F32)) (hd : IsSignal b.params data) (M : ℝ) (hM0 : 0 ≤ M) (hM : ∀ x ∈ data, EntriesWithin M x)
    (hΩ : (202 / 100) ^ (b.params.shape.length * b.params.steps) * (M + 1 / 2 ^ 145) ≤ maxFloat)
    (hT : ∀ s < b.params.steps, (203 / 100) ^ (b.params.shape.length * (s + 1)) * (M + 1 / 2 ^ 140) ≤ ((number a : ℚ) : ℝ) * s + ((number c : ℚ) : ℝ))
    (hT2 : ∀ s < b.params.steps, ((number a : ℚ) : ℝ) * s + ((number c : ℚ) : ℝ) ≤ 2 ^ 126) :
    ∃ d : Decs F32, Buffer.decompose (α := Bits o) (bitsKit r o) b data (bitsThreshold o a c) = .ok d true ∧ d.length = b.params.signalNumber ∧
      ∀ c ∈ d, SubbandsSatisfy b.params (fun _ => ZeroBits) (EntriesWithin ((202 / 100) ^ (b.params.shape.length * b.params.steps) * (M + 1 / 2 ^ 145))) c := by
  have hv := hb.1
  have hsz : Denoiser.Sized (α := Bits o) (bitsThreshold o a c) := ⟨fun v s => List.length_map (thr o a c s), fun m s => ⟨rfl, rfl⟩⟩
  have c1 := decompose_ok (α := Bits o) (den := bitsThreshold o a c) hb (bitsKit_present (r := r) (o := o) (p := b.params) (by omega)) hch hd (fun _ => hsz)
  refine ⟨_, c1, (List.length_map _).trans hd.1, fun ch hch => ?_⟩
  obtain ⟨x, hx, rfl⟩ := List.mem_map.1 hch
  obtain ⟨k1, k2⟩ := quiet_bits hr ho hv hw (shaped_of (hd.2 x hx)) hM0 (hM x hx) hΩ
  refine satisfy_of (α := Bits o) hv hsz (shaped_of (hd.2 x hx)) (fun s hs q hq => ?_) (k2 _ rfl)
  have ha' : (0 : ℝ) ≤ number a := by exact_mod_cast ha0
  have hc' : (0 : ℝ) ≤ number c := by exact_mod_cast hc0
  have ht := threshold_float_ge hr ho ha hc (s := s) (by omega) (by rw [abs_of_nonneg ha', abs_of_nonneg hc']; exact hT2 s hs)
  rw [abs_of_nonneg ha', abs_of_nonneg hc'] at ht
  have hl : b.params.shape.length ≠ 0 := by rcases shape_cases hv with ⟨n, h, _⟩ | ⟨n, n', h, _⟩ <;> simp [h]
  obtain ⟨n, hn⟩ : ∃ n : Mat F32, n = (detailStep (α := Bits o) b.params (scaling (bitsKit r o) b.params) nullDenoiser s
    (sig (α := Bits o) b.params (scaling (bitsKit r o) b.params) (padOf (α := Bits o) b.params x) s)).getD q default := ⟨_, rfl⟩
  have e := detail_thr (o := o) a c (scaling (bitsKit r o) b.params) s hq _ n hn
  have z := thr_all_zero ((quiet_margin hM0 (mul_ne_zero hl (Nat.succ_ne_zero s)) (hT s hs)).trans ht.2) (k1 s hs q hq n hn)
  intro i hi j hj
  erw [e] at hi hj ⊢
  exact z i hi j hj

/-- C133. The archive of such a buffer: 1104 bytes for a subband at the most, and no room for values but those of the approximations. -/
theorem C133_archive (e : Ext) (he : CodecSizes e) (b : Buffer F32) (hv : ValidParams b.params) (hl : b.decs.length = b.params.signalNumber) (hch : 0 < b.params.signalNumber)
    (hside : ∀ n ∈ b.params.shape, 0 < n) (A : Mat F32 → Prop) (hz : ∀ c ∈ b.decs, SubbandsSatisfy b.params (fun _ => ZeroBits) A c)
    (old blob : Bytes) (level : ℕ) (hlevel : level ≠ 0) (h : serialize e b old level = .ok (true, blob)) :
    blob.length ≤ 30 + 8 * b.params.shape.length + b.params.signalNumber *
      (1104 * subbandCount b.params + 8 * approximationSize b.params + (approximationSize b.params + 3) / 4) := by
  have hlen : ∀ c ∈ b.decs, c.length = subbandCount b.params := fun c hc => (hz c hc).1.1
  have happ : ∀ m : Mat F32, HasShape (b.params.shape.map fun n => paddedSide b.params n / 2 ^ b.params.steps) m → m.rows * m.cols = approximationSize b.params := by
    intro m hm
    unfold approximationSize
    rcases shape_cases hv with ⟨n, hsh, _⟩ | ⟨n, n', hsh, _⟩
    · rw [hsh] at hm ⊢
      simp only [List.map_cons, List.map_nil, HasShape] at hm
      simp [hm.1, hm.2]
    · rw [hsh] at hm ⊢
      simp only [List.map_cons, List.map_nil, HasShape] at hm
      simp [hm.1, hm.2, Nat.mul_comm]
  have key : ∀ c ∈ b.decs, (c.map fun m => 1104 + 8 * nonzeroCount m + (nonzeroCount m + 3) / 4).sum ≤
      1104 * subbandCount b.params + 8 * approximationSize b.params + (approximationSize b.params + 3) / 4 := by
    intro c hc
    obtain ⟨⟨h1, h2, h3⟩, h4, h5⟩ := hz c hc
    obtain ⟨ds, m, rfl⟩ : ∃ ds m, c = ds ++ [m] := ⟨_, _, (List.dropLast_append_getLast (l := c) (by rintro rfl; simp [subbandCount] at h1)).symm⟩
    have hds : ds.length = b.params.steps * detailsPerStep b.params := by simpa [subbandCount] using h1
    have hm : m.rows * m.cols = approximationSize b.params := happ m (h3 m (by rw [← hds]; simp))
    have hd : ∀ x ∈ ds, nonzeroCount x = 0 := by
      intro x hx
      obtain ⟨i, hi, rfl⟩ := List.mem_iff_getElem.1 hx
      have hq : 0 < detailsPerStep b.params := by unfold detailsPerStep; split <;> omega
      refine nonzero_none (h4 (i / detailsPerStep b.params) (Nat.div_lt_of_lt_mul (by rw [Nat.mul_comm]; omega)) (i % detailsPerStep b.params) (Nat.mod_lt _ hq) _ ?_)
      rw [Nat.div_add_mod', List.getElem?_append_left hi, List.getElem?_eq_getElem hi]
    have e1 : (ds.map fun m => 1104 + 8 * nonzeroCount m + (nonzeroCount m + 3) / 4).sum = 1104 * ds.length := by
      rw [List.map_congr_left (g := fun _ => 1104) (fun x hx => by rw [hd x hx]), List.map_const', List.sum_replicate, smul_eq_mul, Nat.mul_comm]
    have hn := nonzero_le m
    rw [hm] at hn
    rw [List.map_append, List.sum_append, e1, List.map_singleton, List.sum_singleton, subbandCount, ← hds]
    have := Nat.div_le_div_right (c := 4) (show nonzeroCount m + 3 ≤ approximationSize b.params + 3 by omega)
    omega
  have hne : valueCount b.decs ≠ 0 := by
    intro h0
    unfold valueCount at h0
    simp only [List.sum_eq_zero_iff, List.mem_map, forall_exists_index, and_imp, forall_apply_eq_imp_iff₂] at h0
    obtain ⟨c, hc⟩ : ∃ c, c ∈ b.decs := List.exists_mem_of_length_pos (by omega)
    obtain ⟨m, hm⟩ : ∃ m, c[b.params.steps * detailsPerStep b.params]? = some m :=
      ⟨_, List.getElem?_eq_getElem (by rw [hlen c hc]; exact Nat.lt_succ_self _)⟩
    have z := h0 c hc m (List.mem_of_getElem? hm)
    rw [happ m ((hz c hc).1.2.2 m hm)] at z
    unfold approximationSize at z
    rw [List.prod_eq_zero_iff, List.mem_map] at z
    obtain ⟨n, hn, z⟩ := z
    have := side_pos hv (hside n hn) (le_refl b.params.steps)
    omega
  refine (C116_packed_size e he b old blob level hlevel hne h).trans (Nat.add_le_add_left ?_ _)
  rw [← hl]
  generalize b.decs = d at key
  induction d with
  | nil => simp
  | cons c d ih =>
    rw [List.flatten_cons, List.map_append, List.sum_append, List.length_cons, Nat.succ_mul, Nat.add_comm]
    exact Nat.add_le_add (ih fun c hc => key c (List.mem_cons_of_mem _ hc)) (key c List.mem_cons_self)

/-- The hypotheses of C133 can be met: of a recording of 1024 samples below a thousandth, a threshold of 1 leaves 32 values out of 1024, and the archive has
no more than 6926 bytes. -/
example (r : Rounding) (hr : r.IEEE) (o : FloatOps) (ho : o.Correct r) (e : Ext) (he : CodecSizes e) (f : ℕ → ℕ → F32) (hf : ∀ i j, finiteBits (f i j))
    (h1 : ∀ i j, |((number (f i j) : ℚ) : ℝ)| ≤ 1 / 1000) :
    ∃ d : Decs F32, Buffer.decompose (α := Bits o) (bitsKit r o) ⟨⟨[1024], 1, 5, 5⟩, [List.replicate 6 Mat.empty]⟩ [Mat.ofFn 1024 1 f] (bitsThreshold o 0#32 0x3f800000#32) =
      .ok d true ∧ ∀ old blob level, level ≠ 0 → serialize e ⟨⟨[1024], 1, 5, 5⟩, d⟩ old level = .ok (true, blob) → blob.length ≤ 6926 := by
  have n1 : number 0x3f800000#32 = 1 := by norm_num [number, magnitude]
  have n0 : number 0#32 = 0 := by norm_num [number, magnitude]
  have hv : ValidParams ⟨[1024], 1, 5, 5⟩ := ⟨by simp, by simp, by simp⟩
  have e145 : (1 : ℝ) / 2 ^ 140 ≤ 1 / 1000 := by norm_num
  obtain ⟨d, k1, k2, k3⟩ := C133_quiet r hr o ho ⟨⟨[1024], 1, 5, 5⟩, [List.replicate 6 Mat.empty]⟩
    ⟨hv, by simp, by simp [subbandCount, detailsPerStep]⟩ (by norm_num) (by norm_num) (by norm_num) 0#32 0x3f800000#32 (by unfold finiteBits; decide)
    (by unfold finiteBits; decide) (by rw [n0]) (by rw [n1]; norm_num) [Mat.ofFn 1024 1 f] ⟨rfl, by simp [HasShape]⟩ (1 / 1000) (by norm_num) (by
      intro x hx i hi j hj
      rw [List.mem_singleton] at hx
      subst hx
      simp only [Mat.rows_ofFn, Mat.cols_ofFn] at hi hj
      rw [Mat.get_ofFn hi hj]
      exact ⟨hf i j, h1 i j⟩) (by
      refine le_trans ?_ maxFloat_big
      norm_num) (by
      intro s hs
      have hs : s < 5 := hs
      rw [n0, n1]
      simp only [List.length_singleton, one_mul]
      calc (203 / 100 : ℝ) ^ (s + 1) * (1 / 1000 + 1 / 2 ^ 140) ≤ (203 / 100) ^ 5 * (1 / 1000 + 1 / 2 ^ 140) :=
            mul_le_mul_of_nonneg_right (pow_le_pow_right₀ (by norm_num) (by omega)) (by norm_num)
        _ ≤ _ := by norm_num) (by
      intro s hs
      rw [n0, n1]
      norm_num)
  refine ⟨d, k1, fun old blob level hlevel h => ?_⟩
  have := C133_archive e he ⟨⟨[1024], 1, 5, 5⟩, d⟩ hv k2 (by norm_num) (by simp) _ k3 old blob level hlevel h
  have e1 : approximationSize ⟨[1024], 1, 5, 5⟩ = 32 := by decide
  rw [e1] at this
  simpa [subbandCount, detailsPerStep] using this

end WB.Props
