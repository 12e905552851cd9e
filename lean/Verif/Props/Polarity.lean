import Verif.Proof.Polarity
import Verif.Props.Mantissa
import Verif.Props.FloatBits
import Verif.Proof.SfRound

/-!
C135: a signal with the opposite sign is treated as the signal itself.
-/

namespace WB.Props

open Spec

section
variable {α : Type} [Zero α] [Add α] [Mul α] [Neg α] [Inhabited α]

/-- C135. In any arithmetic: a relation between two sets of signals that survives sums, products with the same factor and quotients holds between their coefficients,
and one that holds between coefficients holds between the signals (or previews) composed from them. -/
theorem C135_transform (k : Kit α) (R : α → α → Prop) (hR : Survives k R) (b : Buffer α) (hb : WellFormed b) (hk : FilterPresent k b.params)
    (hch : 0 < b.params.signalNumber) (den : Denoiser α) (hden : KeepsSizes den) (hd' : DenoiserKeeps R den) (data data' : List (Mat α))
    (hd : IsSignal b.params data) (h : List.Forall₂ (RelatedMats R) data data') :
    ∃ d d', b.decompose k data den = .ok d true ∧ b.decompose k data' den = .ok d' true ∧ RelatedDecs R d d' ∧ ∀ s ≤ b.params.steps, ∃ out out',
      (Buffer.mk b.params d).compose k s = .ok out ∧ (Buffer.mk b.params d').compose k s = .ok out' ∧ List.Forall₂ (RelatedMats R) out out' := by
  have hv := hb.1
  have sh : ∀ m ∈ data, Shaped b.params m := fun m hm => shaped_of (hd.2 m hm)
  have hdd : IsSignal b.params data' := by
    refine ⟨h.length_eq ▸ hd.1, fun m hm => ?_⟩
    obtain ⟨n, hn, rfl⟩ := List.mem_iff_getElem.1 hm
    have hn' : n < data.length := by rw [h.length_eq]; exact hn
    have g := h.get hn' hn
    have g' := hd.2 _ (List.getElem_mem hn')
    simp only [List.get_eq_getElem] at g
    rcases shape_cases hv with ⟨a, hsh, _⟩ | ⟨a, c, hsh, _⟩ <;> rw [hsh] at g' ⊢
    · exact ⟨g.1.trans g'.1, g.2.1.trans g'.2⟩
    · exact ⟨g.1.trans g'.1, g.2.1.trans g'.2⟩
  have sh' : ∀ m ∈ data', Shaped b.params m := fun m hm => shaped_of (hdd.2 m hm)
  have rel : RelatedDecs R (data.map (chanP b.params (scaling k b.params) den)) (data'.map (chanP b.params (scaling k b.params) den)) := by
    unfold RelatedDecs
    rw [List.forall₂_map_left_iff, List.forall₂_map_right_iff, List.forall₂_iff_get]
    refine ⟨h.length_eq, fun n h1 h2 => ?_⟩
    exact chan_rel hR _ hd' (h.get h1 h2) hv (sh _ (List.get_mem data ⟨n, h1⟩))
  have sz : ∀ (dd : List (Mat α)), (∀ m ∈ dd, Shaped b.params m) → ∀ c ∈ dd.map (chanP b.params (scaling k b.params) den), SizedChan b.params c := by
    intro dd hdd c hc
    obtain ⟨m, hm, rfl⟩ := List.mem_map.1 hc
    exact chanP_sized hv hden (hdd m hm)
  refine ⟨_, _, decompose_ok hb hk hch hd (fun _ => hden), decompose_ok hb hk hch hdd (fun _ => hden), rel, fun s hs => ⟨_, _,
    compose_ok (b := ⟨b.params, data.map (chanP b.params (scaling k b.params) den)⟩) hv (by simpa using hd.1) hk (sz data sh) hs,
    compose_ok (b := ⟨b.params, data'.map (chanP b.params (scaling k b.params) den)⟩) hv (by simpa using hdd.1) hk (sz data' sh') hs, ?_⟩⟩
  show List.Forall₂ _ ((data.map _).map _) ((data'.map _).map _)
  rw [List.forall₂_map_left_iff, List.forall₂_map_right_iff, List.forall₂_iff_get]
  refine ⟨rel.length_eq, fun n h1 h2 => out_rel hR hv hs (sz data sh _ (List.get_mem _ _)) (rel.get h1 h2)⟩

theorem compose_rel (k : Kit α) (R : α → α → Prop) (hR : Survives k R) {p : Params} (hv : ValidParams p) (hk : FilterPresent k p) {d d' : Decs α}
    (hl : d.length = p.signalNumber) (hc : ∀ c ∈ d, SizedChan p c) (hc' : ∀ c ∈ d', SizedChan p c) (h : RelatedDecs R d d') {s : ℕ} (hs : s ≤ p.steps) :
    ∃ out out', (Buffer.mk p d).compose k s = .ok out ∧ (Buffer.mk p d').compose k s = .ok out' ∧ List.Forall₂ (RelatedMats R) out out' := by
  refine ⟨_, _, compose_ok (b := ⟨p, d⟩) hv hl hk hc hs, compose_ok (b := ⟨p, d'⟩) hv (by show d'.length = _; rw [← h.length_eq]; exact hl) hk hc' hs, ?_⟩
  rw [List.forall₂_map_left_iff, List.forall₂_map_right_iff, List.forall₂_iff_get]
  exact ⟨h.length_eq, fun n h1 h2 => out_rel hR hv hs (hc _ (List.get_mem _ _)) (h.get h1 h2)⟩

end

theorem opposite_zero : Opposite 0#32 0#32 := Or.inr (Or.inl ⟨rfl, rfl⟩)

theorem survives_bits {r : Rounding} {o : FloatOps} (ho : SignBlind o) : Survives (α := Bits o) (bitsKit r o) Opposite :=
  ⟨opposite_zero, opposite_zero, fun x x' y y' h h' => ho.add x x' y y' h h', fun x x' c h => ho.mul x x' c h, fun t s x x' h => ho.div t s x x' h⟩

theorem null_keeps {α : Type} [Inhabited α] (R : α → α → Prop) : DenoiserKeeps R (nullDenoiser : Denoiser α) := ⟨fun _ _ _ h => h, fun _ _ _ h => h⟩

theorem map_keeps {α : Type} [Inhabited α] {R : α → α → Prop} {f : ℕ → α → α} (h : ∀ s x x', R x x' → R (f s x) (f s x')) :
    DenoiserKeeps R (⟨fun v s => v.map (f s), fun m s => m.map (f s)⟩ : Denoiser α) := by
  refine ⟨fun v v' s hv => ?_, fun m m' s hm => ⟨hm.1, hm.2.1, fun i hi j hj => ?_⟩⟩
  · show List.Forall₂ R _ _
    rw [List.forall₂_map_left_iff, List.forall₂_map_right_iff]
    exact List.Forall₂.imp (fun x x' => h s x x') hv
  · simp only [Mat.rows_map, Mat.cols_map] at hi hj
    rw [Mat.get_map _ _ hi hj, Mat.get_map _ _ (by rw [hm.1]; exact hi) (by rw [hm.2.1]; exact hj)]
    exact h s _ _ (hm.2.2 i hi j hj)

theorem abs_nan {x : F32} (h : isNaN x) : isNaN (absBits x) := by
  unfold isNaN expBits absBits at *
  rw [BitVec.toNat_ofNat]
  omega

theorem abs_opposite {x y : F32} (h : Opposite x y) : absBits x = absBits y ∨ isNaN (absBits x) ∧ isNaN (absBits y) := by
  rcases h with ⟨h, _⟩ | ⟨h1, h2⟩ | ⟨h1, h2⟩
  · exact Or.inl (by unfold absBits; rw [h])
  · rw [zero_iff] at h1 h2
    refine Or.inl ?_
    unfold absBits
    congr 1
    omega
  · exact Or.inr ⟨abs_nan h1, abs_nan h2⟩

theorem threshold_keeps_of {α : Type} [Zero α] [Add α] [Mul α] [NatCast α] [LT α] [DecidableLT α] [Inhabited α] {R : α → α → Prop} (h0 : R 0 0) {abs : α → α} {a b : α}
    (h : ∀ t x x', R x x' → (t < abs x ↔ t < abs x')) : DenoiserKeeps R (thresholdDenoiser abs a b) := by
  refine map_keeps (f := fun s x => if getThreshold a b s < abs x then x else 0) fun s x x' hx => ?_
  by_cases hc : getThreshold a b s < abs x
  · rw [if_pos hc, if_pos ((h _ _ _ hx).1 hc)]; exact hx
  · rw [if_neg hc, if_neg (fun g => hc ((h _ _ _ hx).2 g))]; exact h0

theorem threshold_keeps (o : FloatOps) (a b : F32) : DenoiserKeeps Opposite (bitsThreshold o a b) := by
  refine threshold_keeps_of (α := Bits o) (R := Opposite) opposite_zero fun t x x' h => ?_
  show (_ ∧ _ ∧ _) ↔ (_ ∧ _ ∧ _)
  rcases abs_opposite h with e | ⟨n1, n2⟩
  · rw [e]
  · exact ⟨fun hc => absurd n1 hc.2.1, fun hc => absurd n2 hc.2.1⟩

/-- C135. With `float` operations that do not prefer a sign: if every sample is replaced by its opposite, every coefficient and every sample of every preview is replaced
by its opposite, to the last bit, also when details are denoised with the null or a threshold denoiser (`threshold_keeps`). -/
theorem C135_polarity (r : Rounding) (o : FloatOps) (ho : SignBlind o) (b : Buffer F32) (hb : WellFormed b) (hw : b.params.wtype ≤ 5)
    (hch : 0 < b.params.signalNumber) (den : Denoiser F32) (hden : den = nullDenoiser ∨ ∃ a c, den = bitsThreshold o a c) (data data' : List (Mat F32))
    (hd : IsSignal b.params data) (h : List.Forall₂ (RelatedMats Opposite) data data') :
    ∃ d d' : Decs F32, Buffer.decompose (α := Bits o) (bitsKit r o) b data den = .ok d true ∧ Buffer.decompose (α := Bits o) (bitsKit r o) b data' den = .ok d' true ∧
      RelatedDecs Opposite d d' ∧ ∀ s ≤ b.params.steps, ∃ out out' : List (Mat F32), Buffer.compose (α := Bits o) (bitsKit r o) ⟨b.params, d⟩ s = .ok out ∧
        Buffer.compose (α := Bits o) (bitsKit r o) ⟨b.params, d'⟩ s = .ok out' ∧ List.Forall₂ (RelatedMats Opposite) out out' := by
  refine C135_transform (α := Bits o) (bitsKit r o) Opposite (survives_bits ho) b hb (bitsKit_present (by omega)) hch den ?_ ?_ data data' hd h
  · rcases hden with rfl | ⟨a, c, rfl⟩
    · exact ⟨fun _ _ => rfl, fun _ _ => ⟨rfl, rfl⟩⟩
    · exact ⟨fun v s => List.length_map _, fun m s => ⟨rfl, rfl⟩⟩
  · rcases hden with rfl | ⟨a, c, rfl⟩
    · exact null_keeps Opposite
    · exact threshold_keeps o a c

theorem trunc_opposite {p : ℕ} (hp : 2 ≤ p) {x x' y y' : F32} (h : Opposite x x') (hx : finiteBits x) (hy : SameExceptZeroSign y (truncBits p x))
    (hy' : SameExceptZeroSign y' (truncBits p x')) : Opposite y y' := by
  have key : Opposite (truncBits p x) (truncBits p x') ∧ (isZeroPattern (truncBits p x) = true ↔ isZeroPattern (truncBits p x') = true) := by
    have hq : 32 - p ≤ 30 := by omega
    have hdiv : (2 : ℕ) ^ 31 = 2 ^ (32 - p) * 2 ^ (31 - (32 - p)) := by rw [← pow_add]; congr 1; omega
    have flip : ∀ a b : F32, b.toNat = a.toNat + 2 ^ 31 → (truncBits p b).toNat = (truncBits p a).toNat + 2 ^ 31 := by
      intro a b e
      rw [truncBits_toNat, truncBits_toNat, e, hdiv, Nat.add_mul_div_left _ _ (by positivity), add_mul, mul_comm (2 ^ (31 - (32 - p)))]
    rcases h with ⟨h1, h2⟩ | ⟨h1, h2⟩ | ⟨h1, h2⟩
    · have a1 := x.isLt
      have a2 := x'.isLt
      have b1 := (truncBits p x).isLt
      have b2 := (truncBits p x').isLt
      have : x'.toNat = x.toNat + 2 ^ 31 ∨ x.toNat = x'.toNat + 2 ^ 31 := by omega
      rcases this with e | e
      · have := flip _ _ e
        rw [zero_iff, zero_iff]
        refine ⟨Or.inl ⟨by omega, by omega⟩, by omega⟩
      · have := flip _ _ e
        rw [zero_iff, zero_iff]
        refine ⟨Or.inl ⟨by omega, by omega⟩, by omega⟩
    · have z : ∀ a : F32, isZeroPattern a = true → isZeroPattern (truncBits p a) = true := by
        intro a ha
        rw [zero_iff] at ha ⊢
        rw [truncBits_toNat]
        rcases ha with ha | ha
        · left; rw [ha]; simp
        · right
          rw [ha, hdiv, Nat.mul_div_cancel_left _ (by positivity), mul_comm]
      exact ⟨Or.inr (Or.inl ⟨z _ h1, z _ h2⟩), by rw [z _ h1, z _ h2]⟩
    · exfalso
      unfold finiteBits at hx
      unfold isNaN at h1
      omega
  obtain ⟨k1, k2⟩ := key
  rcases hy with rfl | ⟨hy1, hy2⟩ <;> rcases hy' with rfl | ⟨hz1, hz2⟩
  · exact k1
  · exact Or.inr (Or.inl ⟨k2.2 hz2, hz1⟩)
  · exact Or.inr (Or.inl ⟨hy1, k2.1 hy2⟩)
  · exact Or.inr (Or.inl ⟨hy1, hz1⟩)

/-- C135. The same after both buffers went through archives of the same level, for coefficients that are finite. -/
theorem C135_archive (e : Ext) (Mem level : ℕ) (hw : CodecsWork e truncBits) (hM : Room e Mem) (p : Params) (d d' : Decs F32) (b1 b1' : Buffer F32)
    (hb : WellFormed ⟨p, d⟩) (hb' : WellFormed ⟨p, d'⟩) (hf : FitsFormat ⟨p, d⟩) (hf' : FitsFormat ⟨p, d'⟩) (hc : Compressible ⟨p, d⟩) (hc' : Compressible ⟨p, d'⟩)
    (hm : FitsMemory ⟨p, d⟩ Mem) (hm' : FitsMemory ⟨p, d'⟩ Mem) (hn : AllFinite ⟨p, d⟩) (h : RelatedDecs Opposite d d')
    (hg : Generations e Mem [level] ⟨p, d⟩ b1) (hg' : Generations e Mem [level] ⟨p, d'⟩ b1') : b1'.params = b1.params ∧ RelatedDecs Opposite b1.decs b1'.decs := by
  obtain ⟨c1, c2⟩ := generation_cut hw hM hb hf hc hm hg
  obtain ⟨c1', c2'⟩ := generation_cut hw hM hb' hf' hc' hm' hg'
  refine ⟨c1'.trans c1.symm, ?_⟩
  unfold RelatedDecs at h ⊢
  rw [List.forall₂_iff_get]
  have c2 : List.Forall₂ _ d b1.decs := c2
  have c2' : List.Forall₂ _ d' b1'.decs := c2'
  refine ⟨by rw [← c2.length_eq, ← c2'.length_eq, h.length_eq], fun n h1 h2 => ?_⟩
  have i1 : n < d.length := by rw [c2.length_eq]; exact h1
  have i2 : n < d'.length := by rw [c2'.length_eq]; exact h2
  have q := c2.get i1 h1
  have q' := c2'.get i2 h2
  have g := h.get i1 i2
  rw [List.forall₂_iff_get]
  refine ⟨by rw [← q.length_eq, ← q'.length_eq, g.length_eq], fun l h3 h4 => ?_⟩
  have j1 : l < (d.get ⟨n, i1⟩).length := by rw [q.length_eq]; exact h3
  have j2 : l < (d'.get ⟨n, i2⟩).length := by rw [q'.length_eq]; exact h4
  obtain ⟨u1, u2, u3⟩ := q.get j1 h3
  obtain ⟨v1, v2, v3⟩ := q'.get j2 h4
  obtain ⟨w1, w2, w3⟩ := g.get j1 j2
  refine ⟨by rw [v1, w1, u1], by rw [v2, w2, u2], fun i hi j hj => ?_⟩
  rw [u1] at hi
  rw [u2] at hj
  exact trunc_opposite (by omega) (w3 i hi j hj) (hn _ (List.get_mem _ _) _ (List.get_mem _ _) i hi j hj) (u3 i hi j hj)
    (v3 i (by rw [w1]; exact hi) j (by rw [w2]; exact hj))

theorem magnitude_step (n : ℕ) : magnitude n < magnitude (n + 1) := by
  rcases Nat.eq_zero_or_pos (n / 2 ^ 23) with h | h
  · have e1 : magnitude n = (n : ℚ) * 2 ^ (-149 : ℤ) := by unfold magnitude; rw [if_pos h]
    have e2 : magnitude (n + 1) = ((n : ℚ) + 1) * 2 ^ (-149 : ℤ) := by
      rcases Nat.lt_or_ge (n + 1) (2 ^ 23) with h2 | h2
      · unfold magnitude
        rw [if_pos (by omega)]
        push_cast
        ring
      · rw [magnitude_linear (e := 1) (by norm_num) (by omega) (by omega)]
        push_cast
        norm_num
    rw [e1, e2]
    have : (0 : ℚ) < 2 ^ (-149 : ℤ) := by positivity
    nlinarith
  · rw [magnitude_linear (e := n / 2 ^ 23) h (by omega) (by omega), magnitude_linear (n := n + 1) (e := n / 2 ^ 23) h (by omega) (by omega)]
    refine mul_lt_mul_of_pos_right ?_ (by positivity)
    rw [Nat.cast_add_one]
    linarith

theorem magnitude_inj {a b : ℕ} (h : magnitude a = magnitude b) : a = b :=
  (strictMono_nat_of_lt_succ magnitude_step).injective h

/-- Opposite numbers have opposite patterns. -/
theorem opposite_of_number {x y : F32} (h : number y = -number x) : Opposite x y := by
  have e : y.toNat % 2 ^ 31 = x.toNat % 2 ^ 31 := by
    refine magnitude_inj ?_
    rw [← abs_number, ← abs_number, h, abs_neg]
  by_cases hs : y.toNat / 2 ^ 31 = x.toNat / 2 ^ 31
  · have e2 : y = x := BitVec.eq_of_toNat_eq (by omega)
    rw [e2] at h
    have hz : magnitude (x.toNat % 2 ^ 31) = magnitude 0 := by
      rw [← abs_number, show number x = 0 by linarith]
      simp [magnitude]
    have hz := magnitude_inj hz
    have := x.isLt
    refine Or.inr (Or.inl ?_)
    rw [e2, zero_iff]
    omega
  · exact Or.inl ⟨e, hs⟩

theorem number_of_opposite {x y : F32} (h : Opposite x y) (hx : finiteBits x) : finiteBits y ∧ number y = -number x := by
  rcases h with ⟨h1, h2⟩ | ⟨h1, h2⟩ | ⟨h1, _⟩
  · refine ⟨by unfold finiteBits expBits at hx ⊢; omega, ?_⟩
    have := x.isLt
    have := y.isLt
    unfold number
    rw [h1]
    rcases Nat.eq_zero_or_pos (x.toNat / 2 ^ 31) with h | h
    · rw [if_pos h, if_neg (by omega)]; ring
    · rw [if_neg (show ¬ x.toNat / 2 ^ 31 = 0 by omega), if_pos (show y.toNat / 2 ^ 31 = 0 by omega)]; ring
  · rw [number_zeroPattern h1, number_zeroPattern h2]
    rw [zero_iff] at h2
    exact ⟨by unfold finiteBits expBits; omega, by norm_num⟩
  · unfold finiteBits at hx
    unfold isNaN at h1
    omega

theorem opposite_symm {x y : F32} (h : Opposite x y) : Opposite y x := by
  rcases h with ⟨h1, h2⟩ | ⟨h1, h2⟩ | ⟨h1, h2⟩
  · exact Or.inl ⟨h1.symm, h2.symm⟩
  · exact Or.inr (Or.inl ⟨h2, h1⟩)
  · exact Or.inr (Or.inr ⟨h2, h1⟩)

/-- C135. That the operations do not prefer a sign follows from IEEE 754 with a symmetric rounding, for sums and products of finite numbers that are in range. -/
theorem C135_blind (r : Rounding) (hr : ∀ x, r.toFloat (-x) = -r.toFloat x) (o : FloatOps) (ho : o.Correct r) (x x' y y' : F32) (hx : finiteBits x) (hy : finiteBits y)
    (h : Opposite x x') (h' : Opposite y y') :
    (|r.toFloat ((number x : ℝ) + number y)| ≤ maxFloat → Opposite (o.add x y) (o.add x' y')) ∧
      (|r.toFloat ((number x : ℝ) * number y)| ≤ maxFloat → Opposite (o.mul x y) (o.mul x' y) ∧ Opposite (o.mul y x) (o.mul y x')) := by
  obtain ⟨fx, nx⟩ := number_of_opposite h hx
  obtain ⟨fy, ny⟩ := number_of_opposite h' hy
  refine ⟨fun hb => opposite_of_number ?_, fun hb => ⟨opposite_of_number ?_, opposite_of_number ?_⟩⟩
  · have e : r.toFloat ((number x' : ℝ) + number y') = -r.toFloat ((number x : ℝ) + number y) := by
      rw [← hr, nx, ny]; push_cast; congr 1; ring
    have g := (ho.add x y hx hy hb).2
    have g' := (ho.add x' y' fx fy (by rw [e, abs_neg]; exact hb)).2
    rw [e, ← g] at g'
    exact_mod_cast g'
  · have e : r.toFloat ((number x' : ℝ) * number y) = -r.toFloat ((number x : ℝ) * number y) := by
      rw [← hr, nx]; push_cast; congr 1; ring
    have g := (ho.mul x y hx hy hb).2
    have g' := (ho.mul x' y fx hy (by rw [e, abs_neg]; exact hb)).2
    rw [e, ← g] at g'
    exact_mod_cast g'
  · have e : r.toFloat ((number y : ℝ) * number x') = -r.toFloat ((number y : ℝ) * number x) := by
      rw [← hr, nx]; push_cast; congr 1; ring
    have hb : |r.toFloat ((number y : ℝ) * number x)| ≤ maxFloat := by rwa [mul_comm]
    have g := (ho.mul y x hy hx hb).2
    have g' := (ho.mul y x' hy fx (by rw [e, abs_neg]; exact hb)).2
    rw [e, ← g] at g'
    exact_mod_cast g'

private def exFlip (x : F32) : F32 := if x.toNat < 2 ^ 31 then BitVec.ofNat 32 (x.toNat + 2 ^ 31) else BitVec.ofNat 32 (x.toNat - 2 ^ 31)

private theorem exFlip_toNat (x : F32) : (exFlip x).toNat = if x.toNat < 2 ^ 31 then x.toNat + 2 ^ 31 else x.toNat - 2 ^ 31 := by
  unfold exFlip
  have := x.isLt
  split_ifs <;> rw [BitVec.toNat_ofNat] <;> omega

private theorem exFlip_opposite (x : F32) : Opposite x (exFlip x) := by
  have := x.isLt
  refine Or.inl ?_
  rw [exFlip_toNat]
  split_ifs <;> omega

/-- The hypotheses of C135 can be met: whatever correct operations with a symmetric rounding there are, some that differ from them only where IEEE 754 is not
specified here do not prefer a sign; and a signal of 1000 samples has an opposite. -/
example (r : Rounding) (hr : ∀ x, r.toFloat (-x) = -r.toFloat x) (o : FloatOps) (ho : o.Correct r) (f : ℕ → F32) :
    ∃ o' : FloatOps, o'.Correct r ∧ SignBlind o' ∧ ∃ d d' : Decs F32,
      Buffer.decompose (α := Bits o') (bitsKit r o') ⟨⟨[1000], 1, 5, 3⟩, [List.replicate 6 Mat.empty]⟩ [Mat.ofFn 1000 1 fun i _ => f i] nullDenoiser = .ok d true ∧
      Buffer.decompose (α := Bits o') (bitsKit r o') ⟨⟨[1000], 1, 5, 3⟩, [List.replicate 6 Mat.empty]⟩ [Mat.ofFn 1000 1 fun i _ => exFlip (f i)] nullDenoiser = .ok d' true ∧
      RelatedDecs Opposite d d' := by
  classical
  let nan : F32 := 0x7fc00000#32
  have hnan : Opposite nan nan := Or.inr (Or.inr ⟨by unfold isNaN expBits; decide, by unfold isNaN expBits; decide⟩)
  let o' : FloatOps := { o with
    add := fun x y => if finiteBits x ∧ finiteBits y ∧ |r.toFloat ((number x : ℝ) + number y)| ≤ maxFloat then o.add x y else nan
    mul := fun x y => if finiteBits x ∧ finiteBits y ∧ |r.toFloat ((number x : ℝ) * number y)| ≤ maxFloat then o.mul x y else nan
    div := fun t s x => if isZeroPattern x then x else if isNaN x then x else if x.toNat < 2 ^ 31 then o.div t s x else exFlip (o.div t s (exFlip x)) }
  have fin : ∀ {x x' : F32}, Opposite x x' → (finiteBits x ↔ finiteBits x') := fun h =>
    ⟨fun g => (number_of_opposite h g).1, fun g => (number_of_opposite (opposite_symm h) g).1⟩
  have hb : SignBlind o' := by
    refine ⟨fun x x' y y' h h' => ?_, fun x x' c h => ⟨?_, ?_⟩, fun t s x x' h => ?_⟩
    · show Opposite (if _ then _ else _) (if _ then _ else _)
      by_cases hc : finiteBits x ∧ finiteBits y ∧ |r.toFloat ((number x : ℝ) + number y)| ≤ maxFloat
      · have hc' : finiteBits x' ∧ finiteBits y' ∧ |r.toFloat ((number x' : ℝ) + number y')| ≤ maxFloat := by
          obtain ⟨a1, a2⟩ := number_of_opposite h hc.1
          obtain ⟨b1, b2⟩ := number_of_opposite h' hc.2.1
          refine ⟨a1, b1, ?_⟩
          rw [a2, b2]
          push_cast
          rw [← neg_add, hr, abs_neg]
          exact hc.2.2
        rw [if_pos hc, if_pos hc']
        exact (C135_blind r hr o ho x x' y y' hc.1 hc.2.1 h h').1 hc.2.2
      · have hc' : ¬ (finiteBits x' ∧ finiteBits y' ∧ |r.toFloat ((number x' : ℝ) + number y')| ≤ maxFloat) := by
          intro hc'
          apply hc
          obtain ⟨a1, a2⟩ := number_of_opposite (opposite_symm h) hc'.1
          obtain ⟨b1, b2⟩ := number_of_opposite (opposite_symm h') hc'.2.1
          refine ⟨a1, b1, ?_⟩
          rw [a2, b2]
          push_cast
          rw [← neg_add, hr, abs_neg]
          exact hc'.2.2
        rw [if_neg hc, if_neg hc']
        exact hnan
    · show Opposite (if _ then _ else _) (if _ then _ else _)
      have key : ∀ {x x' : F32}, Opposite x x' → finiteBits x ∧ finiteBits c ∧ |r.toFloat ((number x : ℝ) * number c)| ≤ maxFloat →
          finiteBits x' ∧ finiteBits c ∧ |r.toFloat ((number x' : ℝ) * number c)| ≤ maxFloat := by
        intro x x' h hc
        obtain ⟨a1, a2⟩ := number_of_opposite h hc.1
        refine ⟨a1, hc.2.1, ?_⟩
        rw [a2]
        push_cast
        rw [neg_mul, hr, abs_neg]
        exact hc.2.2
      by_cases hc : finiteBits x ∧ finiteBits c ∧ |r.toFloat ((number x : ℝ) * number c)| ≤ maxFloat
      · rw [if_pos hc, if_pos (key h hc)]
        exact ((C135_blind r hr o ho x x' c (exFlip c) hc.1 hc.2.1 h (exFlip_opposite c)).2 hc.2.2).1
      · rw [if_neg hc, if_neg fun hc' => hc (key (opposite_symm h) hc')]
        exact hnan
    · show Opposite (if _ then _ else _) (if _ then _ else _)
      have key : ∀ {x x' : F32}, Opposite x x' → finiteBits c ∧ finiteBits x ∧ |r.toFloat ((number c : ℝ) * number x)| ≤ maxFloat →
          finiteBits c ∧ finiteBits x' ∧ |r.toFloat ((number c : ℝ) * number x')| ≤ maxFloat := by
        intro x x' h hc
        obtain ⟨a1, a2⟩ := number_of_opposite h hc.2.1
        refine ⟨hc.1, a1, ?_⟩
        rw [a2]
        push_cast
        rw [mul_neg, hr, abs_neg]
        exact hc.2.2
      by_cases hc : finiteBits c ∧ finiteBits x ∧ |r.toFloat ((number c : ℝ) * number x)| ≤ maxFloat
      · rw [if_pos hc, if_pos (key h hc)]
        exact ((C135_blind r hr o ho x x' c (exFlip c) hc.2.1 hc.1 h (exFlip_opposite c)).2 (by rw [mul_comm]; exact hc.2.2)).2
      · rw [if_neg hc, if_neg fun hc' => hc (key (opposite_symm h) hc')]
        exact hnan
    · show Opposite (if _ then _ else _) (if _ then _ else _)
      have ff : ∀ x x' : F32, x'.toNat % 2 ^ 31 = x.toNat % 2 ^ 31 → x'.toNat / 2 ^ 31 ≠ x.toNat / 2 ^ 31 → x.toNat < 2 ^ 31 → ¬ x'.toNat < 2 ^ 31 ∧ exFlip x' = x := by
        intro x x' h1 h2 h3
        have := x'.isLt
        refine ⟨by omega, BitVec.eq_of_toNat_eq ?_⟩
        rw [exFlip_toNat, if_neg (by omega)]
        omega
      rcases h with ⟨h1, h2⟩ | ⟨h1, h2⟩ | ⟨h1, h2⟩
      · have z : isZeroPattern x = true ↔ isZeroPattern x' = true := by
          have := x.isLt
          have := x'.isLt
          rw [zero_iff, zero_iff]
          omega
        have n : isNaN x ↔ isNaN x' := by
          unfold isNaN expBits
          omega
        by_cases hz : isZeroPattern x = true
        · rw [if_pos hz, if_pos (z.1 hz)]
          exact Or.inl ⟨h1, h2⟩
        · rw [if_neg hz, if_neg (fun g => hz (z.2 g))]
          by_cases hn : isNaN x
          · rw [if_pos hn, if_pos (n.1 hn)]
            exact Or.inl ⟨h1, h2⟩
          · rw [if_neg hn, if_neg (fun g => hn (n.2 g))]
            by_cases hs : x.toNat < 2 ^ 31
            · obtain ⟨g1, g2⟩ := ff x x' h1 h2 hs
              rw [if_pos hs, if_neg g1, g2]
              exact exFlip_opposite _
            · have hs' : x'.toNat < 2 ^ 31 := by
                have := x.isLt
                have := x'.isLt
                omega
              obtain ⟨g1, g2⟩ := ff x' x h1.symm h2.symm hs'
              rw [if_neg hs, if_pos hs', g2]
              exact opposite_symm (exFlip_opposite _)
      · rw [if_pos h1, if_pos h2]
        exact Or.inr (Or.inl ⟨h1, h2⟩)
      · have nz : ∀ a : F32, isNaN a → ¬ isZeroPattern a = true := by
          intro a ha g
          rw [zero_iff] at g
          unfold isNaN expBits at ha
          omega
        rw [if_neg (nz _ h1), if_neg (nz _ h2), if_pos h1, if_pos h2]
        exact Or.inr (Or.inr ⟨h1, h2⟩)
  have hc : o'.Correct r := by
    refine ⟨fun x y hx hy h => ?_, fun x y hx hy h => ?_, ho.neg, ho.store, fun t s x hx => ?_⟩
    · have e : o'.add x y = o.add x y := if_pos ⟨hx, hy, h⟩
      rw [e]
      exact ho.add x y hx hy h
    · have e : o'.mul x y = o.mul x y := if_pos ⟨hx, hy, h⟩
      rw [e]
      exact ho.mul x y hx hy h
    · show finiteBits (if _ then _ else _) ∧ |((number (if _ then _ else _) : ℚ) : ℝ) - _| ≤ _
      by_cases hz : isZeroPattern x = true
      · rw [if_pos hz, number_zeroPattern hz]
        exact ⟨hx, by norm_num⟩
      · rw [if_neg hz, if_neg (show ¬ isNaN x by unfold finiteBits at hx; unfold isNaN; omega)]
        by_cases hs : x.toNat < 2 ^ 31
        · rw [if_pos hs]
          exact ho.div t s x hx
        · rw [if_neg hs]
          obtain ⟨a1, a2⟩ := number_of_opposite (exFlip_opposite x) hx
          obtain ⟨b1, b2⟩ := ho.div t s (exFlip x) a1
          obtain ⟨c1, c2⟩ := number_of_opposite (exFlip_opposite _) b1
          refine ⟨c1, ?_⟩
          rw [c2]
          rw [a2] at b2
          push_cast at b2 ⊢
          rw [neg_div, abs_neg] at b2
          rwa [← abs_neg, show -(-((number (o.div t s (exFlip x)) : ℚ) : ℝ) - ((number x : ℚ) : ℝ) / (if t = true then 2 else √2) ^ s) =
            ((number (o.div t s (exFlip x)) : ℚ) : ℝ) - -(((number x : ℚ) : ℝ) / (if t = true then 2 else √2) ^ s) by ring]
  obtain ⟨d, d', k1, k2, k3, _⟩ := C135_polarity r o' hb ⟨⟨[1000], 1, 5, 3⟩, [List.replicate 6 Mat.empty]⟩
    ⟨⟨by simp, by simp, by simp⟩, by simp, by simp [subbandCount, detailsPerStep]⟩ (by norm_num) (by norm_num) nullDenoiser (Or.inl rfl)
    [Mat.ofFn 1000 1 fun i _ => f i] [Mat.ofFn 1000 1 fun i _ => exFlip (f i)] ⟨rfl, by simp [HasShape]⟩
    (.cons (ofFn_rel rfl rfl fun i _ _ _ => exFlip_opposite (f i)) .nil)
  exact ⟨o', hc, hb, d, d', k1, k2, k3⟩

end WB.Props
