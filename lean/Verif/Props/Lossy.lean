import Verif.Proof.Truncate
import Verif.Props.Serialize
import Verif.Props.Stability

/-!
C94: what lossy compression does to the samples. The float codec is asked for `33 - level` bits; the statements take it as cutting every
value to that many leading bits.
-/

namespace WB.Props

open Finset Spec

theorem prescribed_congr {α β : Type} {p : Params} {c : List (Mat α)} {c' : List (Mat β)}
    (h : List.Forall₂ (fun m m' => m'.rows = m.rows ∧ m'.cols = m.cols) c c') (hc : PrescribedShapes p c) : PrescribedShapes p c' := by
  have hl := h.length_eq
  have sh : ∀ l (m : Mat α) (m' : Mat β), m'.rows = m.rows ∧ m'.cols = m.cols → HasShape l m → HasShape l m' := by
    intro l m m' hm hs
    match l with
    | [] => exact hs
    | [n] => exact ⟨hm.1.trans hs.1, hm.2.trans hs.2⟩
    | [w, h] => exact ⟨hm.1.trans hs.1, hm.2.trans hs.2⟩
    | _ :: _ :: _ :: _ => exact hs
  have at' : ∀ (i : ℕ) (m' : Mat β), c'[i]? = some m' → ∃ m : Mat α, c[i]? = some m ∧ m'.rows = m.rows ∧ m'.cols = m.cols := by
    intro i m' hi
    obtain ⟨h1, h2⟩ := List.getElem?_eq_some_iff.1 hi
    have h3 : i < c.length := by omega
    refine ⟨c[i], List.getElem?_eq_getElem h3, ?_⟩
    have := h.get h3 h1
    simpa [h2] using this
  refine ⟨hl.symm.trans hc.1, ?_, ?_⟩
  · intro s hs j hj m' hm'
    obtain ⟨m, e, d⟩ := at' _ _ hm'
    exact sh _ _ _ d (hc.2.1 s hs j hj m e)
  · intro m' hm'
    obtain ⟨m, e, d⟩ := at' _ _ hm'
    exact sh _ _ _ d (hc.2.2 m e)

theorem number_zeroPattern {x : F32} (h : isZeroPattern x = true) : number x = 0 := by
  unfold isZeroPattern at h
  simp only [Bool.or_eq_true, beq_iff_eq] at h
  rcases h with rfl | rfl <;> norm_num [number, magnitude]

/-- Change of one value by storing it with `prec` bits. -/
def stored (prec : ℕ) (x : F32) : F32 := if isZeroPattern x then 0 else truncBits prec x

theorem number_stored {prec : ℕ} (x : F32) (hp : 1 ≤ prec) : number (stored prec x) = number (truncBits prec x) := by
  unfold stored
  split
  · rename_i h
    have h1 := (trunc_shrinks hp x).1
    rw [number_zeroPattern h, abs_zero] at h1
    rw [abs_nonpos_iff.1 h1]
    exact number_zeroPattern (x := 0) rfl
  · rfl

theorem expBits_stored {prec : ℕ} (x : F32) (hx : expBits x < 255) (hp : 1 ≤ prec) : expBits (stored prec x) < 255 := by
  unfold stored
  split
  · decide
  · unfold expBits at hx ⊢
    rw [toNat_truncBits]
    have hlt := x.isLt
    have hle := Nat.div_mul_le_self x.toNat (2 ^ (32 - prec))
    have e : x.toNat / 2 ^ (32 - prec) * 2 ^ (32 - prec) / 2 ^ 31 = x.toNat / 2 ^ 31 := cut_div (by omega)
    omega

/-- Distance of two subbands entry by entry. -/
theorem sqDist_le_of {m m' : Mat ℝ} {A B : ℝ}
    (h : ∀ i < m.rows, ∀ j < m.cols, (m.get i j - m'.get i j) ^ 2 ≤ A * (m.get i j * m.get i j) + B) :
    sqDist m m' ≤ A * energy m + B * (m.rows * m.cols : ℕ) := by
  unfold sqDist energy
  calc _ ≤ ∑ i ∈ range m.rows, ∑ j ∈ range m.cols, (A * (m.get i j * m.get i j) + B) :=
        sum_le_sum fun i hi => sum_le_sum fun j hj => h i (mem_range.1 hi) j (mem_range.1 hj)
    _ = _ := by
        simp only [sum_add_distrib, ← mul_sum, sum_const, card_range, nsmul_eq_mul]
        push_cast; ring

/-- Relation of a stored subband to the one read. -/
def Kept (A B : ℝ) (m m' : Mat F32) : Prop :=
  m'.rows = m.rows ∧ m'.cols = m.cols ∧
    sqDist (matNumbers m) (matNumbers m') ≤ A * energy (matNumbers m) + B * (m.rows * m.cols : ℕ)

theorem kept_of {prec : ℕ} {A B : ℝ} {m m' : Mat F32} (hp : 1 ≤ prec)
    (h : ∀ x : F32, ((number x : ℚ) - (number (truncBits prec x) : ℚ) : ℝ) ^ 2 ≤ A * ((number x : ℝ) * (number x : ℝ)) + B)
    (hm : MappedNonzeros (truncBits prec) m m') : Kept A B m m' := by
  obtain ⟨h1, h2, h3⟩ := hm
  refine ⟨h1, h2, sqDist_le_of (m := matNumbers m) ?_⟩
  intro i hi j hj
  simp only [matNumbers, Mat.rows_map, Mat.cols_map] at hi hj
  unfold matNumbers
  rw [Mat.get_map _ _ hi hj, Mat.get_map _ _ (by omega) (by omega), h3 i hi j hj]
  have e : (if isZeroPattern (m.get i j) = true then 0 else truncBits prec (m.get i j)) = stored prec (m.get i j) := rfl
  rw [e, number_stored _ hp]
  exact h _

theorem kept_sum {A B : ℝ} {c c' : List (Mat F32)} (h : List.Forall₂ (Kept A B) c c') :
    (List.zipWith sqDist (c.map matNumbers) (c'.map matNumbers)).sum ≤
      A * (c.map fun m => energy (matNumbers m)).sum + B * ((c.map fun m => m.rows * m.cols).sum : ℕ) := by
  induction h with
  | nil => simp
  | cons h _ ih =>
    simp only [List.map_cons, List.zipWith_cons_cons, List.sum_cons, Nat.cast_add] at ih ⊢
    have := h.2.2
    linarith

theorem numbers_wf {b : Buffer F32} (h : WellFormed b) : WellFormed (numbers b) := by
  refine ⟨h.1, by simpa [numbers] using h.2.1, ?_⟩
  intro c hc
  simp only [numbers, List.mem_map] at hc
  obtain ⟨c0, m0, rfl⟩ := hc
  rw [List.length_map]
  exact h.2.2 c0 m0

theorem numbers_shapes {p : Params} {d : Decs F32} (h : ∀ c ∈ d, PrescribedShapes p c) :
    ∀ c ∈ d.map (fun c => c.map matNumbers), PrescribedShapes p c := by
  intro c hc
  rw [List.mem_map] at hc
  obtain ⟨c0, m0, rfl⟩ := hc
  refine prescribed_congr ?_ (h c0 m0)
  rw [List.forall₂_map_right_iff]
  exact List.forall₂_same.2 fun m _ => ⟨rfl, rfl⟩

theorem forall₂_get {α β : Type} {R : α → β → Prop} {l : List α} {l' : List β} (h : List.Forall₂ R l l') {n : ℕ} {x : α}
    (hn : l[n]? = some x) : ∃ y, l'[n]? = some y ∧ R x y := by
  obtain ⟨h1, rfl⟩ := List.getElem?_eq_some_iff.1 hn
  have h2 : n < l'.length := by rw [← h.length_eq]; exact h1
  exact ⟨l'[n], List.getElem?_eq_getElem h2, h.get h1 h2⟩

/-- Composition after storing, for any bound on the change of single values. -/
theorem lossy_core (e : Ext) (M level : ℕ) (b : Buffer F32) (old : Bytes) (hb : WellFormed b) (hf : FitsFormat b)
    (hw : CodecsWork e truncBits) (hc : Compressible b) (hM : Room e M) (hm : FitsMemory b M) (hl : 1 ≤ level)
    (hs : ∀ c ∈ b.decs, PrescribedShapes b.params c) (ht : b.params.wtype ≤ 5) (hfin : AllFinite b) (A B : ℝ)
    (h : ∀ x : F32, ((number x : ℚ) - (number (truncBits (33 - min 31 level) x) : ℚ) : ℝ) ^ 2 ≤
      A * ((number x : ℝ) * (number x : ℝ)) + B) (s : ℕ) (hss : s ≤ b.params.steps) :
    ∃ blob b', serialize e b old level = .ok (true, blob) ∧ (blob.length ≤ M → parse e blob = .ok (some b')) ∧
      b'.params = b.params ∧ AllFinite b' ∧
      ∃ ox oy, (numbers b).compose codeKit s = .ok ox ∧ (numbers b').compose codeKit s = .ok oy ∧
        ox.length = b.params.signalNumber ∧ oy.length = b.params.signalNumber ∧
        ∀ (n : ℕ) (c : List (Mat F32)) (x y : Mat ℝ), b.decs[n]? = some c → ox[n]? = some x → oy[n]? = some y →
          SameSize x y ∧
          sqDist x y ≤ (1 + 12 / 10 ^ 12 : ℝ) ^ (b.params.shape.length * (b.params.steps - s)) / 2 ^ (b.params.shape.length * s) *
            (A * (c.map fun m => energy (matNumbers m)).sum + B * ((c.map fun m => m.rows * m.cols).sum : ℕ)) := by
  obtain ⟨blob, d', h1, h2, h3⟩ := C28_compressed_round_trip e truncBits M level b old hb hf hw hc hM hm hl
  have hp : 1 ≤ 33 - min 31 level := by omega
  have hk : List.Forall₂ (List.Forall₂ (Kept A B)) b.decs d' := h3.imp fun _ _ g => g.imp fun _ _ g => kept_of hp h g
  have hd : List.Forall₂ (List.Forall₂ fun (m m' : Mat F32) => m'.rows = m.rows ∧ m'.cols = m.cols) b.decs d' :=
    h3.imp fun _ _ g => g.imp fun _ _ g => ⟨g.1, g.2.1⟩
  have hlen : d'.length = b.decs.length := hd.length_eq.symm
  have back : ∀ c' ∈ d', ∃ c ∈ b.decs, List.Forall₂ (MappedNonzeros (truncBits (33 - min 31 level))) c c' := by
    intro c' hc'
    obtain ⟨n, hn, rfl⟩ := List.mem_iff_getElem.1 hc'
    exact ⟨b.decs[n], List.getElem_mem _, h3.get (by omega) hn⟩
  have hb' : WellFormed (Buffer.mk b.params d') := by
    refine ⟨hb.1, hlen.trans hb.2.1, ?_⟩
    intro c' hc'
    obtain ⟨c, mc, g⟩ := back c' hc'
    exact g.length_eq.symm.trans (hb.2.2 c mc)
  have hs' : ∀ c' ∈ d', PrescribedShapes b.params c' := by
    intro c' hc'
    obtain ⟨c, mc, g⟩ := back c' hc'
    exact prescribed_congr (g.imp fun _ _ g => ⟨g.1, g.2.1⟩) (hs c mc)
  obtain ⟨ox, oy, e1, e2, l1, l2, e3⟩ := C89_compose_is_stable b.params (numbers b).decs
    (numbers ⟨b.params, d'⟩).decs (numbers_wf hb) (numbers_wf hb') ht (numbers_shapes hs) (numbers_shapes hs') s hss
  refine ⟨blob, ⟨b.params, d'⟩, h1, h2, rfl, ?_, ox, oy, e1, e2, ?_, ?_, ?_⟩
  · intro c' hc' m' hm' i hi j hj
    obtain ⟨c, mc, g⟩ := back c' hc'
    obtain ⟨n, hn, rfl⟩ := List.mem_iff_getElem.1 hm'
    have hn' : n < c.length := by rw [g.length_eq]; exact hn
    obtain ⟨r1, r2, r3⟩ := g.get hn' hn
    simp only [List.get_eq_getElem] at r1 r2 r3
    rw [r3 i (by omega) j (by omega)]
    exact expBits_stored _ (hfin c mc _ (List.getElem_mem hn') i (by omega) j (by omega)) hp
  · rw [l1]; exact (numbers_wf hb).2.1
  · rw [l2]; exact (numbers_wf hb').2.1
  · intro n c x y hn hx hy
    obtain ⟨c', hn', hcc⟩ := forall₂_get hk hn
    obtain ⟨g1, g2⟩ := e3 n _ _ x y (by unfold numbers; rw [List.getElem?_map, hn]; rfl)
      (by unfold numbers; rw [List.getElem?_map, hn']; rfl) hx hy
    exact ⟨g1, g2.trans (mul_le_mul_of_nonneg_left (kept_sum hcc) (by positivity))⟩

theorem value_error {level : ℕ} (hl : 1 ≤ level) (h24 : level ≤ 24) (x : F32) :
    ((number x : ℚ) - (number (truncBits (33 - min 31 level) x) : ℚ) : ℝ) ^ 2 ≤
      ((2 : ℝ) ^ (level - 24 : ℤ)) ^ 2 * ((number x : ℝ) * (number x : ℝ)) + ((2 : ℝ) ^ (level - 150 : ℤ)) ^ 2 := by
  have e : 33 - min 31 level = 33 - level := by omega
  rw [e]
  rcases Nat.eq_zero_or_pos (expBits x) with h0 | hpos
  · have := trunc_subnormal (prec := 33 - level) (by omega) x h0
    have e2 : (2 : ℚ) ^ (32 - (33 - level)) * (2 : ℚ) ^ (-149 : ℤ) = (2 : ℚ) ^ (level - 150 : ℤ) := by
      rw [← zpow_natCast, ← zpow_add₀ (by norm_num)]; congr 1; omega
    rw [e2] at this
    have h' : |(number x : ℝ) - (number (truncBits (33 - level) x) : ℝ)| ≤ (2 : ℝ) ^ (level - 150 : ℤ) := by
      generalize (level - 150 : ℤ) = z at this ⊢
      have h := (Rat.cast_le (K := ℝ)).2 this
      push_cast at h
      exact h
    have h2 := pow_le_pow_left₀ (abs_nonneg _) h' 2
    rw [sq_abs] at h2
    refine h2.trans (le_add_of_nonneg_left (mul_nonneg (sq_nonneg _) (mul_self_nonneg _)))
  · have := trunc_relative (prec := 33 - level) (by omega) (by omega) x hpos
    have e2 : (2 : ℚ) ^ (9 - (33 - level : ℕ) : ℤ) = (2 : ℚ) ^ (level - 24 : ℤ) := by
      congr 1; omega
    rw [e2] at this
    have h' : |(number x : ℝ) - (number (truncBits (33 - level) x) : ℝ)| ≤ (2 : ℝ) ^ (level - 24 : ℤ) * |(number x : ℝ)| := by
      generalize (level - 24 : ℤ) = z at this ⊢
      have h := (Rat.cast_le (K := ℝ)).2 this
      push_cast at h
      exact h
    have h2 := pow_le_pow_left₀ (abs_nonneg _) h' 2
    rw [sq_abs, mul_pow, sq_abs, pow_two (number x : ℝ)] at h2
    exact h2.trans (le_add_of_nonneg_right (sq_nonneg _))

/-- C94. `Serialize` with level 1 to 24, `Parse`, `Compose` at scale `s`, for a float codec that cuts values to the number of leading
bits asked for: every composed channel is within `2^(level - 24)` of the channel composed from the original buffer, relative to the
Euclidean norm of its coefficients, up to the deviation of the decimals of DB1..DB5 and a term of `2^(level - 150)` per coefficient
for numbers too small to be normal. No value becomes infinite. -/
theorem C94_lossy_error (e : Ext) (M level : ℕ) (b : Buffer F32) (old : Bytes) (hb : WellFormed b) (hf : FitsFormat b)
    (hw : CodecsWork e truncBits) (hc : Compressible b) (hM : Room e M) (hm : FitsMemory b M) (hl : 1 ≤ level) (h24 : level ≤ 24)
    (hs : ∀ c ∈ b.decs, PrescribedShapes b.params c) (ht : b.params.wtype ≤ 5) (hfin : AllFinite b) (s : ℕ)
    (hss : s ≤ b.params.steps) :
    ∃ blob b', serialize e b old level = .ok (true, blob) ∧ (blob.length ≤ M → parse e blob = .ok (some b')) ∧
      b'.params = b.params ∧ AllFinite b' ∧
      ∃ ox oy, (numbers b).compose codeKit s = .ok ox ∧ (numbers b').compose codeKit s = .ok oy ∧
        ox.length = b.params.signalNumber ∧ oy.length = b.params.signalNumber ∧
        ∀ (n : ℕ) (c : List (Mat F32)) (x y : Mat ℝ), b.decs[n]? = some c → ox[n]? = some x → oy[n]? = some y →
          SameSize x y ∧
          sqDist x y ≤ (1 + 12 / 10 ^ 12 : ℝ) ^ (b.params.shape.length * (b.params.steps - s)) / 2 ^ (b.params.shape.length * s) *
            (((2 : ℝ) ^ (level - 24 : ℤ)) ^ 2 * (c.map fun m => energy (matNumbers m)).sum +
              ((2 : ℝ) ^ (level - 150 : ℤ)) ^ 2 * ((c.map fun m => m.rows * m.cols).sum : ℕ)) :=
  lossy_core e M level b old hb hf hw hc hM hm hl hs ht hfin _ _ (value_error hl h24) s hss

/-- C94 for all levels: the error is never larger than if all coefficients were lost. -/
theorem C94_any_level (e : Ext) (M level : ℕ) (b : Buffer F32) (old : Bytes) (hb : WellFormed b) (hf : FitsFormat b)
    (hw : CodecsWork e truncBits) (hc : Compressible b) (hM : Room e M) (hm : FitsMemory b M) (hl : 1 ≤ level)
    (hs : ∀ c ∈ b.decs, PrescribedShapes b.params c) (ht : b.params.wtype ≤ 5) (hfin : AllFinite b) (s : ℕ)
    (hss : s ≤ b.params.steps) :
    ∃ blob b', serialize e b old level = .ok (true, blob) ∧ (blob.length ≤ M → parse e blob = .ok (some b')) ∧
      b'.params = b.params ∧ AllFinite b' ∧
      ∃ ox oy, (numbers b).compose codeKit s = .ok ox ∧ (numbers b').compose codeKit s = .ok oy ∧
        ox.length = b.params.signalNumber ∧ oy.length = b.params.signalNumber ∧
        ∀ (n : ℕ) (c : List (Mat F32)) (x y : Mat ℝ), b.decs[n]? = some c → ox[n]? = some x → oy[n]? = some y →
          SameSize x y ∧
          sqDist x y ≤ (1 + 12 / 10 ^ 12 : ℝ) ^ (b.params.shape.length * (b.params.steps - s)) / 2 ^ (b.params.shape.length * s) *
            (c.map fun m => energy (matNumbers m)).sum := by
  have := lossy_core e M level b old hb hf hw hc hM hm hl hs ht hfin 1 0 ?_ s hss
  · simpa only [one_mul, zero_mul, add_zero] using this
  · intro x
    have h1 := (trunc_shrinks (prec := 33 - min 31 level) (by omega) x).2
    have h' : |(number x : ℝ) - (number (truncBits (33 - min 31 level) x) : ℝ)| ≤ |(number x : ℝ)| := by exact_mod_cast h1
    have h2 := pow_le_pow_left₀ (abs_nonneg _) h' 2
    rw [sq_abs, sq_abs, pow_two (number x : ℝ)] at h2
    linarith

/-- C94, the other end: from level 31 on only three values are left. What is smaller than 2 in magnitude becomes 0, everything else
becomes 2 or -2. -/
theorem C94_highest_level (e : Ext) (M level : ℕ) (b : Buffer F32) (old : Bytes) (hb : WellFormed b) (hf : FitsFormat b)
    (hw : CodecsWork e truncBits) (hc : Compressible b) (hM : Room e M) (hm : FitsMemory b M) (hl : 31 ≤ level) :
    ∃ blob d', serialize e b old level = .ok (true, blob) ∧
      (blob.length ≤ M → parse e blob = .ok (some ⟨b.params, d'⟩)) ∧
      List.Forall₂ (List.Forall₂ fun m m' => m'.rows = m.rows ∧ m'.cols = m.cols ∧ ∀ i < m.rows, ∀ j < m.cols,
        number (m'.get i j) = if |number (m.get i j)| < 2 then 0 else if 0 < number (m.get i j) then 2 else -2) b.decs d' := by
  obtain ⟨blob, d', h1, h2, h3⟩ := C28_compressed_round_trip e truncBits M level b old hb hf hw hc hM hm (by omega)
  refine ⟨blob, d', h1, h2, h3.imp fun _ _ g => g.imp fun m m' g => ⟨g.1, g.2.1, fun i hi j hj => ?_⟩⟩
  have e2 : 33 - min 31 level = 2 := by omega
  rw [g.2.2 i hi j hj, ← trunc_two, e2]
  exact number_stored (prec := 2) (m.get i j) (by omega)

/-- C94 does not hold for NaN: from level 2 on a NaN can come back as infinity. -/
theorem C94_nan_counterexample (e : Ext) (M level : ℕ) (b : Buffer F32) (old : Bytes) (hb : WellFormed b) (hf : FitsFormat b)
    (hw : CodecsWork e truncBits) (hc : Compressible b) (hM : Room e M) (hm : FitsMemory b M) (hl : 2 ≤ level) (h24 : level ≤ 24) :
    ∃ blob d', serialize e b old level = .ok (true, blob) ∧
      (blob.length ≤ M → parse e blob = .ok (some ⟨b.params, d'⟩)) ∧
      List.Forall₂ (List.Forall₂ fun m m' => ∀ i < m.rows, ∀ j < m.cols, m.get i j = 0x7f800001#32 →
        m'.get i j = 0x7f800000#32) b.decs d' := by
  obtain ⟨blob, d', h1, h2, h3⟩ := C28_compressed_round_trip e truncBits M level b old hb hf hw hc hM hm (by omega)
  refine ⟨blob, d', h1, h2, h3.imp fun _ _ g => g.imp fun m m' g => fun i hi j hj hx => ?_⟩
  rw [g.2.2 i hi j hj, hx, if_neg (by decide)]
  have e2 : 32 - (33 - min 31 level) = level - 1 := by omega
  unfold truncBits
  rw [e2]
  have : ∀ k : Fin 23, BitVec.ofNat 32 ((0x7f800001#32).toNat / 2 ^ (k.val + 1) * 2 ^ (k.val + 1)) = 0x7f800000#32 := by decide
  have h' := this ⟨level - 2, by omega⟩
  rw [show (⟨level - 2, by omega⟩ : Fin 23).val + 1 = level - 1 by simp; omega] at h'
  exact h'

theorem exTrunc_eq : exTrunc = truncBits := by
  funext prec x
  unfold exTrunc truncBits
  rw [Nat.shiftRight_eq_div_pow, Nat.shiftLeft_eq]

/-- The hypotheses are met by a signal with one Haar step and the codecs of `exExt`. -/
example : CodecsWork exExt truncBits ∧ WellFormed exSignal ∧ FitsFormat exSignal ∧ Compressible exSignal ∧ FitsMemory exSignal 1000 ∧
    Room exExt 1000 ∧ AllFinite exSignal ∧ exSignal.params.wtype ≤ 5 ∧
    (∀ c ∈ exSignal.decs, PrescribedShapes exSignal.params c) := by
  obtain ⟨h1, h2, h3, h4, h5⟩ := exSignal_ok
  refine ⟨exTrunc_eq ▸ exExt_works, h1, h2, h3, h4, h5, ?_, by decide, ?_⟩
  · unfold AllFinite exSignal; decide
  · intro c hc
    simp only [exSignal, List.mem_singleton] at hc
    subst hc
    refine ⟨by simp [exSignal, subbandCount, detailsPerStep], ?_, ?_⟩
    · intro s hs j hj m hm
      simp only [exSignal] at hs
      have : detailsPerStep exSignal.params = 1 := by simp [detailsPerStep, exSignal]
      rw [this] at hm hj
      have e : s * 1 + j = 0 := by omega
      rw [e] at hm
      simp at hm
      subst hm
      have : s = 0 := by omega
      subst this
      simp [exSignal, HasShape, paddedSide]
    · intro m hm
      have : exSignal.params.steps * detailsPerStep exSignal.params = 1 := by simp [detailsPerStep, exSignal]
      rw [this] at hm
      simp at hm
      subst hm
      simp [exSignal, HasShape, paddedSide]

/-- 1.7 stored at level 21 becomes 1.625: an error of 0.075, below 1.7/8. -/
example : truncBits (33 - min 31 21) 0x3fd9999a#32 = 0x3fd00000#32 := by decide

end WB.Props
