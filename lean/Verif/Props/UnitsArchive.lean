import Verif.Spec.UnitsArchive
import Verif.Props.Units
import Verif.Props.Generations
import Verif.Proof.LevelOrder
import Verif.Proof.Truncate

/-!
C148: archives of buffers in a unit that differs by a power of two.
-/

namespace WB.Props

open Spec

theorem normal_bits {x : F32} (h : minNormal ≤ |(number x : ℝ)|) : x.toNat % 2 ^ 31 / 2 ^ 23 ≠ 0 := by
  intro h0
  have e : |number x| < 1 / 2 ^ 126 := by
    rw [abs_number]
    unfold magnitude
    rw [if_pos h0]
    have : ((x.toNat % 2 ^ 31 : ℕ) : ℚ) < 2 ^ 23 := by exact_mod_cast (by omega : x.toNat % 2 ^ 31 < 2 ^ 23)
    calc ((x.toNat % 2 ^ 31 : ℕ) : ℚ) * 2 ^ (-149 : ℤ) < 2 ^ 23 * 2 ^ (-149 : ℤ) := mul_lt_mul_of_pos_right this (by positivity)
      _ = 1 / 2 ^ 126 := by norm_num
  have e' : ((|number x| : ℚ) : ℝ) < ((1 / 2 ^ 126 : ℚ) : ℝ) := Rat.cast_lt.2 e
  rw [Rat.cast_abs] at e'
  have m : ((1 / 2 ^ 126 : ℚ) : ℝ) = 1 / 2 ^ 126 := by norm_num
  unfold minNormal at h
  linarith

theorem normal_of_bits {x : F32} (h : x.toNat % 2 ^ 31 / 2 ^ 23 ≠ 0) : minNormal ≤ |(number x : ℝ)| := by
  have e : 1 / 2 ^ 126 ≤ |number x| := by
    rw [abs_number]
    refine le_trans (b := magnitude (2 ^ 23)) ?_ (magnitude_mono (by omega))
    norm_num [magnitude]
  have e' : ((1 / 2 ^ 126 : ℚ) : ℝ) ≤ ((|number x| : ℚ) : ℝ) := Rat.cast_le.2 e
  rw [Rat.cast_abs] at e'
  have m : ((1 / 2 ^ 126 : ℚ) : ℝ) = 1 / 2 ^ 126 := by norm_num
  unfold minNormal
  linarith

theorem sgnf_ge {n : ℕ} (h : n / 2 ^ 23 ≠ 0) : 2 ^ 23 ≤ sgnf n := by
  unfold sgnf
  rw [if_neg h]
  omega

/-- Significands are unique. -/
theorem same_sgnf {a b : ℕ} {k : ℤ} (ha : 2 ^ 23 ≤ a) (ha' : a < 2 ^ 24) (hb : 2 ^ 23 ≤ b) (hb' : b < 2 ^ 24) (h : (a : ℚ) = b * 2 ^ k) : k = 0 ∧ a = b := by
  have a1 : (2 ^ 23 : ℚ) ≤ a := by exact_mod_cast ha
  have a2 : (a : ℚ) < 2 ^ 24 := by exact_mod_cast ha'
  have b1 : (2 ^ 23 : ℚ) ≤ b := by exact_mod_cast hb
  have b2 : (b : ℚ) < 2 ^ 24 := by exact_mod_cast hb'
  rcases lt_trichotomy k 0 with hk | hk | hk
  · have : (2 : ℚ) ^ k ≤ 2 ^ (-1 : ℤ) := zpow_le_zpow_right₀ (by norm_num) (by omega)
    have p : (0 : ℚ) < 2 ^ k := by positivity
    have := mul_le_mul_of_nonneg_left this (by linarith : (0 : ℚ) ≤ b)
    norm_num at this
    linarith
  · subst hk
    rw [zpow_zero, mul_one] at h
    exact ⟨rfl, by exact_mod_cast h⟩
  · have : (2 : ℚ) ^ (1 : ℤ) ≤ 2 ^ k := zpow_le_zpow_right₀ (by norm_num) (by omega)
    have := mul_le_mul_of_nonneg_left this (by linarith : (0 : ℚ) ≤ b)
    norm_num at this
    linarith

theorem magnitude_cut_sgnf {n k : ℕ} (hk : k ≤ 23) (hn : n / 2 ^ 23 ≠ 0) :
    magnitude (n / 2 ^ k * 2 ^ k) = ((sgnf n : ℚ) - (sgnf n % 2 ^ k : ℕ)) * 2 ^ lastPlace n := by
  have h := magnitude_cut (n := n) hk
  have e : sgnf n % 2 ^ k = n % 2 ^ k := by
    unfold sgnf
    rw [if_neg hn, Nat.add_mod, Nat.mod_mod_of_dvd _ (pow_dvd_pow 2 hk), Nat.mod_eq_zero_of_dvd (pow_dvd_pow 2 hk), Nat.add_zero, Nat.mod_mod]
  rw [e, sub_mul, ← h, ← magnitude_sgnf]
  ring

/-- Cutting bits of the fraction does not depend on the unit. -/
theorem trunc_unit {p : ℕ} (hp : 9 ≤ p) {u : ℤ} {x x' : F32} (h : NormalInUnit u x x') : NormalInUnit u (truncBits p x) (truncBits p x') := by
  obtain ⟨⟨f, f', e⟩, h⟩ := h
  have fin := finite_trunc (p := p) (by omega) f
  have fin' := finite_trunc (p := p) (by omega) f'
  have e : number x' = 2 ^ u * number x := by
    have : ((number x' : ℚ) : ℝ) = ((2 ^ u * number x : ℚ) : ℝ) := by rw [e]; push_cast; rfl
    exact Rat.cast_injective this
  rcases h with h | ⟨h1, h2⟩
  · have z : ∀ y : F32, number y = 0 → number (truncBits p y) = 0 := fun y hy => by
      have := (trunc_shrinks (prec := p) (by omega) y).1
      rw [hy, abs_zero] at this
      exact abs_eq_zero.1 (le_antisymm this (abs_nonneg _))
    refine ⟨⟨fin, fin', ?_⟩, Or.inl (z x h)⟩
    rw [z x h, z x' (by rw [e, h, mul_zero])]
    simp
  · have n1 := normal_bits h1
    have n2 := normal_bits h2
    have s1 := sgnf_ge n1
    have s2 := sgnf_ge n2
    have m : magnitude (x'.toNat % 2 ^ 31) = 2 ^ u * magnitude (x.toNat % 2 ^ 31) := by
      rw [← abs_number, ← abs_number, e, abs_mul, abs_of_pos (by positivity : (0 : ℚ) < 2 ^ u)]
    have pos : 0 < magnitude (x.toNat % 2 ^ 31) := by
      rw [magnitude_sgnf]
      have : (0 : ℚ) < sgnf (x.toNat % 2 ^ 31) := by exact_mod_cast (by omega : 0 < sgnf (x.toNat % 2 ^ 31))
      positivity
    have sg : signOf x' = signOf x := by
      rw [number_sign, number_sign, m] at e
      have q : (0 : ℚ) < 2 ^ u * magnitude (x.toNat % 2 ^ 31) := by positivity
      have : signOf x' * (2 ^ u * magnitude (x.toNat % 2 ^ 31)) = signOf x * (2 ^ u * magnitude (x.toNat % 2 ^ 31)) := by rw [e]; ring
      exact mul_right_cancel₀ q.ne' this
    rw [magnitude_sgnf, magnitude_sgnf] at m
    have k : (sgnf (x'.toNat % 2 ^ 31) : ℚ) = sgnf (x.toNat % 2 ^ 31) * 2 ^ (u + lastPlace (x.toNat % 2 ^ 31) - lastPlace (x'.toNat % 2 ^ 31)) := by
      have q : (0 : ℚ) < 2 ^ lastPlace (x'.toNat % 2 ^ 31) := by positivity
      refine mul_right_cancel₀ q.ne' ?_
      rw [m, zpow_sub₀ (by norm_num), zpow_add₀ (by norm_num)]
      field_simp
    obtain ⟨k0, ks⟩ := same_sgnf s2 (sgnf_lt _) s1 (sgnf_lt _) k
    have kl : lastPlace (x'.toNat % 2 ^ 31) = u + lastPlace (x.toNat % 2 ^ 31) := by omega
    have r : number (truncBits p x') = 2 ^ u * number (truncBits p x) := by
      rw [number_trunc (by omega), number_trunc (by omega), magnitude_cut_sgnf (by omega) n1, magnitude_cut_sgnf (by omega) n2, ks, kl, sg,
        zpow_add₀ (by norm_num)]
      ring
    have nb : ∀ y : F32, y.toNat % 2 ^ 31 / 2 ^ 23 ≠ 0 → (truncBits p y).toNat % 2 ^ 31 / 2 ^ 23 ≠ 0 := fun y hy => by
      rw [toNat_truncBits, cut_mod (by omega), cut_div (by omega)]
      exact hy
    exact ⟨⟨fin, fin', by rw [r]; push_cast; rfl⟩, Or.inr ⟨normal_of_bits (nb x n1), normal_of_bits (nb x' n2)⟩⟩

theorem same_number {x y : F32} (h : SameExceptZeroSign x y) : number x = number y ∧ (finiteBits y → finiteBits x) := by
  rcases h with rfl | ⟨h1, h2⟩
  · exact ⟨rfl, id⟩
  · refine ⟨by rw [number_zeroPattern h1, number_zeroPattern h2], fun _ => ?_⟩
    rcases (zero_iff x).1 h1 with h | h <;> · unfold finiteBits expBits; rw [h]; norm_num

theorem same_unit {u : ℤ} {x x' y y' : F32} (h : NormalInUnit u x x') (g : SameExceptZeroSign y x) (g' : SameExceptZeroSign y' x') : NormalInUnit u y y' := by
  obtain ⟨e, f⟩ := same_number g
  obtain ⟨e', f'⟩ := same_number g'
  unfold NormalInUnit InUnit
  rw [e, e']
  exact ⟨⟨f h.1.1, f' h.1.2.1, h.1.2.2⟩, h.2⟩

theorem related_alike {u : ℤ} {b b' : Buffer F32} (hp : b'.params = b.params) (h : RelatedDecs (NormalInUnit u) b.decs b'.decs) : Alike b b' :=
  ⟨hp, h.imp fun _ _ g => g.imp fun _ _ g => ⟨g.1, g.2.1⟩⟩

/-- C148: two buffers with the same coefficients in units that differ by a power of two, archived and read again any number of times with levels up to 24, are
still the same in these units: what the archives lose does not depend on the unit. The coefficients are zero or normal numbers in both units. -/
theorem C148_archives (e : Ext) (Mem : ℕ) (hw : CodecsWork e truncBits) (hM : Room e Mem) (ls : List ℕ) (h24 : ∀ l ∈ ls, l ≤ 24) (u : ℤ)
    (b b' : Buffer F32) (hb : WellFormed b) (hf : FitsFormat b) (hc : Compressible b) (hm : FitsMemory b Mem) (hp : b'.params = b.params)
    (h : RelatedDecs (NormalInUnit u) b.decs b'.decs) (c c' : Buffer F32) (g : Generations e Mem ls b c) (g' : Generations e Mem ls b' c') :
    c'.params = c.params ∧ RelatedDecs (NormalInUnit u) c.decs c'.decs := by
  have a := related_alike hp h
  have k := C108_generations e Mem hw hM ls b c hb hf hc hm g
  have k' := C108_generations e Mem hw hM ls b' c' (a.wf hb) (a.fits hf) (a.compressible hc) (a.memory hm) g'
  have top : ls.foldr max 0 ≤ 24 := by
    clear g g' k k'
    induction ls with
    | nil => exact Nat.zero_le _
    | cons l ls ih =>
      rw [List.foldr_cons]
      exact max_le (h24 l List.mem_cons_self) (ih fun x hx => h24 x (List.mem_cons_of_mem _ hx))
  refine ⟨by rw [k.1, k'.1, hp], ?_⟩
  refine forall₂_trans (R := List.Forall₂ fun m m' : Mat F32 => m.rows = m'.rows ∧ m.cols = m'.cols ∧ ∀ i < m'.rows, ∀ j < m'.cols,
      SameExceptZeroSign (m.get i j) (truncBits (33 - min 31 (ls.foldr max 0)) (m'.get i j)))
    (S := List.Forall₂ fun m m' : Mat F32 => m'.rows = m.rows ∧ m'.cols = m.cols ∧ ∀ i < m.rows, ∀ j < m.cols, ∃ y,
      NormalInUnit u (m.get i j) y ∧ SameExceptZeroSign (m'.get i j) (truncBits (33 - min 31 (ls.foldr max 0)) y))
    (fun _ _ _ hx hy => forall₂_trans (fun x y z g1 g2 => ?_) hx hy) (k.2.flip.imp fun _ _ g => g.flip)
    (forall₂_trans (R := List.Forall₂ (RelatedMats (NormalInUnit u))) (fun _ _ _ hx hy => forall₂_trans (fun x y z g1 g2 => ?_) hx hy) h k'.2)
  · refine ⟨g2.1.trans g1.1.symm, g2.2.1.trans g1.2.1.symm, fun i hi j hj => ?_⟩
    rw [g1.1] at hi
    rw [g1.2.1] at hj
    obtain ⟨w, w1, w2⟩ := g2.2.2 i hi j hj
    exact same_unit (trunc_unit (by omega) w1) (g1.2.2 i hi j hj) w2
  · exact ⟨g2.1.trans g1.1, g2.2.1.trans g1.2.1, fun i hi j hj =>
      ⟨_, g1.2.2 i hi j hj, g2.2.2 i (by rw [g1.1]; exact hi) j (by rw [g1.2.1]; exact hj)⟩⟩

theorem one_two_unit : NormalInUnit 1 (0x3f800000#32 : F32) 0x40000000#32 := by
  have n1 : number 0x3f800000#32 = 1 := by norm_num [number, magnitude]
  have n2 : number 0x40000000#32 = 2 := by norm_num [number, magnitude]
  refine ⟨⟨by unfold finiteBits expBits; decide, by unfold finiteBits expBits; decide, by rw [n1, n2]; norm_num⟩, Or.inr ?_⟩
  rw [n1, n2]
  unfold minNormal
  norm_num

theorem one_sample_related {u : ℤ} {x x' : F32} (h : NormalInUnit u x x') : RelatedDecs (NormalInUnit u) (oneSample x).decs (oneSample x').decs := by
  refine .cons (.cons ⟨rfl, rfl, fun i hi j hj => ?_⟩ .nil) .nil
  rw [Mat.get_ofFn (r := 1) (c := 1) hi hj, Mat.get_ofFn (r := 1) (c := 1) hi hj]
  exact h

/-- Archives of 1 and of 2. -/
theorem two_runs (ls : List ℕ) : ∃ (Mem : ℕ) (c c' : Buffer F32), FitsMemory (oneSample 0x3f800000#32) Mem ∧ FitsMemory (oneSample 0x40000000#32) Mem ∧
    Generations exExt Mem ls (oneSample 0x3f800000#32) c ∧ Generations exExt Mem ls (oneSample 0x40000000#32) c' := by
  have hw : CodecsWork exExt truncBits := exTrunc_eq ▸ exExt_works
  have hM : ∀ M, Room exExt M := fun _ _ _ _ => rfl
  have up : ∀ {ls : List ℕ} {M M' : ℕ} {b b' : Buffer F32}, M ≤ M' → Generations exExt M ls b b' → Generations exExt M' ls b b' := by
    intro ls M M' b b' h g
    induction g with
    | none b => exact .none b
    | more h1 h2 h3 _ ih => exact .more h1 (h2.trans h) h3 ih
  obtain ⟨k1, k2, k3⟩ := oneSample_ok 0x3f800000#32
  obtain ⟨l1, l2, l3⟩ := oneSample_ok 0x40000000#32
  obtain ⟨M1, c, m1, g1⟩ := generations_exist exExt hw hM ls (oneSample 0x3f800000#32) k1 k2 k3
  obtain ⟨M2, c', m2, g2⟩ := generations_exist exExt hw hM ls (oneSample 0x40000000#32) l1 l2 l3
  have n1 : FitsMemory (oneSample 0x3f800000#32) (M1 + M2) := ⟨m1.1.trans (by omega), fun c hc m hm => (m1.2 c hc m hm).trans (by omega)⟩
  have n2 : FitsMemory (oneSample 0x40000000#32) (M1 + M2) := ⟨m2.1.trans (by omega), fun c hc m hm => (m2.2 c hc m hm).trans (by omega)⟩
  exact ⟨M1 + M2, c, c', n1, n2, up (by omega) g1, up (by omega) g2⟩

/-- C148: 24 is the highest level with this property. Level 25 keeps 2 and makes 1/2 of 1. -/
theorem C148_beyond : ∃ (e : Ext) (Mem : ℕ) (b b' c c' : Buffer F32), CodecsWork e truncBits ∧ Room e Mem ∧ WellFormed b ∧ FitsFormat b ∧ Compressible b ∧
    FitsMemory b Mem ∧ b'.params = b.params ∧ RelatedDecs (NormalInUnit 1) b.decs b'.decs ∧ Generations e Mem [25] b c ∧ Generations e Mem [25] b' c' ∧
    ¬ RelatedDecs (NormalInUnit 1) c.decs c'.decs := by
  have hw : CodecsWork exExt truncBits := exTrunc_eq ▸ exExt_works
  have hM : ∀ M, Room exExt M := fun _ _ _ _ => rfl
  obtain ⟨k1, k2, k3⟩ := oneSample_ok 0x3f800000#32
  obtain ⟨l1, l2, l3⟩ := oneSample_ok 0x40000000#32
  obtain ⟨Mem, c, c', n1, n2, g1, g2⟩ := two_runs [25]
  refine ⟨exExt, Mem, _, oneSample 0x40000000#32, c, c', hw, hM _, k1, k2, k3, n1, rfl, one_sample_related one_two_unit, g1, g2, fun h => ?_⟩
  have a := C108_generations exExt _ hw (hM _) [25] _ c k1 k2 k3 n1 g1
  have a' := C108_generations exExt _ hw (hM _) [25] _ c' l1 l2 l3 n2 g2
  obtain ⟨-, a⟩ := a
  obtain ⟨-, a'⟩ := a'
  rcases c with ⟨p, d⟩
  rcases c' with ⟨p', d'⟩
  cases a with
  | cons a ar =>
  cases ar
  cases a with
  | cons a ar =>
  cases ar
  cases a' with
  | cons a' ar =>
  cases ar
  cases a' with
  | cons a' ar =>
  cases ar
  cases h with
  | cons h hr =>
  cases hr
  cases h with
  | cons h hr =>
  cases hr
  have h0 := (h.2.2 0 (by rw [a.1]; exact Nat.one_pos) 0 (by rw [a.2.1]; exact Nat.one_pos)).1.2.2
  rw [(same_number (a.2.2 0 Nat.one_pos 0 Nat.one_pos)).1, (same_number (a'.2.2 0 Nat.one_pos 0 Nat.one_pos)).1,
    Mat.get_ofFn (r := 1) (c := 1) Nat.one_pos Nat.one_pos, Mat.get_ofFn (r := 1) (c := 1) Nat.one_pos Nat.one_pos] at h0
  have v1 : number (truncBits (33 - min 31 (List.foldr max 0 [25])) 0x3f800000#32) = 1 / 2 := by
    norm_num [number, magnitude, truncBits]
  have v2 : number (truncBits (33 - min 31 (List.foldr max 0 [25])) 0x40000000#32) = 2 := by
    norm_num [number, magnitude, truncBits]
  rw [v1, v2] at h0
  norm_num at h0

/-- The hypotheses can be met: archives of 1 and of 2, with all levels up to 24 one after the other. -/
example : ∃ (e : Ext) (Mem : ℕ) (b b' c c' : Buffer F32), CodecsWork e truncBits ∧ Room e Mem ∧ WellFormed b ∧ FitsFormat b ∧ Compressible b ∧
    FitsMemory b Mem ∧ b'.params = b.params ∧ RelatedDecs (NormalInUnit 1) b.decs b'.decs ∧ Generations e Mem (List.range 25) b c ∧
    Generations e Mem (List.range 25) b' c' := by
  obtain ⟨k1, k2, k3⟩ := oneSample_ok 0x3f800000#32
  obtain ⟨M, c, c', m, -, g, g'⟩ := two_runs (List.range 25)
  exact ⟨exExt, M, _, oneSample 0x40000000#32, c, c', exTrunc_eq ▸ exExt_works, fun _ _ _ => rfl, k1, k2, k3, m, rfl, one_sample_related one_two_unit, g, g'⟩

end WB.Props
