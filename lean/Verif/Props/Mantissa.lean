import Verif.Proof.Mantissa
import Verif.Props.LevelOrder

/-!
C132: the size of the mantissa that a compression level leaves, and the table in the tutorial.
-/

namespace WB.Props

open Spec

/-- C132. For levels 1 to 24, the copy of a buffer of finite values holds in every place the value of the original, cut to a float with the exponents of `float`
and a mantissa of `24 - level` bits: the number of this format that is closest to the value between 0 and the value. -/
theorem C132_container (e : Ext) (Mem : ℕ) (hw : CodecsWork e truncBits) (hM : Room e Mem) (level : ℕ) (h1 : 1 ≤ level) (h24 : level ≤ 24) (b b1 : Buffer F32)
    (hb : WellFormed b) (hf : FitsFormat b) (hc : Compressible b) (hm : FitsMemory b Mem) (hn : AllFinite b) (h : Generations e Mem [level] b b1) :
    Cellwise (fun x y => CutInto (SmallFloats (24 - level)) ((number x : ℚ) : ℝ) ((number y : ℚ) : ℝ)) b b1 := by
  have c := generation_cut hw hM hb hf hc hm h
  rw [min_eq_right (by omega)] at c
  refine cellwise_of_cut c hn fun x y hx hy => ?_
  have := trunc_cut (p := 33 - level) (by omega) (by omega) hx
  rw [show 23 - (32 - (33 - level)) = 24 - level by omega] at this
  rwa [number_same hy]

/-- C132. For levels 1 to 24, exactly those values of a buffer of finite values come back unchanged (up to the sign of zeros) whose mantissa has no more than
`24 - level` bits. -/
theorem C132_survives (e : Ext) (Mem : ℕ) (hw : CodecsWork e truncBits) (hM : Room e Mem) (level : ℕ) (h1 : 1 ≤ level) (h24 : level ≤ 24) (b b1 : Buffer F32)
    (hb : WellFormed b) (hf : FitsFormat b) (hc : Compressible b) (hm : FitsMemory b Mem) (hn : AllFinite b) (h : Generations e Mem [level] b b1) :
    Cellwise (fun x y => SameExceptZeroSign y x ↔ ((number x : ℚ) : ℝ) ∈ SmallFloats (24 - level)) b b1 := by
  have c := generation_cut hw hM hb hf hc hm h
  rw [min_eq_right (by omega)] at c
  refine cellwise_of_cut c hn fun x y hx hy => ⟨fun g => ?_, fun g => ?_⟩
  · have := trunc_is_small (x := x) (p := 33 - level) (by omega)
    rwa [show 23 - (32 - (33 - level)) = 24 - level by omega, ← number_same hy, number_same g] at this
  · rw [show 24 - level = 23 - (level - 1) by omega, number_small (by omega)] at g
    rwa [trunc_of_dvd (p := 33 - level) (by omega) (by rwa [show 32 - (33 - level) = level - 1 by omega])] at hy

/-- C132. What the table of the tutorial promises, as a lower bound: values whose mantissa has no more bits than documented for the level come back unchanged.
Missing: that the values that come back have no more bits than documented, see `C132_table_counterexample`. -/
theorem C132_table_partial (e : Ext) (Mem : ℕ) (hw : CodecsWork e truncBits) (hM : Room e Mem) (level : ℕ) (h1 : 1 ≤ level) (h16 : level ≤ 16) (b b1 : Buffer F32)
    (hb : WellFormed b) (hf : FitsFormat b) (hc : Compressible b) (hm : FitsMemory b Mem) (hn : AllFinite b)
    (hs : ∀ c ∈ b.decs, ∀ m ∈ c, ∀ i < m.rows, ∀ j < m.cols, ((number (m.get i j) : ℚ) : ℝ) ∈ SmallFloats (documentedMantissa level))
    (h : Generations e Mem [level] b b1) : Cellwise (fun x y => SameExceptZeroSign y x) b b1 := by
  obtain ⟨k1, k2⟩ := C132_survives e Mem hw hM level h1 (by omega) b b1 hb hf hc hm hn h
  refine ⟨k1, ?_⟩
  rw [List.forall₂_iff_get]
  refine ⟨k2.length_eq, fun n h1 h2 => ?_⟩
  have g := k2.get h1 h2
  rw [List.forall₂_iff_get]
  refine ⟨g.length_eq, fun l h3 h4 => ?_⟩
  have g2 := g.get h3 h4
  refine ⟨g2.1, g2.2.1, fun i hi j hj => (g2.2.2 i hi j hj).2 (small_mono ?_ (hs _ (List.get_mem _ _) _ (List.get_mem _ _) i hi j hj))⟩
  unfold documentedMantissa
  split <;> omega

theorem oneSample_finite {x : F32} (h : finiteBits x) : AllFinite (oneSample x) := by
  intro c hc m hm i hi j hj
  simp only [oneSample, List.mem_singleton] at hc
  subst hc
  simp only [List.mem_singleton] at hm
  subst hm
  simp only [Mat.rows_ofFn, Mat.cols_ofFn] at hi hj
  rw [Mat.get_ofFn hi hj]
  exact h

theorem oneSample_cells {P : F32 → F32 → Prop} {x : F32} {b : Buffer F32} (h : Cellwise P (oneSample x) b) :
    ∃ y, P x y ∧ b.decs = [[Mat.ofFn 1 1 fun _ _ => y]] := by
  obtain ⟨_, h⟩ := h
  cases hd : b.decs with
  | nil => rw [hd] at h; cases h
  | cons c cs =>
    rw [hd] at h
    cases h with
    | cons hc hr =>
      cases hr
      cases hc with
      | @cons _ m _ _ hm hr =>
        cases hr
        refine ⟨m.get 0 0, by simpa [Mat.get_ofFn] using hm.2.2 0 (by simp) 0 (by simp), ?_⟩
        congr 2
        refine Mat.ext' (by simpa using hm.1) (by simpa using hm.2.1) fun i hi j hj => ?_
        have e1 : m.rows = 1 := by simpa using hm.1
        have e2 : m.cols = 1 := by simpa using hm.2.1
        obtain rfl : i = 0 := by omega
        obtain rfl : j = 0 := by omega
        rw [Mat.get_ofFn (by omega) (by omega)]

/-- C132. The table of the tutorial is wrong for every level from 2 to 16, by one bit: whatever the codecs, there is a value that does not fit the documented
mantissa but comes back unchanged. In particular the values in an archive of level 16 need not be `bfloat`s. -/
theorem C132_table_counterexample (e : Ext) (hw : CodecsWork e truncBits) (hM : ∀ M, Room e M) (level : ℕ) (h2 : 2 ≤ level) (h16 : level ≤ 16) :
    ∃ (Mem : ℕ) (x : F32) (b1 : Buffer F32), WellFormed (oneSample x) ∧ FitsFormat (oneSample x) ∧ Compressible (oneSample x) ∧ FitsMemory (oneSample x) Mem ∧
      AllFinite (oneSample x) ∧ Generations e Mem [level] (oneSample x) b1 ∧ b1.decs = (oneSample x).decs ∧
      ((number x : ℚ) : ℝ) ∉ SmallFloats (documentedMantissa level) := by
  have e1 : (BitVec.ofNat 32 (0x3f800000 + 2 ^ (level - 1))).toNat = 0x3f800000 + 2 ^ (level - 1) := by
    rw [BitVec.toNat_ofNat, Nat.mod_eq_of_lt]
    have : 2 ^ (level - 1) ≤ 2 ^ 15 := Nat.pow_le_pow_right (by norm_num) (by omega)
    omega
  generalize BitVec.ofNat 32 (0x3f800000 + 2 ^ (level - 1)) = x at e1
  have hp : 2 ^ (level - 1) ≤ 2 ^ 15 := Nat.pow_le_pow_right (by norm_num) (by omega)
  have hp0 : 0 < 2 ^ (level - 1) := by positivity
  have e2 : x.toNat % 2 ^ 31 = 0x3f800000 + 2 ^ (level - 1) := by omega
  have hx : finiteBits x := by unfold finiteBits expBits; omega
  have hd : 2 ^ level ∣ 0x3f800000 := (pow_dvd_pow 2 h16).trans (by norm_num)
  have hd' : 2 ^ (level - 1) ∣ 0x3f800000 := (pow_dvd_pow 2 (show level - 1 ≤ 16 by omega)).trans (by norm_num)
  obtain ⟨k1, k2, k3⟩ := oneSample_ok x
  obtain ⟨Mem, b1, hm, g⟩ := generations_exist e hw hM [level] (oneSample x) k1 k2 k3
  refine ⟨Mem, x, b1, k1, k2, k3, hm, oneSample_finite hx, g, ?_, ?_⟩
  · obtain ⟨y, hy, hb⟩ := oneSample_cells (C132_survives e Mem hw (hM _) level (by omega) (by omega) _ b1 k1 k2 k3 hm (oneSample_finite hx) g)
    have hs := hy.2 (by
      rw [show 24 - level = 23 - (level - 1) by omega, number_small (by omega), e2]
      exact (Nat.dvd_add_right hd').2 dvd_rfl)
    obtain rfl : y = x := by
      rcases hs with h | ⟨_, h⟩
      · exact h
      · exfalso
        rcases (zero_iff x).1 h with h | h <;> omega
    rw [hb]
    rfl
  · unfold documentedMantissa
    rw [if_neg (by omega), number_small (by omega), e2, Nat.dvd_add_right hd]
    intro h
    have := Nat.le_of_dvd hp0 h
    have : 2 ^ level = 2 * 2 ^ (level - 1) := by rw [← pow_succ']; congr 1; omega
    omega

/-- The hypotheses of C132 can be met: 1.25 survives level 16 and 1.2345 does not. -/
example : ∃ (Mem : ℕ) (b1 b2 : Buffer F32), CodecsWork exExt truncBits ∧ Room exExt Mem ∧ FitsMemory (oneSample 0x3fa00000#32) Mem ∧
    FitsMemory (oneSample 0x3f9e0419#32) Mem ∧ Generations exExt Mem [16] (oneSample 0x3fa00000#32) b1 ∧ Generations exExt Mem [16] (oneSample 0x3f9e0419#32) b2 ∧
    ((number 0x3fa00000#32 : ℚ) : ℝ) ∈ SmallFloats 7 ∧ ((number 0x3f9e0419#32 : ℚ) : ℝ) ∉ SmallFloats 8 := by
  have hw : CodecsWork exExt truncBits := exTrunc_eq ▸ exExt_works
  obtain ⟨k1, k2, k3⟩ := oneSample_ok 0x3fa00000#32
  obtain ⟨j1, j2, j3⟩ := oneSample_ok 0x3f9e0419#32
  obtain ⟨M1, b1, hm1, g1⟩ := generations_exist exExt hw (fun _ _ _ _ => rfl) [16] _ k1 k2 k3
  obtain ⟨M2, b2, hm2, g2⟩ := generations_exist exExt hw (fun _ _ _ _ => rfl) [16] _ j1 j2 j3
  refine ⟨M1 + M2, b1, b2, hw, fun _ _ _ => rfl, ⟨hm1.1.trans (by omega), fun c hc m hm => (hm1.2 c hc m hm).trans (by omega)⟩,
    ⟨hm2.1.trans (by omega), fun c hc m hm => (hm2.2 c hc m hm).trans (by omega)⟩, generations_mono (by omega) g1, generations_mono (by omega) g2, ?_, ?_⟩
  · rw [show (7 : ℕ) = 23 - 16 from rfl, number_small (by norm_num)]
    decide
  · rw [show (8 : ℕ) = 23 - 15 from rfl, number_small (by norm_num)]
    decide

end WB.Props
