import Verif.Spec.Units
import Verif.Proof.Marks
import Verif.Proof.FloatDenoise
import Verif.Proof.SfAssign
import Verif.Props.Polarity
import Mathlib.Data.Int.Log

/-!
C146: samples in a unit that differs by a power of two.
-/

set_option linter.unusedSectionVars false

namespace WB.Props

open Spec

section
variable {r : Rounding} {o : FloatOps}

theorem marks_hom : KitHom (marksKit r o) (bitsKit r o) (Marked.bits : Marked r o → Bits o) :=
  ⟨rfl, rfl, fun _ _ => rfl, fun _ _ => rfl, fun _ => rfl,
    fun t => (List.map_map (f := fun q : ℚ => (Marked.plain (o.store (r.toDouble (q : ℝ))) : Marked r o)) (g := Marked.bits) (l := dbCoeffs t)).symm,
    fun _ => rfl, fun _ _ _ => rfl⟩

theorem round_unit (hu : UnitBlind r o) (e : ℤ) {x : ℝ} (h : InRange r x) (h' : InRange r (2 ^ e * x)) :
    |r.toFloat x| ≤ maxFloat ∧ |r.toFloat (2 ^ e * x)| ≤ maxFloat ∧ r.toFloat (2 ^ e * x) = 2 ^ e * r.toFloat x := by
  have h2 : (2 : ℝ) ^ e ≠ 0 := zpow_ne_zero _ (by norm_num)
  have mx : (0 : ℝ) ≤ maxFloat := by unfold maxFloat; norm_num
  rcases h with rfl | h
  · rw [mul_zero, hu.zero, mul_zero, abs_zero]
    exact ⟨mx, mx, rfl⟩
  · rcases h' with h' | h'
    · obtain rfl : x = 0 := by simpa [h2] using h'
      rw [mul_zero, hu.zero, mul_zero, abs_zero]
      exact ⟨mx, mx, rfl⟩
    · exact ⟨h.2, h'.2, hu.round e x h.1 h'.1⟩

theorem unmarked_add {x y : Marked r o} (h : ¬(x + y).mark = true) :
    ¬x.mark = true ∧ ¬y.mark = true ∧ InRange r ((number x.bits : ℝ) + number y.bits) := by
  have h' : ¬(Marked.add x y).mark = true := h
  simp only [Marked.add, Marked.mark, Bool.or_eq_true, Bool.not_eq_true', decide_eq_false_iff_not, not_or, not_not] at h'
  exact ⟨h'.1.1, h'.1.2, h'.2.2.2⟩

theorem unmarked_mul {x y : Marked r o} (h : ¬(x * y).mark = true) :
    ¬x.mark = true ∧ ¬y.mark = true ∧ finiteBits x.bits ∧ finiteBits y.bits ∧ InRange r ((number x.bits : ℝ) * number y.bits) := by
  have h' : ¬(Marked.mul x y).mark = true := h
  simp only [Marked.mul, Marked.mark, Bool.or_eq_true, Bool.not_eq_true', decide_eq_false_iff_not, not_or, not_not] at h'
  exact ⟨h'.1.1, h'.1.2, h'.2⟩

theorem unmarked_div {two : Bool} {s : ℕ} {x : Marked r o} (h : ¬(x.div two s).mark = true) :
    ¬x.mark = true ∧ InRangeDiv ((number x.bits : ℝ) / (if two then 2 else Real.sqrt 2) ^ s) := by
  simp only [Marked.div, Marked.mark, Bool.or_eq_true, Bool.not_eq_true', decide_eq_false_iff_not, not_or, not_not] at h
  exact ⟨h.1, h.2.2⟩

theorem unit_of {e : ℤ} {x x' : Marked r o} (h : InUnitOrMarked e x x') (h1 : ¬x.mark = true) (h2 : ¬x'.mark = true) : InUnit e x.bits x'.bits := by
  rcases h with h | h | h
  · exact absurd h h1
  · exact absurd h h2
  · exact h

theorem unless_marked {e : ℤ} {x x' : Marked r o} (h : ¬x.mark = true → ¬x'.mark = true → InUnit e x.bits x'.bits) : InUnitOrMarked e x x' := by
  by_cases h1 : x.mark = true
  · exact Or.inl h1
  · by_cases h2 : x'.mark = true
    · exact Or.inr (Or.inl h2)
    · exact Or.inr (Or.inr (h h1 h2))

theorem unit_survives (ho : o.Correct r) (hu : UnitBlind r o) (e : ℤ) : Survives (marksKit r o) (InUnitOrMarked (r := r) (o := o) e) := by
  have z : (number (0#32 : F32) : ℝ) = 0 := by rw [number_zero]; norm_num
  have zero : InUnitOrMarked e (Marked.plain (0#32 : F32) : Marked r o) (Marked.plain 0#32) :=
    Or.inr (Or.inr ⟨finite_zero, finite_zero, by show (number (0#32 : F32) : ℝ) = _ * (number (0#32 : F32) : ℝ); rw [z, mul_zero]⟩)
  refine ⟨zero, zero, ?_, ?_, ?_⟩
  · intro x x' y y' hx hy
    refine unless_marked fun h h' => ?_
    obtain ⟨a1, a2, a3⟩ := unmarked_add h
    obtain ⟨b1, b2, b3⟩ := unmarked_add h'
    obtain ⟨f1, f1', e1⟩ := unit_of hx a1 b1
    obtain ⟨f2, f2', e2⟩ := unit_of hy a2 b2
    rw [e1, e2, ← mul_add] at b3
    obtain ⟨m1, m2, m3⟩ := round_unit hu e a3 b3
    obtain ⟨g1, g2⟩ := ho.add _ _ f1 f2 m1
    obtain ⟨g1', g2'⟩ := ho.add _ _ f1' f2' (by rw [e1, e2, ← mul_add]; exact m2)
    refine ⟨g1, g1', ?_⟩
    show (number (o.add x'.bits y'.bits) : ℝ) = 2 ^ e * number (o.add x.bits y.bits)
    rw [g2, g2', e1, e2, ← mul_add, m3]
  · intro x x' c hx
    refine ⟨unless_marked fun h h' => ?_, unless_marked fun h h' => ?_⟩
    · obtain ⟨a1, _, _, fc, a3⟩ := unmarked_mul h
      obtain ⟨b1, _, _, _, b3⟩ := unmarked_mul h'
      obtain ⟨f1, f1', e1⟩ := unit_of hx a1 b1
      rw [e1, mul_assoc] at b3
      obtain ⟨m1, m2, m3⟩ := round_unit hu e a3 b3
      obtain ⟨g1, g2⟩ := ho.mul _ _ f1 fc m1
      obtain ⟨g1', g2'⟩ := ho.mul _ _ f1' fc (by rw [e1, mul_assoc]; exact m2)
      refine ⟨g1, g1', ?_⟩
      show (number (o.mul x'.bits c.bits) : ℝ) = 2 ^ e * number (o.mul x.bits c.bits)
      rw [g2, g2', e1, mul_assoc, m3]
    · obtain ⟨_, a1, fc, _, a3⟩ := unmarked_mul h
      obtain ⟨_, b1, _, _, b3⟩ := unmarked_mul h'
      obtain ⟨f1, f1', e1⟩ := unit_of hx a1 b1
      rw [e1, mul_left_comm] at b3
      obtain ⟨m1, m2, m3⟩ := round_unit hu e a3 b3
      obtain ⟨g1, g2⟩ := ho.mul _ _ fc f1 m1
      obtain ⟨g1', g2'⟩ := ho.mul _ _ fc f1' (by rw [e1, mul_left_comm]; exact m2)
      refine ⟨g1, g1', ?_⟩
      show (number (o.mul c.bits x'.bits) : ℝ) = 2 ^ e * number (o.mul c.bits x.bits)
      rw [g2, g2', e1, mul_left_comm, m3]
  · intro two s x x' hx
    refine unless_marked fun h h' => ?_
    obtain ⟨a1, a2⟩ := unmarked_div h
    obtain ⟨b1, b2⟩ := unmarked_div h'
    have u := unit_of hx a1 b1
    exact ⟨(ho.div two s _ u.1).1, (ho.div two s _ u.2.1).1, hu.div two s e _ _ u a2 b2⟩

theorem marks_present (r : Rounding) (o : FloatOps) {p : Params} (h : p.wtype ≤ 5) : FilterPresent (marksKit r o) p := by
  intro h0
  simp only [marksKit, List.length_map]
  exact length_dbCoeffs (by omega) (by omega)

/-- C146: two signals with the same samples in units that differ by a power of two have the same coefficients in these units, without any difference in
rounding, and so do their compositions at all scales - every number that no overflow or underflow went into. The marks come from following the
operations of the program; the bits are those that it computes. -/
theorem C146_units (r : Rounding) (o : FloatOps) (ho : o.Correct r) (hu : UnitBlind r o) (e : ℤ) (b : Buffer F32) (hb : WellFormed b)
    (hw : b.params.wtype ≤ 5) (hch : 0 < b.params.signalNumber) (data data' : List (Mat F32)) (hd : IsSignal b.params data)
    (h : List.Forall₂ (RelatedMats (InUnit e)) data data') (c : Buffer (Marked r o)) (hc : WellFormed c) (hp : c.params = b.params) :
    ∃ d d' : Decs (Marked r o),
      c.decompose (marksKit r o) (data.map fun m => m.map Marked.plain) nullDenoiser = .ok d true ∧
      c.decompose (marksKit r o) (data'.map fun m => m.map Marked.plain) nullDenoiser = .ok d' true ∧
      Buffer.decompose (α := Bits o) (bitsKit r o) b data nullDenoiser = .ok (unmark d) true ∧
      Buffer.decompose (α := Bits o) (bitsKit r o) b data' nullDenoiser = .ok (unmark d') true ∧
      RelatedDecs (InUnitOrMarked e) d d' ∧ ∀ s ≤ b.params.steps, ∃ out out' : List (Mat (Marked r o)),
        (Buffer.mk b.params d).compose (marksKit r o) s = .ok out ∧ (Buffer.mk b.params d').compose (marksKit r o) s = .ok out' ∧
        Buffer.compose (α := Bits o) (bitsKit r o) ⟨b.params, unmark d⟩ s = .ok (out.map fun m => m.map Marked.bits) ∧
        Buffer.compose (α := Bits o) (bitsKit r o) ⟨b.params, unmark d'⟩ s = .ok (out'.map fun m => m.map Marked.bits) ∧
        List.Forall₂ (RelatedMats (InUnitOrMarked e)) out out' := by
  have shp : ∀ dd : List (Mat F32), IsSignal b.params dd → IsSignal c.params (dd.map fun m => m.map (Marked.plain : F32 → Marked r o)) := by
    intro dd hdd
    refine ⟨by rw [List.length_map, hp]; exact hdd.1, fun m hm => ?_⟩
    obtain ⟨n, hn, rfl⟩ := List.mem_map.1 hm
    have := hdd.2 n hn
    rcases shape_cases hb.1 with ⟨a, hsh, _⟩ | ⟨a, k, hsh, _⟩ <;> rw [hp, hsh] <;> rw [hsh] at this <;> exact this
  have hdd : IsSignal b.params data' := by
    refine ⟨h.length_eq ▸ hd.1, fun m hm => ?_⟩
    obtain ⟨n, hn, rfl⟩ := List.mem_iff_getElem.1 hm
    have hn' : n < data.length := by rw [h.length_eq]; exact hn
    have g := h.get hn' hn
    have g' := hd.2 _ (List.getElem_mem hn')
    simp only [List.get_eq_getElem] at g
    rcases shape_cases hb.1 with ⟨a, hsh, _⟩ | ⟨a, c, hsh, _⟩ <;> rw [hsh] at g' ⊢
    · exact ⟨g.1.trans g'.1, g.2.1.trans g'.2⟩
    · exact ⟨g.1.trans g'.1, g.2.1.trans g'.2⟩
  have rel : List.Forall₂ (RelatedMats (InUnitOrMarked e)) (data.map fun m => m.map (Marked.plain : F32 → Marked r o))
      (data'.map fun m => m.map Marked.plain) := by
    rw [List.forall₂_map_left_iff, List.forall₂_map_right_iff]
    refine h.imp fun m m' g => ⟨g.1, g.2.1, fun i hi j hj => Or.inr (Or.inr ?_)⟩
    have hi' : i < m'.rows := by rw [g.1]; exact hi
    have hj' : j < m'.cols := by rw [g.2.1]; exact hj
    rw [Mat.get_map _ m hi hj, Mat.get_map _ m' hi' hj']
    exact g.2.2 i hi j hj
  have back : ∀ dd : List (Mat F32), (dd.map fun m => m.map (Marked.plain : F32 → Marked r o)).map (fun m => m.map (Marked.bits : Marked r o → F32)) = dd := by
    intro dd
    rw [List.map_map]
    conv_rhs => rw [← List.map_id dd]
    refine List.map_congr_left fun m _ => ?_
    rw [Mat.eq_iff]
    refine ⟨rfl, rfl, ?_⟩
    simp only [Function.comp_apply, Mat.map, List.map_map]
    exact List.map_id _
  have hch' : 0 < c.params.signalNumber := hp ▸ hch
  have hw' : c.params.wtype ≤ 5 := hp ▸ hw
  obtain ⟨d, d', h1, h2, h3, h4⟩ := C135_transform (marksKit r o) (InUnitOrMarked e) (unit_survives ho hu e) c hc (marks_present r o hw') hch' nullDenoiser
    nullDenoiser_sized (null_keeps _) _ _ (shp _ hd) rel
  obtain ⟨q, q1, q2, q3⟩ := buffer_hom (b' := (b : Buffer (Bits o))) (marks_hom (r := r) (o := o)) hp.symm hc hb (marks_present r o hw')
    (bitsKit_present (by omega)) hch' (shp _ hd)
  obtain ⟨q', q1', q2', q3'⟩ := buffer_hom (b' := (b : Buffer (Bits o))) (marks_hom (r := r) (o := o)) hp.symm hc hb (marks_present r o hw')
    (bitsKit_present (by omega)) hch' (shp _ hdd)
  obtain rfl : q = d := by rw [h1] at q1; injection q1 with a _; exact a.symm
  obtain rfl : q' = d' := by rw [h2] at q1'; injection q1' with a _; exact a.symm
  rw [hp] at h4 q3 q3'
  refine ⟨q, q', h1, h2, ?_, ?_, h3, fun s hs => ?_⟩
  · rw [← back data]; exact q2
  · rw [← back data']; exact q2'
  · obtain ⟨out, out', c1, c2, c3⟩ := h4 s hs
    obtain ⟨u, u1, u2⟩ := q3 s hs
    obtain ⟨u', u1', u2'⟩ := q3' s hs
    obtain rfl : u = out := by rw [c1] at u1; injection u1 with a; exact a.symm
    obtain rfl : u' = out' := by rw [c2] at u1'; injection u1' with a; exact a.symm
    exact ⟨u, u', c1, c2, u2, u2', c3⟩

/-! ### Concrete cases -/

/-- Rounding to 24 significant bits, to nearest. -/
noncomputable def bits24 (x : ℝ) : ℝ := (_root_.round (x * 2 ^ (23 - Int.log 2 |x|)) : ℤ) * 2 ^ (Int.log 2 |x| - 23)

theorem log_unit (e : ℤ) {x : ℝ} (hx : x ≠ 0) : Int.log 2 |2 ^ e * x| = e + Int.log 2 |x| := by
  have p2 : (0 : ℝ) < 2 ^ e := zpow_pos (by norm_num) e
  have hx' : 0 < |x| := abs_pos.2 hx
  rw [abs_mul, abs_of_pos p2]
  have a := Int.zpow_log_le_self (b := 2) (R := ℝ) (by norm_num) hx'
  have b := Int.lt_zpow_succ_log_self (b := 2) (R := ℝ) (by norm_num) |x|
  push_cast at a b
  have a' : ((2 : ℕ) : ℝ) ^ (e + Int.log 2 |x|) ≤ 2 ^ e * |x| := by
    push_cast
    rw [zpow_add₀ (by norm_num)]
    exact mul_le_mul_of_nonneg_left a p2.le
  have b' : 2 ^ e * |x| < ((2 : ℕ) : ℝ) ^ (e + Int.log 2 |x| + 1) := by
    push_cast
    rw [add_assoc, zpow_add₀ (by norm_num)]
    exact mul_lt_mul_of_pos_left b p2
  have h1 := (Int.zpow_le_iff_le_log (b := 2) (R := ℝ) (by norm_num) (mul_pos p2 hx')).1 a'
  have h2 := (Int.lt_zpow_iff_log_lt (b := 2) (R := ℝ) (by norm_num) (mul_pos p2 hx')).1 b'
  omega

theorem minNormal_pos : 0 < minNormal := by unfold minNormal; positivity

theorem bits24_unit (e : ℤ) {x : ℝ} (h : minNormal ≤ |x|) : bits24 (2 ^ e * x) = 2 ^ e * bits24 x := by
  have hx : x ≠ 0 := abs_pos.1 (minNormal_pos.trans_le h)
  unfold bits24
  rw [log_unit e hx]
  have e1 : (2 : ℝ) ^ e * x * 2 ^ (23 - (e + Int.log 2 |x|)) = x * 2 ^ (23 - Int.log 2 |x|) := by
    rw [mul_comm ((2 : ℝ) ^ e) x, mul_assoc, ← zpow_add₀ (by norm_num)]
    congr 2
    ring
  have e2 : (2 : ℝ) ^ (e + Int.log 2 |x| - 23) = 2 ^ e * 2 ^ (Int.log 2 |x| - 23) := by
    rw [← zpow_add₀ (by norm_num)]
    congr 1
    ring
  rw [e1, e2]
  ring

/-- `bits24` rounds to the nearest `float`. -/
theorem bits24_nearest {x : ℝ} (h : minNormal ≤ |x|) :
    bits24 x ∈ FloatNumbers 24 (-149) ∧ ∀ y ∈ FloatNumbers 24 (-149), |bits24 x - x| ≤ |y - x| := by
  have hx : 0 < |x| := minNormal_pos.trans_le h
  set L := Int.log 2 |x| with hL
  have a : (2 : ℝ) ^ L ≤ |x| := by have := Int.zpow_log_le_self (b := 2) (R := ℝ) (by norm_num) hx; exact_mod_cast this
  have b : |x| < (2 : ℝ) ^ (L + 1) := by have := Int.lt_zpow_succ_log_self (b := 2) (R := ℝ) (by norm_num) |x|; exact_mod_cast this
  have hL' : -126 ≤ L := by
    refine (Int.zpow_le_iff_le_log (b := 2) (R := ℝ) (by norm_num) hx).1 ?_
    refine le_trans (le_of_eq ?_) h
    unfold minNormal
    norm_num
  set q : ℝ := 2 ^ (L - 23) with hq
  have q0 : 0 < q := zpow_pos (by norm_num) _
  have qi : (2 : ℝ) ^ (23 - L) = q⁻¹ := by rw [hq, ← zpow_neg]; congr 1; ring
  have pL : (2 : ℝ) ^ L = 2 ^ 23 * q := by
    rw [hq, ← zpow_natCast, ← zpow_add₀ (by norm_num)]; congr 1; push_cast; ring
  have pL1 : (2 : ℝ) ^ (L + 1) = 2 ^ 24 * q := by rw [zpow_add₀ (by norm_num), pL]; ring
  have bx : bits24 x = (_root_.round (x * q⁻¹) : ℤ) * q := by unfold bits24; rw [← hL, qi]
  -- multiples of the quantum are not nearer
  have mult : ∀ z : ℤ, |bits24 x - x| ≤ |(z : ℝ) * q - x| := by
    intro z
    have r1 := round_le (x * q⁻¹) z
    have s : ∀ t : ℤ, |(t : ℝ) * q - x| = |x * q⁻¹ - t| * q := by
      intro t
      rw [abs_sub_comm (x * q⁻¹)]
      conv_rhs => rw [← abs_of_pos q0, ← abs_mul]
      congr 1
      rw [sub_mul, mul_assoc, abs_of_pos q0, inv_mul_cancel₀ q0.ne', mul_one]
    rw [bx, s, s]
    exact mul_le_mul_of_nonneg_right r1 q0.le
  refine ⟨?_, fun y hy => ?_⟩
  · have hm : |(_root_.round (x * q⁻¹) : ℤ)| ≤ 2 ^ 24 := by
      have : |x * q⁻¹| < 2 ^ 24 := by
        rw [abs_mul, abs_inv, abs_of_pos q0, ← div_eq_mul_inv, div_lt_iff₀ q0]
        linarith [pL1]
      have h1 := abs_lt.1 this
      rw [abs_le]
      constructor
      · rw [round_eq, Int.le_floor]; push_cast; linarith
      · have : _root_.round (x * q⁻¹) < 2 ^ 24 + 1 := by rw [round_eq, Int.floor_lt]; push_cast; linarith
        omega
    rw [bx]
    rcases hm.lt_or_eq with hm | hm
    · exact ⟨_, L - 23, by exact_mod_cast hm, by omega, rfl⟩
    · rcases abs_eq (by norm_num : (0 : ℤ) ≤ 2 ^ 24) |>.1 hm with hm | hm
      · refine ⟨2 ^ 23, L - 22, by norm_num, by omega, ?_⟩
        rw [hm, hq, show L - 22 = (L - 23) + 1 by ring, zpow_add₀ (by norm_num)]; push_cast; ring
      · refine ⟨-2 ^ 23, L - 22, by norm_num, by omega, ?_⟩
        rw [hm, hq, show L - 22 = (L - 23) + 1 by ring, zpow_add₀ (by norm_num)]; push_cast; ring
  · obtain ⟨m, e, hm, -, rfl⟩ := hy
    by_cases he : L - 23 ≤ e
    · obtain ⟨n, hn⟩ := Int.eq_ofNat_of_zero_le (sub_nonneg.2 he)
      have : (m : ℝ) * 2 ^ e = ((m * 2 ^ n : ℤ) : ℝ) * q := by
        push_cast
        rw [hq, mul_assoc, ← zpow_natCast, ← zpow_add₀ (by norm_num), ← hn]
        congr 2
        ring
      rw [this]
      exact mult _
    · push Not at he
      have small : |(m : ℝ) * 2 ^ e| ≤ 2 ^ L := by
        rw [abs_mul, abs_of_pos (zpow_pos (by norm_num : (0 : ℝ) < 2) e)]
        have h1 : |(m : ℝ)| ≤ 2 ^ 24 := by exact_mod_cast hm.le
        have h2 : (2 : ℝ) ^ e ≤ 2 ^ (L - 24) := zpow_le_zpow_right₀ (by norm_num) (by omega)
        have h3 : (2 : ℝ) ^ L = 2 ^ 24 * 2 ^ (L - 24) := by
          rw [← zpow_natCast, ← zpow_add₀ (by norm_num)]; congr 1; push_cast; ring
        rw [h3]
        exact mul_le_mul h1 h2 (zpow_pos (by norm_num) _).le (by norm_num)
      have hs := abs_le.1 small
      rcases le_or_gt 0 x with h0 | h0
      · refine (mult (2 ^ 23)).trans ?_
        have c : ((2 ^ 23 : ℤ) : ℝ) * q = 2 ^ L := by rw [pL]; norm_num
        rw [c]
        rw [abs_of_nonneg h0] at a
        rw [abs_of_nonpos (by linarith), abs_of_nonpos (by linarith [hs.2])]
        linarith [hs.2]
      · refine (mult (-2 ^ 23)).trans ?_
        have c : ((-2 ^ 23 : ℤ) : ℝ) * q = -2 ^ L := by rw [pL]; norm_num
        rw [c]
        rw [abs_of_neg h0] at a
        rw [abs_of_nonneg (by linarith), abs_of_nonneg (by linarith [hs.1])]
        linarith [hs.1]

/-- Roundings and operations that meet the hypotheses of C146 exist. -/
theorem unit_blind_exist : ∃ (r : Rounding) (o : FloatOps), r.IEEE ∧ o.Correct r ∧ UnitBlind r o := by
  classical
  choose f hf hf' using nearest_exists 24 (-149)
  choose g hg hg' using nearest_exists 53 (-1074)
  let f' : ℝ → ℝ := fun x => if minNormal ≤ |x| then bits24 x else f x
  let r : Rounding := ⟨f', g⟩
  have hr : r.IEEE := by
    refine ⟨fun x => ?_, fun x => ⟨hg x, hg' x⟩⟩
    show f' x ∈ _ ∧ ∀ y ∈ _, |f' x - x| ≤ |y - x|
    by_cases h : minNormal ≤ |x|
    · rw [show f' x = bits24 x from if_pos h]
      exact bits24_nearest h
    · rw [show f' x = f x from if_neg h]
      exact ⟨hf x, hf' x⟩
  have zero : r.toFloat 0 = 0 := by
    have := (hr.1 0).2 0 ⟨0, 0, by norm_num, by norm_num, by norm_num⟩
    simpa using this
  have scale : ∀ (e : ℤ) (x : ℝ), minNormal ≤ |x| → minNormal ≤ |2 ^ e * x| → r.toFloat (2 ^ e * x) = 2 ^ e * r.toFloat x := by
    intro e x h h'
    show f' _ = _ * f' _
    rw [show f' x = bits24 x from if_pos h, show f' (2 ^ e * x) = bits24 (2 ^ e * x) from if_pos h', bits24_unit e h]
  obtain ⟨o, ho⟩ := floatOps_exist hr
  have lim : ∀ (two : Bool) (s : ℕ) (x : F32), finiteBits x → |r.toFloat ((number x : ℝ) / (if two then 2 else Real.sqrt 2) ^ s)| ≤ maxFloat := by
    intro two s x hx
    refine toFloat_le hr ?_
    have hge := gain_ge_one two s
    rw [abs_div, abs_of_pos (a := (if two = true then (2 : ℝ) else Real.sqrt 2) ^ s) (by linarith)]
    exact (div_le_self (abs_nonneg _) hge).trans (number_le_max hx)
  refine ⟨r, { o with div := fun two s x => o.store ((number x : ℝ) / (if two then 2 else Real.sqrt 2) ^ s) }, hr,
    ⟨ho.add, ho.mul, ho.neg, ho.store, fun two s x hx => ?_⟩, ⟨zero, scale, fun two s e x x' hu h h' => ?_⟩⟩
  · obtain ⟨h2, h3⟩ := ho.store _ (lim two s x hx)
    refine ⟨h2, ?_⟩
    have := rounds_std (by norm_num) hr.1 ((number x : ℝ) / (if two = true then (2 : ℝ) else Real.sqrt 2) ^ s)
    have e1 : (2 : ℝ) ^ (-((24 : ℕ) : ℤ)) = 1 / 2 ^ 24 := by norm_num
    have e2 : (2 : ℝ) ^ ((-149 : ℤ) - 1) = 1 / 2 ^ 150 := by norm_num
    rw [e1, e2] at this
    show |(number (o.store _) : ℝ) - _| ≤ _
    rw [h3]
    exact this.trans (add_le_add (mul_le_mul_of_nonneg_right (by norm_num) (abs_nonneg _)) (by norm_num))
  · show (number (o.store _) : ℝ) = 2 ^ e * (number (o.store _) : ℝ)
    rw [(ho.store _ (lim two s x hu.1)).2, (ho.store _ (lim two s x' hu.2.1)).2]
    rw [hu.2.2, mul_div_assoc] at h' ⊢
    have mp := minNormal_pos
    rcases h with h | h
    · rw [h, mul_zero, zero, mul_zero]
    · rcases h' with h' | h'
      · have h2 : (2 : ℝ) ^ e ≠ 0 := zpow_ne_zero _ (by norm_num)
        rw [(mul_eq_zero.1 h').resolve_left h2, mul_zero, zero, mul_zero]
      · exact scale e _ (by linarith) (by linarith)

/-- The hypotheses of C146 can be met: a picture of 640 × 480 pixels with 8-bit values, as numbers from 0 to 255 and divided by 256. -/
example (f : ℕ → ℕ → UInt8) : ∃ (r : Rounding) (o : FloatOps) (data data' : List (Mat F32)) (c : Buffer (Marked r o)),
    let b : Buffer F32 := ⟨⟨[640, 480], 1, 4, 2⟩, [List.replicate 13 Mat.empty]⟩
    o.Correct r ∧ UnitBlind r o ∧ WellFormed b ∧ b.params.wtype ≤ 5 ∧ 0 < b.params.signalNumber ∧ IsSignal b.params data ∧
      List.Forall₂ (RelatedMats (InUnit (-8))) data data' ∧ WellFormed c ∧ c.params = b.params ∧
      ∀ m ∈ data, ∀ i < 480, ∀ j < 640, number (m.get i j) = (f i j).toNat := by
  obtain ⟨r, o, hr, ho, hu⟩ := unit_blind_exist
  have mx : (256 : ℝ) ≤ maxFloat := by unfold maxFloat; norm_num
  have pix : ∀ k : UInt8, ∃ x x' : F32, InUnit (-8) x x' ∧ number x = k.toNat := by
    intro k
    have hk : k.toNat < 256 := k.toNat_lt
    have hk' : ((k.toNat : ℤ) : ℝ) < 256 := by exact_mod_cast hk
    have hk0 : (0 : ℝ) ≤ ((k.toNat : ℤ) : ℝ) := by positivity
    have ab : |(k.toNat : ℤ)| < 2 ^ 24 := by rw [abs_of_nonneg (by positivity)]; omega
    obtain ⟨x, x1, x2⟩ := number_surj (v := ((k.toNat : ℤ) : ℝ) * 2 ^ (0 : ℤ)) ⟨(k.toNat : ℤ), 0, ab, by norm_num, rfl⟩
      (by rw [zpow_zero, mul_one, abs_of_nonneg hk0]; linarith)
    obtain ⟨x', x1', x2'⟩ := number_surj (v := ((k.toNat : ℤ) : ℝ) * 2 ^ (-8 : ℤ)) ⟨(k.toNat : ℤ), -8, ab, by norm_num, rfl⟩
      (by rw [abs_of_nonneg (by positivity)]; norm_num; push_cast at hk' hk0; linarith)
    refine ⟨x, x', ⟨x1, x1', ?_⟩, ?_⟩
    · rw [x2, x2', zpow_zero, mul_one, mul_comm]
    · have : (number x : ℝ) = ((k.toNat : ℚ) : ℝ) := by rw [x2]; push_cast; simp
      exact_mod_cast this
  choose g g' hg hn using pix
  refine ⟨r, o, [Mat.ofFn 480 640 fun i j => g (f i j)], [Mat.ofFn 480 640 fun i j => g' (f i j)], ⟨⟨[640, 480], 1, 4, 2⟩, [List.replicate 13 Mat.empty]⟩, ?_⟩
  intro b
  have v : ValidParams b.params := ⟨by simp [b], by simp [b], by simp [b]⟩
  refine ⟨ho, hu, ⟨v, by simp [b], by simp [b, subbandCount, detailsPerStep]⟩, by simp [b], by simp [b], ⟨by simp [b], ?_⟩, ?_,
    ⟨v, by simp, by simp [subbandCount, detailsPerStep]⟩, rfl, ?_⟩
  · intro m hm
    obtain rfl : m = Mat.ofFn 480 640 fun i j => g (f i j) := by simpa using hm
    exact ⟨rfl, rfl⟩
  · refine List.Forall₂.cons ⟨rfl, rfl, fun i hi j hj => ?_⟩ List.Forall₂.nil
    rw [Mat.get_ofFn (r := 480) (c := 640) hi hj, Mat.get_ofFn (r := 480) (c := 640) hi hj]
    exact hg _
  · intro m hm i hi j hj
    obtain rfl : m = Mat.ofFn 480 640 fun i j => g (f i j) := by simpa using hm
    rw [Mat.get_ofFn (r := 480) (c := 640) hi hj]
    exact hn _

/-- Not everything is marked: the two samples 1, 1 and one step of the Haar wavelet. -/
example (r : Rounding) (hr : r.IEEE) (o : FloatOps) (ho : o.Correct r) (one : F32) (h1 : finiteBits one) (h1' : number one = 1) :
    let c : Buffer (Marked r o) := ⟨⟨[2], 1, 1, 1⟩, [[Mat.empty, Mat.empty]]⟩
    ∃ detail a, c.decompose (marksKit r o) [Mat.ofCol [Marked.plain one, Marked.plain one]] nullDenoiser = .ok [[detail, Mat.ofCol [a]]] true ∧
      a.mark = false ∧ 1 ≤ number a.bits ∧ number a.bits ≤ 2 := by
  classical
  intro c
  have hv : ValidParams c.params := ⟨by simp [c], by simp [c], by simp [c]⟩
  have hb : WellFormed c := ⟨hv, by simp [c], by simp [c, subbandCount, detailsPerStep]⟩
  have hd : IsSignal c.params [Mat.ofCol [(Marked.plain one : Marked r o), Marked.plain one]] := by
    refine ⟨rfl, fun m hm => ?_⟩
    obtain rfl : m = Mat.ofCol [(Marked.plain one : Marked r o), Marked.plain one] := by simpa using hm
    exact ⟨rfl, rfl⟩
  have s2 : (1 : ℝ) ≤ Real.sqrt 2 := by rw [Real.one_le_sqrt]; norm_num
  have s2' : Real.sqrt 2 ≤ 2 := by rw [Real.sqrt_le_left (by norm_num)]; norm_num
  have mn : minNormal ≤ 1 / 2 := by unfold minNormal; norm_num
  have mx : (2 : ℝ) ≤ maxFloat := by unfold maxFloat; norm_num
  have F : ∀ k : ℤ, -1 ≤ k → k ≤ 1 → r.toFloat (2 ^ k) = 2 ^ k := fun k hk _ => WB.Sf.nearest_exact hr.1 ⟨1, k, by norm_num, by omega, by simp⟩
  have D : ∀ k : ℤ, -1 ≤ k → k ≤ 1 → r.toDouble (2 ^ k) = 2 ^ k := fun k hk _ => WB.Sf.nearest_exact hr.2 ⟨1, k, by norm_num, by omega, by simp⟩
  have fh : r.toFloat (1 / 2) = 1 / 2 := by have := F (-1) (by norm_num) (by norm_num); norm_num at this ⊢; exact this
  have f1 : r.toFloat 1 = 1 := by have := F 0 (by norm_num) (by norm_num); simpa using this
  have f2 : r.toFloat 2 = 2 := by have := F 1 (by norm_num) (by norm_num); simpa using this
  have dh : r.toDouble (1 / 2) = 1 / 2 := by have := D (-1) (by norm_num) (by norm_num); norm_num at this ⊢; exact this
  have d1 : r.toDouble 1 = 1 := by have := D 0 (by norm_num) (by norm_num); simpa using this
  have d2 : r.toDouble 2 = 2 := by have := D 1 (by norm_num) (by norm_num); simpa using this
  have fin : ∀ {x : ℝ}, 1 / 2 ≤ x → x ≤ 2 → InRange r x ∧ |r.toFloat x| ≤ maxFloat := by
    intro x a1 a2
    have k1 := WB.Sf.nearest_mono hr.1 a1
    have k2 := WB.Sf.nearest_mono hr.1 a2
    rw [fh] at k1
    rw [f2] at k2
    have : |r.toFloat x| ≤ maxFloat := by rw [abs_of_nonneg (by linarith)]; linarith
    exact ⟨Or.inr ⟨by rw [abs_of_nonneg (by linarith)]; linarith, this⟩, this⟩
  -- the filter
  obtain ⟨half, hh1, hh2⟩ : ∃ x : F32, o.store (r.toDouble (((1 / 2 : ℚ) : ℚ) : ℝ)) = x ∧ (number x : ℝ) = 1 / 2 := by
    refine ⟨_, rfl, ?_⟩
    have : r.toDouble (((1 / 2 : ℚ) : ℚ) : ℝ) = 1 / 2 := by rw [← dh]; congr 1; norm_num
    rw [this, (ho.store _ (fin le_rfl (by norm_num)).2).2, fh]
  obtain ⟨h, hh3, hh4, hh5, hh6⟩ : ∃ h : F32, o.store (r.toDouble (r.toDouble (Real.sqrt 2) * (number half : ℝ))) = h ∧ finiteBits h ∧
      (1 / 2 : ℝ) ≤ number h ∧ (number h : ℝ) ≤ 1 := by
    refine ⟨_, rfl, ?_⟩
    have a1 := WB.Sf.nearest_mono hr.2 s2
    have a2 := WB.Sf.nearest_mono hr.2 s2'
    rw [d1] at a1
    rw [d2] at a2
    rw [hh2]
    have b1 := WB.Sf.nearest_mono hr.2 (show (1 / 2 : ℝ) ≤ r.toDouble (Real.sqrt 2) * (1 / 2) by linarith)
    have b2 := WB.Sf.nearest_mono hr.2 (show r.toDouble (Real.sqrt 2) * (1 / 2) ≤ 1 by linarith)
    rw [dh] at b1
    rw [d1] at b2
    have c1 := WB.Sf.nearest_mono hr.1 b1
    have c2 := WB.Sf.nearest_mono hr.1 b2
    rw [fh] at c1
    rw [f1] at c2
    obtain ⟨e1, e2⟩ := ho.store _ (fin b1 (by linarith)).2
    rw [e2]
    exact ⟨e1, c1, c2⟩
  have fil : scaling (marksKit r o) c.params = [Marked.plain h, Marked.plain h] := by
    have c3 : (marksKit r o).dbwavf 1 = [Marked.plain half, Marked.plain half] := by
      have : dbCoeffs 1 = [1 / 2, 1 / 2] := by simp only [dbCoeffs]; norm_num
      unfold marksKit
      simp only
      rw [this, List.map_cons, List.map_cons, List.map_nil, hh1]
    have c2 : (marksKit r o).mulSqrt2 (Marked.plain half) = Marked.plain h := by
      show (o.store _, false) = _
      rw [← hh3]
      rfl
    show ((marksKit r o).dbwavf 1).map _ = _
    rw [c3, List.map_cons, List.map_cons, List.map_nil, c2]
  -- the operations
  have one' : (number one : ℝ) = 1 := by rw [h1']; norm_num
  have z : (number (0#32 : F32) : ℝ) = 0 := by rw [number_zero]; norm_num
  have mulOk : ∀ x y : F32, finiteBits x → finiteBits y → 1 / 2 ≤ (number x : ℝ) * number y → (number x : ℝ) * number y ≤ 2 →
      (Marked.plain x : Marked r o) * Marked.plain y = Marked.plain (o.mul x y) := by
    intro x y a1 a2 a3 a4
    have : InRange r ((number x : ℝ) * number y) := (fin a3 a4).1
    show Marked.mul (Marked.plain x) (Marked.plain y) = _
    unfold Marked.mul
    rw [decide_eq_true (p := finiteBits (Marked.plain x : Marked r o).bits ∧ _) ⟨a1, a2, this⟩]
    rfl
  have addOk : ∀ x y : F32, finiteBits x → finiteBits y → 1 / 2 ≤ (number x : ℝ) + number y → (number x : ℝ) + number y ≤ 2 →
      (Marked.plain x : Marked r o) + Marked.plain y = Marked.plain (o.add x y) := by
    intro x y a1 a2 a3 a4
    have : InRange r ((number x : ℝ) + number y) := (fin a3 a4).1
    show Marked.add (Marked.plain x) (Marked.plain y) = _
    unfold Marked.add
    rw [decide_eq_true (p := finiteBits (Marked.plain x : Marked r o).bits ∧ _) ⟨a1, a2, this⟩]
    rfl
  have p1 : (1 / 2 : ℝ) ≤ (number one : ℝ) * number h := by rw [one', one_mul]; exact hh5
  have p2 : (number one : ℝ) * number h ≤ 1 := by rw [one', one_mul]; exact hh6
  obtain ⟨m1, m2⟩ := ho.mul one h h1 hh4 (fin p1 (by linarith)).2
  have m3 := WB.Sf.nearest_mono hr.1 p1
  have m4 := WB.Sf.nearest_mono hr.1 p2
  rw [fh, ← m2] at m3
  rw [f1, ← m2] at m4
  have t1 : (1 / 2 : ℝ) ≤ (number (0#32 : F32) : ℝ) + number (o.mul one h) := by rw [z, zero_add]; exact m3
  have t2 : (number (0#32 : F32) : ℝ) + number (o.mul one h) ≤ 1 := by rw [z, zero_add]; exact m4
  obtain ⟨u1, u2⟩ := ho.add 0#32 (o.mul one h) finite_zero m1 (fin t1 (by linarith)).2
  have u3 := WB.Sf.nearest_mono hr.1 t1
  have u4 := WB.Sf.nearest_mono hr.1 t2
  rw [fh, ← u2] at u3
  rw [f1, ← u2] at u4
  have w1 : (1 : ℝ) ≤ (number (o.add 0#32 (o.mul one h)) : ℝ) + number (o.mul one h) := by linarith
  have w2 : (number (o.add 0#32 (o.mul one h)) : ℝ) + number (o.mul one h) ≤ 2 := by linarith
  obtain ⟨v1, v2⟩ := ho.add _ (o.mul one h) u1 m1 (fin (by linarith) w2).2
  have v3 := WB.Sf.nearest_mono hr.1 w1
  have v4 := WB.Sf.nearest_mono hr.1 w2
  rw [f1, ← v2] at v3
  rw [f2, ← v2] at v4
  have v5 : 1 ≤ number (o.add (o.add 0#32 (o.mul one h)) (o.mul one h)) := by exact_mod_cast v3
  have v6 : number (o.add (o.add 0#32 (o.mul one h)) (o.mul one h)) ≤ 2 := by exact_mod_cast v4
  have e1 : matRows (paddedShape c.params) = 2 := by show matRows (paddedShape ⟨[2], 1, 1, 1⟩) = 2; decide +kernel
  have e2 : matCols (paddedShape c.params) = 1 := by show matCols (paddedShape ⟨[2], 1, 1, 1⟩) = 1; decide +kernel
  have hpad : padOf c.params (Mat.ofCol [(Marked.plain one : Marked r o), Marked.plain one]) = Mat.ofCol [Marked.plain one, Marked.plain one] := by
    unfold padOf
    rw [if_neg (by simp [c]), e1, e2, Mat.eq_iff]
    refine ⟨rfl, rfl, ?_⟩
    simp [Mat.ofFn, Mat.get, Mat.ofCol, clampIdx, padOffset, List.range, List.range.loop]
  have st : c.params.steps = 1 := rfl
  have dim : c.params.dimension = 1 := rfl
  have ap : approxStep c.params [Marked.plain h, Marked.plain h] (Mat.ofCol [(Marked.plain one : Marked r o), Marked.plain one]) =
      Mat.ofCol [Marked.plain (o.add (o.add 0#32 (o.mul one h)) (o.mul one h))] := by
    have a1 : (0 : Marked r o) + Marked.plain (o.mul one h) = Marked.plain (o.add 0#32 (o.mul one h)) :=
      addOk 0#32 (o.mul one h) finite_zero m1 t1 (by linarith)
    unfold approxStep
    rw [if_pos dim, Mat.col_ofCol]
    simp [anaP, List.range, List.range.loop]
    rw [mulOk one h h1 hh4 p1 (by linarith), a1, addOk _ _ u1 m1 (by linarith) w2]
  refine ⟨(detailStep c.params (scaling (marksKit r o) c.params) nullDenoiser 0 (Mat.ofCol [Marked.plain one, Marked.plain one])).getD 0 default,
    Marked.plain (o.add (o.add 0#32 (o.mul one h)) (o.mul one h)), (decompose_ok hb (marks_present r o (by simp [c])) (by simp [c]) hd (fun _ => nullDenoiser_sized)).trans ?_, rfl, v5, v6⟩
  congr 1
  rw [List.map_cons, List.map_nil]
  congr 1
  unfold chanP
  have r1 : List.range 1 = [0] := rfl
  rw [hpad, st, r1]
  simp only [List.flatMap_cons, List.flatMap_nil, List.append_nil, sig]
  rw [fil, ap]
  unfold detailStep
  rw [if_pos dim]
  rfl

end

end WB.Props
