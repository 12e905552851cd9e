import Verif.Model.FloatDenoise
import Verif.Props.FloatBits
import Verif.Props.SimpleLoss

/-!
The two denoisers on 32-bit patterns: how far they move the coefficients of a channel.
-/

namespace WB.Props

open Finset Spec

/-- A denoiser on `float`s keeps sizes and finiteness and changes a subband of at most `n` entries, in the steps below `K`, by at most a share `A` of its root
of the sum of squares and `B` per entry. -/
structure MovesLittle (n K : ℕ) (A B : ℝ) (den : Denoiser F32) : Prop where
  keeps : KeepsSizes den
  d1 : ∀ v s, s < K → v.length ≤ n → (∀ x ∈ v, finiteBits x) → (∀ x ∈ den.d1 v s, finiteBits x) ∧
    sqDist (matNumbers (Mat.ofCol v)) (matNumbers (Mat.ofCol (den.d1 v s))) ≤ A ^ 2 * energy (matNumbers (Mat.ofCol v)) + B ^ 2 * v.length
  d2 : ∀ m s, s < K → m.rows * m.cols ≤ n → (∀ i < m.rows, ∀ j < m.cols, finiteBits (m.get i j)) →
    (∀ i < m.rows, ∀ j < m.cols, finiteBits ((den.d2 m s).get i j)) ∧
    sqDist (matNumbers m) (matNumbers (den.d2 m s)) ≤ A ^ 2 * energy (matNumbers m) + B ^ 2 * (m.rows * m.cols : ℕ)

/-- All entries are finite. -/
def FinM (m : Mat F32) : Prop := ∀ i < m.rows, ∀ j < m.cols, finiteBits (m.get i j)

theorem finM_ofCol {v : List F32} : FinM (Mat.ofCol v) ↔ ∀ x ∈ v, finiteBits x := by
  constructor
  · intro h x hx
    obtain ⟨i, hi, rfl⟩ := List.mem_iff_getElem.1 hx
    have := h i (by simpa using hi) 0 (by simp)
    simpa [Mat.get, Mat.ofCol, List.getD, hi] using this
  · intro h i hi j hj
    have hi : i < v.length := by simpa using hi
    have hj : j = 0 := by have : j < 1 := by simpa using hj
                          omega
    subst hj
    have := h v[i] (List.getElem_mem hi)
    simpa [Mat.get, Mat.ofCol, List.getD, hi] using this

theorem detail_kept {n K : ℕ} {A B : ℝ} {den : Denoiser F32} (h : MovesLittle n K A B den) {p : Params} {o : FloatOps} (hl : List (Bits o)) {s q : ℕ}
    (hs : s < K) (hq : q < subbandsPerWT p) (m : Mat (Bits o))
    (hsz : ((detailStep p hl nullDenoiser s m).getD q default).rows * ((detailStep p hl nullDenoiser s m).getD q default).cols ≤ n)
    (hfin : FinM ((detailStep p hl nullDenoiser s m).getD q default)) :
    Kept (A ^ 2) (B ^ 2) ((detailStep p hl nullDenoiser s m).getD q default) ((detailStep (α := Bits o) p hl den s m).getD q default) ∧
      FinM ((detailStep (α := Bits o) p hl den s m).getD q default) := by
  by_cases hd : p.dimension = 1
  · have hq0 : q = 0 := by rw [subbandsPerWT, if_pos hd] at hq; omega
    subst hq0
    unfold detailStep at *
    rw [if_pos hd] at *
    rw [if_pos hd]
    obtain ⟨v, hv⟩ : ∃ v : List F32, v = (List.range (m.rows / 2)).map (anaP (m.col 0) (qmf hl)) := ⟨_, rfl⟩
    have e0 : ([Mat.ofCol ((nullDenoiser (α := Bits o)).d1 ((List.range (m.rows / 2)).map (anaP (m.col 0) (qmf hl))) s)].getD 0 default : Mat F32) =
      Mat.ofCol v := by rw [hv]; rfl
    have e1 : ([Mat.ofCol (Denoiser.d1 (α := Bits o) den ((List.range (m.rows / 2)).map (anaP (m.col 0) (qmf hl))) s)].getD 0 default : Mat F32) =
      Mat.ofCol (den.d1 v s) := by rw [hv]; rfl
    have hfin : FinM (Mat.ofCol v) := e0 ▸ hfin
    have hsz : v.length ≤ n := by
      have : (Mat.ofCol v).rows * (Mat.ofCol v).cols ≤ n := e0 ▸ hsz
      simpa using this
    obtain ⟨k1, k2⟩ := h.d1 v s hs hsz (finM_ofCol.1 hfin)
    show Kept _ _ (_ : Mat F32) (_ : Mat F32) ∧ FinM (_ : Mat F32)
    rw [e1, e0]
    refine ⟨⟨?_, rfl, ?_⟩, finM_ofCol.2 k1⟩
    · simpa using h.keeps.1 v s
    · simpa using k2
  · have hq3 : q < 3 := by rw [subbandsPerWT, if_neg hd] at hq; omega
    obtain ⟨m0, hm0⟩ : ∃ m0 : Mat F32, m0 = (detailStep p hl nullDenoiser s m).getD q default := ⟨_, rfl⟩
    have e1 : ((detailStep (α := Bits o) p hl den s m).getD q default : Mat F32) = den.d2 m0 s := by
      rw [hm0]
      unfold detailStep
      rw [if_neg hd, if_neg hd]
      rcases (by omega : q = 0 ∨ q = 1 ∨ q = 2) with rfl | rfl | rfl <;> rfl
    show Kept _ _ (_ : Mat F32) (_ : Mat F32) ∧ FinM (_ : Mat F32)
    rw [e1, ← hm0]
    have hsz : m0.rows * m0.cols ≤ n := hm0 ▸ hsz
    have hfin : FinM m0 := hm0 ▸ hfin
    obtain ⟨k1, k2⟩ := h.d2 m0 s hs hsz hfin
    obtain ⟨r1, r2⟩ := h.keeps.2 m0 s
    exact ⟨⟨r1, r2, k2⟩, fun i hi j hj => k1 i (r1 ▸ hi) j (r2 ▸ hj)⟩

/-- `Kept` for subbands of the float transform. -/
def KeptB {o : FloatOps} (A B : ℝ) (m m' : Mat (Bits o)) : Prop := Kept A B m m' ∧ FinM m'

/-- `FinM` for subbands of the float transform. -/
def FinB {o : FloatOps} (m : Mat (Bits o)) : Prop := FinM m

theorem keptB_self {o : FloatOps} {A B : ℝ} (hA : 0 ≤ A) (hB : 0 ≤ B) {m : Mat (Bits o)} (h : FinB m) : KeptB A B m m := by
  refine ⟨⟨rfl, rfl, ?_⟩, h⟩
  have : sqDist (matNumbers m) (matNumbers m) = 0 := by simp [sqDist]
  rw [this]
  have := energy_nonneg (matNumbers m)
  positivity

theorem detail_keptB {n K : ℕ} {A B : ℝ} {o : FloatOps} {den : Denoiser (Bits o)} (h : MovesLittle n K A B den) {p : Params} (hl : List (Bits o)) {s q : ℕ}
    (hs : s < K) (hq : q < subbandsPerWT p) (m : Mat (Bits o))
    (hsz : ((detailStep p hl nullDenoiser s m).getD q default).rows * ((detailStep p hl nullDenoiser s m).getD q default).cols ≤ n)
    (hfin : FinB ((detailStep p hl nullDenoiser s m).getD q default)) :
    KeptB (A ^ 2) (B ^ 2) ((detailStep p hl nullDenoiser s m).getD q default) ((detailStep p hl den s m).getD q default) :=
  detail_kept h hl hs hq m hsz hfin

/-- The denoised channel next to the one that is not denoised. -/
theorem chan_keptB {A B : ℝ} {p : Params} {o : FloatOps} {den : Denoiser (Bits o)} (h : MovesLittle (padSize p) p.steps A B den) (hszd : den.Sized)
    (hv : ValidParams p) (k : Kit (Bits o)) {x : Mat (Bits o)} (hx : Shaped p x) (hfin : ∀ m ∈ chanP p (scaling k p) nullDenoiser x, FinB m) :
    List.Forall₂ (KeptB (A ^ 2) (B ^ 2)) (chanP p (scaling k p) nullDenoiser x) (chanP p (scaling k p) den x) := by
  have szF := chanP_sized (k := k) hv nullDenoiser_sized hx
  have szD := chanP_sized (k := k) hv hszd hx
  refine List.forall₂_iff_get.2 ⟨szF.1.trans szD.1.symm, fun i h1 h2 => ?_⟩
  have f1 := hfin _ (List.get_mem _ ⟨i, h1⟩)
  have e1 : (chanP p (scaling k p) nullDenoiser x).get ⟨i, h1⟩ = (chanP p (scaling k p) nullDenoiser x).getD i default := by
    simp [List.getD, h1]
  have e2 : (chanP p (scaling k p) den x).get ⟨i, h2⟩ = (chanP p (scaling k p) den x).getD i default := by
    simp [List.getD, h2]
  rw [e1] at f1
  rw [e1, e2]
  have hi : i < decompositionSize p := lt_of_lt_of_eq h1 szF.1
  rcases sub_cases p hi with rfl | ⟨s, hs, q, hq, rfl⟩
  · rw [chanP_last] at f1 ⊢
    rw [chanP_last]
    exact keptB_self (sq_nonneg _) (sq_nonneg _) f1
  · have sz := size_le (szF.2.1 s hs q hq)
    rw [chanP_detail _ _ _ _ hs hq] at f1 sz ⊢
    rw [chanP_detail _ _ _ _ hs hq]
    exact detail_keptB h _ hs hq _ sz f1

theorem chan_kept {A B : ℝ} {den : Denoiser F32} {p : Params} (h : MovesLittle (padSize p) p.steps A B den) (hv : ValidParams p) {o : FloatOps}
    (k : Kit (Bits o)) {x : Mat F32} (hx : Shaped p x) (hfin : ∀ m ∈ chanP (α := Bits o) p (scaling k p) nullDenoiser x, FinM m) :
    List.Forall₂ (fun m m' => Kept (A ^ 2) (B ^ 2) m m' ∧ FinM m') (chanP (α := Bits o) p (scaling k p) nullDenoiser x)
      (chanP (α := Bits o) p (scaling k p) den x) :=
  chan_keptB (den := den) h h.keeps hv k hx hfin

theorem not_nan {x : F32} (h : finiteBits x) : ¬ isNaN x := fun g => by unfold finiteBits at h; have := g.1; omega

theorem finite_abs {x : F32} (h : finiteBits x) : finiteBits (absBits x) := by
  have := x.isLt
  unfold finiteBits expBits absBits at *
  rw [BitVec.toNat_ofNat]
  omega

theorem number_abs (x : F32) : number (absBits x) = |number x| := by
  rw [abs_number]
  have : (absBits x).toNat = x.toNat % 2 ^ 31 := by
    unfold absBits
    rw [BitVec.toNat_ofNat, Nat.mod_eq_of_lt]
    exact lt_of_lt_of_le (Nat.mod_lt _ (by norm_num)) (by norm_num)
  unfold number
  rw [this, if_pos (by have := Nat.mod_lt x.toNat (show 0 < 2 ^ 31 by norm_num); omega), Nat.mod_mod, one_mul]

/-- Comparison of the magnitude with a finite threshold. -/
theorem not_lt_abs {o : FloatOps} {t x : F32} (ht : finiteBits t) (hx : finiteBits x) (h : ¬ @LT.lt (Bits o) _ t (absBits x)) :
    |(number x : ℝ)| ≤ number t := by
  by_contra hc
  rw [not_le] at hc
  refine h ⟨not_nan ht, not_nan (finite_abs hx), ?_⟩
  rw [number_abs]
  exact_mod_cast hc

theorem finite_zero : finiteBits (0#32) := by unfold finiteBits; decide

theorem number_zero : number (0#32) = 0 := by norm_num [number, magnitude]

theorem small_nat {n : ℕ} (h : n < 2 ^ 24) : (n : ℝ) ∈ FloatNumbers 24 (-149) :=
  ⟨n, 0, by rw [abs_of_nonneg (by positivity)]; exact_mod_cast h, by norm_num, by simp⟩

/-- The threshold as it is computed in `float`. -/
theorem threshold_float {r : Rounding} (hr : r.IEEE) {o : FloatOps} (ho : o.Correct r) {a b : F32} (ha : finiteBits a) (hb : finiteBits b) {s : ℕ}
    (hs : s < 2 ^ 24) {T : ℝ} (hT : |(number a : ℝ)| * s + |(number b : ℝ)| ≤ T) (hT2 : T ≤ 2 ^ 126) :
    finiteBits (getThreshold (α := Bits o) a b s) ∧ (number (getThreshold (α := Bits o) a b s) : ℝ) ≤ (1 + 1 / 2 ^ 22) * T + 1 / 2 ^ 148 := by
  have hmax : (2 : ℝ) ^ 127 ≤ maxFloat := by unfold maxFloat; norm_num
  have hs0 : (0 : ℝ) ≤ s := by positivity
  have hs1 : (s : ℝ) ≤ 2 ^ 24 := by exact_mod_cast hs.le
  have e1 : r.toFloat (s : ℝ) = s := rounds_self hr.1 (small_nat hs)
  obtain ⟨s1, s2⟩ := ho.store (s : ℝ) (by rw [e1, abs_of_nonneg hs0]; exact hs1.trans (le_trans (by norm_num) hmax))
  rw [e1] at s2
  have hT0 : 0 ≤ T := le_trans (by positivity) hT
  have b0 := abs_nonneg (number b : ℝ)
  have as0 : 0 ≤ |(number a : ℝ)| * s := by positivity
  have eas : |(number a : ℝ) * number (o.store s)| = |(number a : ℝ)| * s := by rw [s2, abs_mul, abs_of_nonneg hs0]
  have m0 := std_float hr ((number a : ℝ) * number (o.store s))
  obtain ⟨m1, m2⟩ := ho.mul a (o.store s) ha s1 (toFloat_le hr (by rw [eas]; linarith))
  rw [← m2, eas] at m0
  have m3 : |(number (o.mul a (o.store s)) : ℝ)| ≤ (1 + 1 / 2 ^ 24) * (|(number a : ℝ)| * s) + 1 / 2 ^ 150 := by
    have h1 := abs_add_le ((number (o.mul a (o.store s)) : ℝ) - (number a : ℝ) * number (o.store s)) ((number a : ℝ) * number (o.store s))
    rw [sub_add_cancel, eas] at h1
    linarith
  have h2 := abs_add_le (number (o.mul a (o.store s)) : ℝ) (number b)
  have a0 := std_float hr ((number (o.mul a (o.store s)) : ℝ) + number b)
  have hle : |(number (o.mul a (o.store s)) : ℝ) + number b| ≤ (1 + 1 / 2 ^ 24) * T + 1 / 2 ^ 150 := by linarith
  obtain ⟨a1, a2⟩ := ho.add _ b m1 hb (toFloat_le hr (hle.trans (le_trans (by linarith) hmax)))
  refine ⟨a1, ?_⟩
  show (number (o.add (o.mul a (o.store s)) b) : ℝ) ≤ _
  rw [a2]
  have := le_of_abs_le a0
  have := le_abs_self ((number (o.mul a (o.store s)) : ℝ) + number b)
  linarith

theorem sqDist_entries {m m' : Mat ℝ} {B : ℝ} (h : ∀ i < m.rows, ∀ j < m.cols, |m.get i j - m'.get i j| ≤ B) :
    sqDist m m' ≤ B ^ 2 * (m.rows * m.cols : ℕ) := by
  unfold sqDist
  calc _ ≤ ∑ _i ∈ range m.rows, ∑ _j ∈ range m.cols, B ^ 2 := by
          refine sum_le_sum fun i hi => sum_le_sum fun j hj => ?_
          have := h i (mem_range.1 hi) j (mem_range.1 hj)
          exact sq_le_sq' (by linarith [(abs_le.1 this).1]) (abs_le.1 this).2
    _ = _ := by simp; ring

def babs {o : FloatOps} (x : Bits o) : Bits o := absBits x

noncomputable def thrB {o : FloatOps} (a b : Bits o) (s : ℕ) (x : Bits o) : Bits o := if getThreshold a b s < babs x then x else 0

/-- What the threshold denoiser does to one entry. -/
noncomputable def thr (o : FloatOps) (a b : F32) (s : ℕ) (x : F32) : F32 := thrB (o := o) a b s x

theorem thr_pos {o : FloatOps} {a b : F32} {s : ℕ} {x : F32} (h : @LT.lt (Bits o) _ (getThreshold (α := Bits o) a b s) (absBits x)) :
    thr o a b s x = x := by
  have h : getThreshold (α := Bits o) a b s < babs (o := o) x := h
  exact (if_pos h : thrB (o := o) a b s x = x)

theorem thr_neg {o : FloatOps} {a b : F32} {s : ℕ} {x : F32} (h : ¬ @LT.lt (Bits o) _ (getThreshold (α := Bits o) a b s) (absBits x)) :
    thr o a b s x = 0#32 := by
  have h : ¬ getThreshold (α := Bits o) a b s < babs (o := o) x := h
  exact (if_neg h : thrB (o := o) a b s x = 0)

theorem thr_fin {o : FloatOps} {a b : F32} {s : ℕ} {x : F32} (h : finiteBits x) : finiteBits (thr o a b s x) := by
  by_cases hc : @LT.lt (Bits o) _ (getThreshold (α := Bits o) a b s) (absBits x)
  · rw [thr_pos hc]; exact h
  · rw [thr_neg hc]; exact finite_zero

theorem thr_near {o : FloatOps} {a b : F32} {s : ℕ} {x : F32} (h : finiteBits x) {B : ℝ} (hB : 0 ≤ B)
    (ht : finiteBits (getThreshold (α := Bits o) a b s)) (ht2 : (number (getThreshold (α := Bits o) a b s) : ℝ) ≤ B) :
    |((number x : ℚ) : ℝ) - ((number (thr o a b s x) : ℚ) : ℝ)| ≤ B := by
  by_cases hc : @LT.lt (Bits o) _ (getThreshold (α := Bits o) a b s) (absBits x)
  · rw [thr_pos hc]; simpa using hB
  · rw [thr_neg hc, number_zero, Rat.cast_zero, sub_zero]
    exact (not_lt_abs ht h hc).trans ht2

theorem threshold_d1 (o : FloatOps) (a b : F32) (v : List F32) (s : ℕ) : (bitsThreshold o a b).d1 v s = v.map (thr o a b s) := rfl

theorem threshold_d2 (o : FloatOps) (a b : F32) (m : Mat F32) (s : ℕ) : (bitsThreshold o a b).d2 m s = m.map (thr o a b s) := rfl

theorem threshold_moves {r : Rounding} (hr : r.IEEE) {o : FloatOps} (ho : o.Correct r) {a b : F32} (ha : finiteBits a) (hb : finiteBits b) {n K : ℕ}
    (hK : K ≤ 2 ^ 24) {T : ℝ} (hT0 : 0 ≤ T) (hT : ∀ s < K, |(number a : ℝ)| * s + |(number b : ℝ)| ≤ T) (hT2 : T ≤ 2 ^ 126) :
    MovesLittle n K 0 ((1 + 1 / 2 ^ 22) * T + 1 / 2 ^ 148) (bitsThreshold o a b) := by
  have hB : 0 ≤ (1 + 1 / 2 ^ 22) * T + 1 / 2 ^ 148 := by positivity
  have ent : ∀ s < K, ∀ m : Mat F32, FinM m → FinM (m.map (thr o a b s)) ∧
      sqDist (matNumbers m) (matNumbers (m.map (thr o a b s))) ≤ ((1 + 1 / 2 ^ 22) * T + 1 / 2 ^ 148) ^ 2 * (m.rows * m.cols : ℕ) := by
    intro s hs m hm
    obtain ⟨t1, t2⟩ := threshold_float hr ho ha hb (show s < 2 ^ 24 by omega) (hT s hs) hT2
    refine ⟨fun i hi j hj => ?_, ?_⟩
    · rw [Mat.get_map _ m hi hj]
      exact thr_fin (hm i hi j hj)
    · refine sqDist_entries (m := matNumbers m) fun i hi j hj => ?_
      have hi : i < m.rows := hi
      have hj : j < m.cols := hj
      unfold matNumbers
      rw [Mat.get_map _ _ hi hj, Mat.get_map _ (m.map (thr o a b s)) (i := i) (j := j) hi hj, Mat.get_map _ m hi hj]
      exact thr_near (hm i hi j hj) hB t1 t2
  refine ⟨⟨fun v s => by rw [threshold_d1, List.length_map], fun m s => ⟨rfl, rfl⟩⟩, ?_, ?_⟩
  · intro v s hs _ hv
    obtain ⟨k1, k2⟩ := ent s hs (Mat.ofCol v) (finM_ofCol.2 hv)
    rw [threshold_d1]
    have e : (Mat.ofCol v).map (thr o a b s) = Mat.ofCol (v.map (thr o a b s)) := by
      rw [Mat.eq_iff]
      exact ⟨by simp, rfl, rfl⟩
    rw [e] at k1 k2
    refine ⟨finM_ofCol.1 k1, ?_⟩
    simpa using k2
  · intro m s hs _ hm
    obtain ⟨k1, k2⟩ := ent s hs m hm
    rw [threshold_d2]
    exact ⟨k1, by simpa using k2⟩

/-! ### the simple denoiser -/

/-- A denoiser on `float`s that keeps sizes and, on finite subbands with fewer than `2^32` entries, gives what `SimpleDenoiseAlgorithm<float>(level)` gives. -/
def IsSimpleBits (o : FloatOps) (ext : SimpleExt (Bits o)) (level : F32) (den : Denoiser F32) : Prop :=
  KeepsSizes den ∧ (∀ v s r, v.length < 2 ^ 32 → (∀ x ∈ v, finiteBits x) → simple1 ext level v = .ok r → den.d1 v s = r) ∧
  ∀ m s r, m.rows * m.cols < 2 ^ 32 → (∀ i < m.rows, ∀ j < m.cols, finiteBits (m.get i j)) → simple2 ext level m = .ok r → den.d2 m s = r

/-- The contract of `std::nth_element` for both uses, on keys that are numbers (with a NaN the comparison is no ordering and the call is undefined). -/
def NthOkBits (o : FloatOps) (nth1 : List (F32 × ℕ) → ℕ → List (F32 × ℕ)) (nth2 : List (F32 × ℕ × ℕ) → ℕ → List (F32 × ℕ × ℕ)) : Prop :=
  (∀ v n, n ≤ v.length → (∀ t ∈ v, ¬ isNaN t.1) → NthContract (α := Bits o) Prod.fst v n (nth1 v n)) ∧
  ∀ v n, n ≤ v.length → (∀ t ∈ v, ¬ isNaN t.1) → NthContract (α := Bits o) Prod.fst v n (nth2 v n)

/-- How many entries are cut off when the product is computed in `float`. -/
theorem cut_float {r : Rounding} (hr : r.IEEE) {o : FloatOps} (ho : o.Correct r) {l : F32} (hl : finiteBits l) (h0 : (0 : ℝ) ≤ number l)
    (h1 : (number l : ℝ) ≤ 1) {n : ℕ} (hn : n < 2 ^ 32) :
    ∃ cut : ℕ, sizeOfBits (o.mul (o.store n) l) = .ok cut ∧ (cut : ℝ) ≤ n * (number l * (1 + 1 / 2 ^ 22)) := by
  have hmax : (2 : ℝ) ^ 127 ≤ maxFloat := by unfold maxFloat; norm_num
  have hn0 : (0 : ℝ) ≤ n := by positivity
  have hn1 : (n : ℝ) ≤ 2 ^ 32 := by exact_mod_cast hn.le
  have s0 := std_float hr (n : ℝ)
  obtain ⟨s1, s2⟩ := ho.store (n : ℝ) (toFloat_le hr (by rw [abs_of_nonneg hn0]; exact hn1.trans (le_trans (by norm_num) hmax)))
  rw [← s2, abs_of_nonneg hn0, abs_le] at s0
  have hS : |(number (o.store n) : ℝ)| ≤ (1 + 1 / 2 ^ 24) * n + 1 / 2 ^ 150 := by
    rw [abs_le]
    constructor <;> linarith [s0.1, s0.2]
  have hSl : |(number (o.store n) : ℝ) * number l| ≤ ((1 + 1 / 2 ^ 24) * n + 1 / 2 ^ 150) * number l := by
    rw [abs_mul, abs_of_nonneg h0]
    exact mul_le_mul_of_nonneg_right hS h0
  have hSl2 : |(number (o.store n) : ℝ) * number l| ≤ 2 ^ 33 := by
    refine hSl.trans ?_
    nlinarith
  have m0 := std_float hr ((number (o.store n) : ℝ) * number l)
  obtain ⟨m1, m2⟩ := ho.mul (o.store n) l s1 hl (toFloat_le hr (hSl2.trans (le_trans (by norm_num) hmax)))
  rw [← m2] at m0
  have hneg : -(1 / 2 : ℝ) ≤ (number (o.store n) : ℝ) * number l := by
    have : -(1 / 2 ^ 150 : ℝ) ≤ number (o.store n) := by linarith [s0.1]
    nlinarith
  set v : ℚ := number (o.mul (o.store n) l) with hv
  have m3 := abs_le.1 m0
  have v1 : (-1 : ℝ) < v := by
    rcases abs_cases ((number (o.store n) : ℝ) * number l) with ⟨h, _⟩ | ⟨h, _⟩ <;> rw [h] at m3 <;> linarith [m3.1]
  have v2 : (v : ℝ) < 2 ^ 64 := by
    have := le_abs_self ((number (o.store n) : ℝ) * number l)
    linarith [m3.2]
  refine ⟨⌊v⌋₊, if_pos ⟨m1, by exact_mod_cast v1, by exact_mod_cast v2⟩, ?_⟩
  by_cases hz : ⌊v⌋₊ = 0
  · rw [hz]; push_cast; positivity
  have hv1 : (1 : ℚ) ≤ v := by
    have := Nat.one_le_iff_ne_zero.2 hz
    rwa [Nat.one_le_floor_iff] at this
  have hv1' : (1 : ℝ) ≤ v := by exact_mod_cast hv1
  have hfl : ((⌊v⌋₊ : ℕ) : ℝ) ≤ v := by
    have := Nat.floor_le (show 0 ≤ v by linarith)
    exact_mod_cast this
  refine hfl.trans ?_
  have hnl : 0 ≤ n * (number l : ℝ) := by positivity
  nlinarith [m3.2, le_abs_self ((number (o.store n) : ℝ) * number l)]

theorem largest_numbers {o : FloatOps} {count : ℕ} {data r : Mat F32} (h : KeepsLargest (α := Bits o) absBits count data r) (hf : FinM data) :
    KeepsLargest (fun x : ℝ => |x|) count (matNumbers data) (matNumbers r) ∧ FinM r := by
  obtain ⟨h1, h2, kept, hin, hcard, hval, hmax⟩ := h
  have h1 : r.rows = data.rows := h1
  have h2 : r.cols = data.cols := h2
  have num : ∀ {m : Mat F32} {i j : ℕ}, i < m.rows → j < m.cols → (matNumbers m).get i j = ((number (m.get i j) : ℚ) : ℝ) :=
    fun hi hj => Mat.get_map _ _ hi hj
  have hval' : ∀ i < data.rows, ∀ j < data.cols, r.get i j = if (i, j) ∈ kept then data.get i j else 0#32 := fun i hi j hj => hval i hi j hj
  refine ⟨⟨h1, h2, kept, hin, hcard, ?_, ?_⟩, ?_⟩
  · intro i hi j hj
    have hi : i < data.rows := hi
    have hj : j < data.cols := hj
    rw [num (by omega) (by omega), num hi hj, hval' i hi j hj]
    split_ifs
    · rfl
    · rw [number_zero, Rat.cast_zero]
  · intro q hq i hi j hj hn
    have hi : i < data.rows := hi
    have hj : j < data.cols := hj
    have hq' := hin q hq
    rw [num hq'.1 hq'.2, num hi hj]
    have := not_lt_abs (finite_abs (hf _ hq'.1 _ hq'.2)) (hf i hi j hj) (hmax q hq i hi j hj hn)
    rw [number_abs] at this
    push_cast at this
    exact not_lt.2 this
  · intro i hi j hj
    rw [hval' i (by omega) j (by omega)]
    split_ifs
    · exact hf i (by omega) j (by omega)
    · exact finite_zero

theorem simple_moves {r : Rounding} (hr : r.IEEE) {o : FloatOps} (ho : o.Correct r) {nth1 : List (F32 × ℕ) → ℕ → List (F32 × ℕ)}
    {nth2 : List (F32 × ℕ × ℕ) → ℕ → List (F32 × ℕ × ℕ)} (hnth : NthOkBits o nth1 nth2) {l : F32} (hl : finiteBits l) (h0 : (0 : ℝ) ≤ number l)
    (h1 : (number l : ℝ) ≤ 1) {den : Denoiser F32} (hden : IsSimpleBits o (bitsSimple o nth1 nth2) l den) {n K : ℕ} (hn : n < 2 ^ 32) :
    MovesLittle n K (Real.sqrt (number l) * (1 + 1 / 2 ^ 22)) 0 den := by
  have hA : (number l : ℝ) * (1 + 1 / 2 ^ 22) ≤ (Real.sqrt (number l) * (1 + 1 / 2 ^ 22)) ^ 2 := by
    rw [mul_pow, Real.sq_sqrt h0]
    nlinarith
  have core : ∀ (m r' : Mat F32) (cut : ℕ), FinM m → (cut : ℝ) ≤ ((m.rows * m.cols : ℕ) : ℝ) * (number l * (1 + 1 / 2 ^ 22)) →
      KeepsLargest (α := Bits o) absBits (m.rows * m.cols - min cut (m.rows * m.cols - 1)) m r' → FinM r' ∧
      sqDist (matNumbers m) (matNumbers r') ≤ (Real.sqrt (number l) * (1 + 1 / 2 ^ 22)) ^ 2 * energy (matNumbers m) := by
    intro m r' cut hm hcut hk
    obtain ⟨k1, k2⟩ := largest_numbers hk hm
    refine ⟨k2, ?_⟩
    have hmin : ((min cut (m.rows * m.cols - 1) : ℕ) : ℝ) ≤ ((m.rows * m.cols : ℕ) : ℝ) * (number l * (1 + 1 / 2 ^ 22)) :=
      le_trans (by exact_mod_cast min_le_left _ _) hcut
    have := drop_le (data := matNumbers m) (r := matNumbers r') (cut := min cut (m.rows * m.cols - 1)) hmin
      (by show min cut (m.rows * m.cols - 1) ≤ m.rows * m.cols; omega) k1
    have e : sqDist (matNumbers m) (matNumbers r') = sqDist (matNumbers r') (matNumbers m) := by
      have e1 : (matNumbers r').rows = (matNumbers m).rows := k1.rows
      have e2 : (matNumbers r').cols = (matNumbers m).cols := k1.cols
      unfold sqDist
      rw [e1, e2]
      exact sum_congr rfl fun i _ => sum_congr rfl fun j _ => by ring
    rw [e]
    exact this.trans (mul_le_mul_of_nonneg_right hA (energy_nonneg _))
  refine ⟨hden.1, ?_, ?_⟩
  · intro v s _ hv hf
    obtain ⟨cut, c1, c2⟩ := cut_float hr ho hl h0 h1 (show v.length < 2 ^ 32 by omega)
    obtain ⟨r', r1, r2⟩ := simple1_of (bitsSimple o nth1 nth2) l v cut (fun x => ¬ isNaN x) (fun x hx => not_nan (finite_abs (hf x hx))) c1 hnth.1
    have e : (Mat.ofCol v).rows * (Mat.ofCol v).cols = v.length := by simp
    rw [hden.2.1 v s r' (lt_of_le_of_lt hv hn) hf r1]
    obtain ⟨k1, k2⟩ := core (Mat.ofCol v) (Mat.ofCol (α := F32) r') cut (finM_ofCol.2 hf) (by rw [e]; exact c2) (by rw [e]; exact r2)
    exact ⟨finM_ofCol.1 k1, by simpa using k2⟩
  · intro m s _ hm hf
    obtain ⟨cut, c1, c2⟩ := cut_float hr ho hl h0 h1 (show m.rows * m.cols < 2 ^ 32 by omega)
    obtain ⟨r', r1, r2⟩ := simple2_of (bitsSimple o nth1 nth2) l m cut (fun x => ¬ isNaN x) (fun i hi j hj => not_nan (finite_abs (hf i hi j hj))) c1 hnth.2
    obtain ⟨k1, k2⟩ := core m r' cut hf c2 r2
    rw [hden.2.2 m s r' (by omega) hf r1]
    have d1 : Mat.rows r' = m.rows := r2.rows
    have d2 : Mat.cols r' = m.cols := r2.cols
    exact ⟨fun i hi j hj => k1 i (lt_of_lt_of_eq hi d1.symm) j (lt_of_lt_of_eq hj d2.symm), by simpa using k2⟩

end WB.Props
