import Verif.Spec.LevelOrder
import Verif.Proof.Generations
import Verif.Proof.FloatMetrics

/-!
Archives with a lower compression level keep values closer to the original.
-/

namespace WB.Props

open Finset Spec

/-- The bits that a truncation leaves form a number between 0 and the original. -/
theorem trunc_toward {p : ℕ} (hp : 1 ≤ p) (x : F32) : Toward ((number x : ℚ) : ℝ) ((number (truncBits p x) : ℚ) : ℝ) := by
  rw [number_trunc hp, number_sign x]
  have h0 : 0 ≤ magnitude (x.toNat % 2 ^ 31 / 2 ^ (32 - p) * 2 ^ (32 - p)) := magnitude_nonneg _
  have h1 : magnitude (x.toNat % 2 ^ 31 / 2 ^ (32 - p) * 2 ^ (32 - p)) ≤ magnitude (x.toNat % 2 ^ 31) := magnitude_mono (Nat.div_mul_le_self _ _)
  unfold signOf
  split
  · left
    rw [one_mul, one_mul]
    exact ⟨by exact_mod_cast h0, by exact_mod_cast h1⟩
  · right
    rw [neg_one_mul, neg_one_mul]
    exact ⟨by exact_mod_cast neg_le_neg h1, by exact_mod_cast neg_nonpos.2 h0⟩

theorem number_same {x y : F32} (h : SameExceptZeroSign x y) : number x = number y := by
  have z : ∀ {x : F32}, isZeroPattern x = true → number x = 0 := by
    intro x hx
    rw [number_sign]
    have : x.toNat % 2 ^ 31 = 0 := by rcases (zero_iff x).1 hx with h | h <;> rw [h] <;> norm_num
    rw [this]
    simp [magnitude]
  rcases h with rfl | ⟨h1, h2⟩
  · rfl
  · rw [z h1, z h2]

theorem finite_same {x y : F32} (h : SameExceptZeroSign x y) : finiteBits x ↔ finiteBits y := by
  have z : ∀ {x : F32}, isZeroPattern x = true → finiteBits x := by
    intro x hx
    unfold finiteBits expBits
    rcases (zero_iff x).1 hx with h | h <;> rw [h] <;> norm_num
  rcases h with rfl | ⟨h1, h2⟩
  · exact Iff.rfl
  · exact iff_of_true (z h1) (z h2)

theorem finite_trunc {p : ℕ} (hp : 1 ≤ p) {x : F32} (h : finiteBits x) : finiteBits (truncBits p x) := by
  unfold finiteBits expBits at h ⊢
  rw [truncBits_toNat]
  have h1 : x.toNat % 2 ^ 31 / 2 ^ (32 - p) * 2 ^ (32 - p) ≤ x.toNat % 2 ^ 31 := Nat.div_mul_le_self _ _
  rw [← cut_mod (by omega)] at h1
  generalize x.toNat / 2 ^ (32 - p) * 2 ^ (32 - p) = n at h1 ⊢
  omega

/-- The three values in one place of the original and of two copies, the second with the higher level. -/
structure Ladder (x x1 x2 : F32) : Prop where
  first : Toward ((number x : ℚ) : ℝ) ((number x1 : ℚ) : ℝ)
  second : Toward ((number x1 : ℚ) : ℝ) ((number x2 : ℚ) : ℝ)
  fin1 : finiteBits x → finiteBits x1
  fin2 : finiteBits x → finiteBits x2

theorem ladder {p q : ℕ} (hq : 1 ≤ q) (h : q ≤ p) {x x1 x2 : F32} (h1 : SameExceptZeroSign x1 (truncBits p x)) (h2 : SameExceptZeroSign x2 (truncBits q x)) :
    Ladder x x1 x2 := by
  refine ⟨?_, ?_, fun hx => (finite_same h1).2 (finite_trunc (by omega) hx), fun hx => (finite_same h2).2 (finite_trunc hq hx)⟩
  · rw [number_same h1]
    exact trunc_toward (by omega) x
  · have e : truncBits q x = truncBits q (truncBits p x) := by rw [truncBits_twice, min_eq_left h]
    rw [number_same h1, number_same h2, e]
    exact trunc_toward hq _

theorem cutTo_band {p : ℕ} {b b' : Buffer F32} (h : CutTo p b b') {ch l : ℕ} (hc : ch < b.decs.length) (hl : l < bands b.decs ch) :
    (band b'.decs ch l).rows = (band b.decs ch l).rows ∧ (band b'.decs ch l).cols = (band b.decs ch l).cols ∧
      ∀ i < (band b.decs ch l).rows, ∀ j < (band b.decs ch l).cols,
        SameExceptZeroSign ((band b'.decs ch l).get i j) (truncBits p ((band b.decs ch l).get i j)) := by
  have h1 := List.forall₂_iff_get.1 h.2
  have hb : ch < b'.decs.length := h1.1 ▸ hc
  have h2 := List.forall₂_iff_get.1 (h1.2 ch hc hb)
  have ea : b.decs.getD ch [] = b.decs.get ⟨ch, hc⟩ := List.getD_eq_getElem _ _ hc
  have eb : b'.decs.getD ch [] = b'.decs.get ⟨ch, hb⟩ := List.getD_eq_getElem _ _ hb
  unfold bands at hl
  rw [ea] at hl
  have hl' : l < (b'.decs.get ⟨ch, hb⟩).length := h2.1 ▸ hl
  have h3 := h2.2 l hl hl'
  unfold band
  rw [ea, eb, List.getD_eq_getElem _ _ hl, List.getD_eq_getElem _ _ hl']
  exact h3

/-- Distance from `x`: the first copy is not farther away, and on the same side. -/
theorem Ladder.diff {x x1 x2 : F32} (h : Ladder x x1 x2) : Toward (((number x2 : ℚ) : ℝ) - (number x : ℚ)) (((number x1 : ℚ) : ℝ) - (number x : ℚ)) := by
  rcases h.first with ⟨a, b⟩ | ⟨a, b⟩ <;> rcases h.second with ⟨c, d⟩ | ⟨c, d⟩
  · exact .inr ⟨by linarith, by linarith⟩
  · exact .inr ⟨by linarith, by linarith⟩
  · exact .inl ⟨by linarith, by linarith⟩
  · exact .inl ⟨by linarith, by linarith⟩

theorem _root_.WB.Spec.Toward.sq_le {x y : ℝ} (h : Toward x y) : y ^ 2 ≤ x ^ 2 := by
  rcases h with ⟨a, b⟩ | ⟨a, b⟩ <;> nlinarith

theorem _root_.WB.Spec.Toward.trans {x y z : ℝ} (h : Toward x y) (g : Toward y z) : Toward x z := by
  rcases h with ⟨a, b⟩ | ⟨a, b⟩ <;> rcases g with ⟨c, d⟩ | ⟨c, d⟩
  · exact .inl ⟨c, d.trans b⟩
  · exact .inl ⟨by linarith, by linarith⟩
  · exact .inr ⟨by linarith, by linarith⟩
  · exact .inr ⟨a.trans c, d⟩

theorem _root_.WB.Spec.Toward.map {f : ℝ → ℝ} (hf : ∀ {x y}, x ≤ y → f x ≤ f y) (h0 : f 0 = 0) {x y : ℝ} (h : Toward x y) : Toward (f x) (f y) := by
  rcases h with ⟨a, b⟩ | ⟨a, b⟩
  · exact .inl ⟨h0 ▸ hf a, hf b⟩
  · exact .inr ⟨hf a, h0 ▸ hf b⟩

theorem sqDist_ladder {m m1 m2 : Mat F32} (h1 : m1.rows = m.rows ∧ m1.cols = m.cols) (h2 : m2.rows = m.rows ∧ m2.cols = m.cols)
    (h : ∀ i < m.rows, ∀ j < m.cols, Ladder (m.get i j) (m1.get i j) (m2.get i j)) :
    sqDist (matNumbers m) (matNumbers m1) ≤ sqDist (matNumbers m) (matNumbers m2) := by
  refine sum_le_sum fun i hi => sum_le_sum fun j hj => ?_
  have hi : i < m.rows := mem_range.1 hi
  have hj : j < m.cols := mem_range.1 hj
  unfold matNumbers
  rw [Mat.get_map _ _ hi hj, Mat.get_map _ _ (by rw [h1.1]; exact hi) (by rw [h1.2]; exact hj), Mat.get_map _ _ (by rw [h2.1]; exact hi) (by rw [h2.2]; exact hj)]
  rw [← neg_sub, neg_sq, ← neg_sub ((number (m2.get i j) : ℚ) : ℝ), neg_sq]
  exact (h i hi j hj).diff.sq_le

/-! ### the computed distance -/

/-- If the second is a number, then the first is one too, and lies between 0 and the second. -/
def Below (u v : Option ℝ) : Prop := ∀ y, v = some y → ∃ x, u = some x ∧ 0 ≤ x ∧ x ≤ y

variable {r : Rounding}

theorem below_round (hr : r.IEEE) {s t : ℝ} (h0 : 0 ≤ s) (h : s ≤ t) : Below (Ov.round r.toFloat maxFloat s) (Ov.round r.toFloat maxFloat t) := by
  intro y hy
  have m0 : 0 ≤ r.toFloat s := nearest_nonneg hr.1 h0
  have m1 : r.toFloat s ≤ r.toFloat t := rounds_mono hr.1 h
  unfold Ov.round at hy ⊢
  by_cases ht : |r.toFloat t| ≤ maxFloat
  · have e : (some (r.toFloat t) : Option ℝ) = some y := (if_pos ht).symm.trans hy
    cases e
    refine ⟨r.toFloat s, if_pos ?_, m0, m1⟩
    rw [abs_of_nonneg (m0.trans m1)] at ht
    rw [abs_of_nonneg m0]
    exact m1.trans ht
  · have e : (none : Option ℝ) = some y := (if_neg ht).symm.trans hy
    cases e

theorem round_toward (hr : r.IEEE) {s t : ℝ} (h : Toward t s) {y : ℝ} (hy : Ov.round r.toFloat maxFloat t = (some y : Option ℝ)) :
    ∃ x : ℝ, Ov.round r.toFloat maxFloat s = (some x : Option ℝ) ∧ Toward y x := by
  have m : Toward (r.toFloat t) (r.toFloat s) := h.map (fun h => rounds_mono hr.1 h) (nearest_zero hr.1)
  unfold Ov.round at hy ⊢
  by_cases ht : |r.toFloat t| ≤ maxFloat
  · have e : (some (r.toFloat t) : Option ℝ) = some y := (if_pos ht).symm.trans hy
    cases e
    refine ⟨r.toFloat s, if_pos ?_, m⟩
    exact (sq_le_sq.1 m.sq_le).trans ht
  · have e : (none : Option ℝ) = some y := (if_neg ht).symm.trans hy
    cases e

/-- The square of a difference. -/
theorem below_square (hr : r.IEEE) {x x1 x2 : F32} (h : Ladder x x1 x2) :
    Below ((floatOf r x1 + -floatOf r x) * (floatOf r x1 + -floatOf r x)) ((floatOf r x2 + -floatOf r x) * (floatOf r x2 + -floatOf r x)) := by
  by_cases hx : finiteBits x
  · have a0 : floatOf r x = Ov.of ((number x : ℚ) : ℝ) := if_pos hx
    have a1 : floatOf r x1 = Ov.of ((number x1 : ℚ) : ℝ) := if_pos (h.fin1 hx)
    have a2 : floatOf r x2 = Ov.of ((number x2 : ℚ) : ℝ) := if_pos (h.fin2 hx)
    have e : ∀ s : ℝ, (Ov.of s + -Ov.of ((number x : ℚ) : ℝ) : Ov r.toFloat maxFloat) = Ov.round r.toFloat maxFloat (s - (number x : ℚ)) := fun s => by
      rw [sub_eq_add_neg]
      rfl
    rw [a0, a1, a2, e, e]
    obtain ⟨u, hu⟩ : ∃ u : Option ℝ, (Ov.round r.toFloat maxFloat (((number x2 : ℚ) : ℝ) - (number x : ℚ)) : Option ℝ) = u := ⟨_, rfl⟩
    cases u with
    | none =>
      intro y hy
      have : Ov.round r.toFloat maxFloat (((number x2 : ℚ) : ℝ) - (number x : ℚ)) = (none : Ov r.toFloat maxFloat) := hu
      rw [this] at hy
      cases hy
    | some d2 =>
      obtain ⟨d1, k1, k2⟩ := round_toward hr h.diff hu
      have e1 : Ov.round r.toFloat maxFloat (((number x1 : ℚ) : ℝ) - (number x : ℚ)) = (Ov.of d1 : Ov r.toFloat maxFloat) := k1
      have e2 : Ov.round r.toFloat maxFloat (((number x2 : ℚ) : ℝ) - (number x : ℚ)) = (Ov.of d2 : Ov r.toFloat maxFloat) := hu
      rw [e1, e2]
      have := k2.sq_le
      exact below_round hr (mul_self_nonneg d1) (by nlinarith)
  · have a0 : floatOf r x = (none : Option ℝ) := if_neg hx
    have k1 : ∀ u v : Ov r.toFloat maxFloat, v = (none : Option ℝ) → u + -v = (none : Option ℝ) := by
      rintro u v rfl
      cases u <;> rfl
    have k2 : ∀ u : Ov r.toFloat maxFloat, u = (none : Option ℝ) → u * u = (none : Option ℝ) := by
      rintro u rfl
      rfl
    intro y hy
    have := (k2 _ (k1 (floatOf r x2) _ a0)).symm.trans hy
    cases this

theorem below_eval (hr : r.IEEE) {xs ys : List (Ov r.toFloat maxFloat)} (h : ∀ k : ℕ, Below (xs.getD k default) (ys.getD k default)) (o : SumOrder) :
    Below (o.eval (β := Ov r.toFloat maxFloat) xs) (o.eval (β := Ov r.toFloat maxFloat) ys) := by
  induction o with
  | term k => exact h k
  | plus a b iha ihb =>
    intro y hy
    have hy : (a.eval (β := Ov r.toFloat maxFloat) ys + b.eval (β := Ov r.toFloat maxFloat) ys : Ov r.toFloat maxFloat) = (some y : Option ℝ) := hy
    obtain ⟨u, hu⟩ : ∃ u : Option ℝ, (a.eval (β := Ov r.toFloat maxFloat) ys : Option ℝ) = u := ⟨_, rfl⟩
    obtain ⟨v, hv⟩ : ∃ v : Option ℝ, (b.eval (β := Ov r.toFloat maxFloat) ys : Option ℝ) = v := ⟨_, rfl⟩
    cases u with
    | none =>
      rw [show a.eval (β := Ov r.toFloat maxFloat) ys = (none : Ov r.toFloat maxFloat) from hu] at hy
      cases hy
    | some s =>
      cases v with
      | none =>
        rw [show a.eval (β := Ov r.toFloat maxFloat) ys = (Ov.of s : Ov r.toFloat maxFloat) from hu, show b.eval (β := Ov r.toFloat maxFloat) ys = (none : Ov r.toFloat maxFloat) from hv] at hy
        cases hy
      | some t =>
        rw [show a.eval (β := Ov r.toFloat maxFloat) ys = (Ov.of s : Ov r.toFloat maxFloat) from hu, show b.eval (β := Ov r.toFloat maxFloat) ys = (Ov.of t : Ov r.toFloat maxFloat) from hv] at hy
        obtain ⟨s', s1, s2, s3⟩ := iha s hu
        obtain ⟨t', t1, t2, t3⟩ := ihb t hv
        obtain ⟨z, z1, z2⟩ := below_round hr (add_nonneg s2 t2) (add_le_add s3 t3) y hy
        refine ⟨z, ?_, z2⟩
        rw [← z1]
        show a.eval (β := Ov r.toFloat maxFloat) xs + b.eval (β := Ov r.toFloat maxFloat) xs = _
        rw [show a.eval (β := Ov r.toFloat maxFloat) xs = (Ov.of s' : Ov r.toFloat maxFloat) from s1, show b.eval (β := Ov r.toFloat maxFloat) xs = (Ov.of t' : Ov r.toFloat maxFloat) from t1]
        rfl

theorem below_norm (hr : r.IEEE) {m m1 m2 : Mat F32} (h1 : m1.rows = m.rows ∧ m1.cols = m.cols) (h2 : m2.rows = m.rows ∧ m2.cols = m.cols)
    (h : ∀ i < m.rows, ∀ j < m.cols, Ladder (m.get i j) (m1.get i j) (m2.get i j)) (o : SumOrder) :
    ∃ d1 d2, floatSub r m1 m = .ok d1 ∧ floatSub r m2 m = .ok d2 ∧ Below (floatNorm r o d1) (floatNorm r o d2) := by
  refine ⟨_, _, if_pos h1, if_pos h2, ?_⟩
  set N := m.rows * m.cols with hN
  have hl : m.data.length = N := m.wf
  have hl1 : m1.data.length = N := by rw [m1.wf, h1.1, h1.2]
  have hl2 : m2.data.length = N := by rw [m2.wf, h2.1, h2.2]
  unfold floatNorm
  rcases Nat.eq_zero_or_pos N with h0 | h0
  · rw [if_pos (by rw [List.isEmpty_iff, ← List.length_eq_zero_iff, List.length_zipWith, hl, h0]; simp),
      if_pos (by rw [List.isEmpty_iff, ← List.length_eq_zero_iff, List.length_zipWith, hl, h0]; simp)]
    intro y hy
    cases hy
    exact ⟨0, rfl, le_rfl, le_rfl⟩
  · rw [if_neg (by rw [List.isEmpty_iff, ← List.length_eq_zero_iff, List.length_zipWith, hl, hl1]; omega),
      if_neg (by rw [List.isEmpty_iff, ← List.length_eq_zero_iff, List.length_zipWith, hl, hl2]; omega)]
    have key := below_eval hr (xs := (List.zipWith (fun y x => floatOf r y + -floatOf r x) m1.data m.data).map fun x => x * x)
      (ys := (List.zipWith (fun y x => floatOf r y + -floatOf r x) m2.data m.data).map fun x => x * x) (fun k => by
        rcases lt_or_ge k N with hk | hk
        · have hc : 0 < m.cols := Nat.pos_of_ne_zero (by rintro h; rw [hN, h] at hk; omega)
          have hi : k / m.cols < m.rows := Nat.div_lt_of_lt_mul (by rwa [hN, Nat.mul_comm] at hk)
          have hj : k % m.cols < m.cols := Nat.mod_lt _ hc
          have := below_square hr (h _ hi _ hj)
          rw [← data_entry, show m1.get (k / m.cols) (k % m.cols) = m1.data.getD k 0#32 by rw [data_entry, h1.2],
            show m2.get (k / m.cols) (k % m.cols) = m2.data.getD k 0#32 by rw [data_entry, h2.2]] at this
          rw [List.getD_eq_getElem _ _ (by simpa [hl, hl1] using hk), List.getD_eq_getElem _ _ (by simpa [hl, hl2] using hk)]
          rw [List.getElem_map, List.getElem_zipWith, List.getElem_map, List.getElem_zipWith]
          rw [List.getD_eq_getElem _ _ (by rw [hl1]; exact hk), List.getD_eq_getElem _ _ (by rw [hl]; exact hk), List.getD_eq_getElem _ _ (by rw [hl2]; exact hk)] at this
          exact this
        · rw [List.getD_eq_default _ _ (by simpa [hl, hl1] using hk), List.getD_eq_default _ _ (by simpa [hl, hl2] using hk)]
          intro y hy
          have : (some 0 : Option ℝ) = some y := hy
          cases this
          exact ⟨0, rfl, le_rfl, le_rfl⟩) o
    intro y hy
    obtain ⟨t, t1, t2⟩ := Option.map_eq_some_iff.1 hy
    obtain ⟨s, s1, s2, s3⟩ := key t t1
    refine ⟨r.toFloat (Real.sqrt s), ?_, nearest_nonneg hr.1 (Real.sqrt_nonneg s), ?_⟩
    · rw [s1]
      rfl
    · rw [← t2]
      exact rounds_mono hr.1 (Real.sqrt_le_sqrt s3)

theorem below_addSquare (hr : r.IEEE) {sq : ℝ → ℝ} (hsq : ∀ s t, 0 ≤ s → s ≤ t → 0 ≤ sq s ∧ sq s ≤ sq t) {a a' n n' : Option ℝ} (h : Below a a') (g : Below n n') :
    Below (addSquare r sq a n) (addSquare r sq a' n') := by
  intro y hy
  cases a' with
  | none => cases hy
  | some s =>
    cases n' with
    | none => cases hy
    | some t =>
      obtain ⟨s', rfl, s2, s3⟩ := h s rfl
      obtain ⟨t', rfl, t2, t3⟩ := g t rfl
      have e : (some (r.toDouble (s + sq t)) : Option ℝ) = some y := hy
      cases e
      obtain ⟨q1, q2⟩ := hsq t' t t2 t3
      exact ⟨_, rfl, nearest_nonneg hr.2 (add_nonneg s2 q1), rounds_mono hr.2 (add_le_add s3 q2)⟩

/-- Two runs of a loop side by side. -/
theorem fold_pair {β : Type} {f g : β → ℕ → Outcome β} {R : β → β → Prop} {n : ℕ}
    (h : ∀ k < n, ∀ x y, R x y → ∃ x' y', f x k = .ok x' ∧ g y k = .ok y' ∧ R x' y') {x y : β} (hb : R x y) :
    ∃ x' y', (List.range n).foldlM f x = .ok x' ∧ (List.range n).foldlM g y = .ok y' ∧ R x' y' := by
  induction n with
  | zero => exact ⟨x, y, rfl, rfl, hb⟩
  | succ n ih =>
    obtain ⟨x1, y1, h1, h2, h3⟩ := ih fun k hk => h k (by omega)
    obtain ⟨x2, y2, h4, h5, h6⟩ := h n (by omega) x1 y1 h3
    refine ⟨x2, y2, ?_, ?_, h6⟩
    · rw [List.range_succ, List.foldlM_append, h1, Outcome.bind_ok, List.foldlM_cons, h4, Outcome.bind_ok]
      rfl
    · rw [List.range_succ, List.foldlM_append, h2, Outcome.bind_ok, List.foldlM_cons, h5, Outcome.bind_ok]
      rfl

/-- The original and two copies with the same sizes and, place by place, such values. -/
def Ladders (b b1 b2 : Decs F32) : Prop :=
  SameSizes b b1 ∧ SameSizes b b2 ∧ ∀ ch < b.length, ∀ l < bands b ch, ∀ i < (band b ch l).rows, ∀ j < (band b ch l).cols,
    Ladder ((band b ch l).get i j) ((band b1 ch l).get i j) ((band b2 ch l).get i j)

theorem below_distance (hr : r.IEEE) {sq : ℝ → ℝ} (hsq : ∀ s t, 0 ≤ s → s ≤ t → 0 ≤ sq s ∧ sq s ≤ sq t) {order : ℕ → ℕ → SumOrder} {b b1 b2 : Buffer F32}
    (h1 : b1.params = b.params) (h2 : b2.params = b.params) (h : Ladders b.decs b1.decs b2.decs) :
    ∃ u v, floatDistance r sq order b b1 = .ok u ∧ floatDistance r sq order b b2 = .ok v ∧ Below u v := by
  have z0 : Below (some 0) (some 0) := by
    intro y hy
    cases hy
    exact ⟨0, rfl, le_rfl, le_rfl⟩
  obtain ⟨x, y, hx, hy, hxy⟩ : ∃ x y, ((List.range b.decs.length).foldlM (fun acc ch => do
      let x ← rd b.decs ch
      let y ← rd b1.decs ch
      (List.range x.length).foldlM (fun acc i => do
        let m ← rd x i
        let n ← rd y i
        let d ← floatSub r n m
        pure (addSquare r sq acc (floatNorm r (order ch i) d))) acc) (some 0)) = .ok x ∧ ((List.range b.decs.length).foldlM (fun acc ch => do
      let x ← rd b.decs ch
      let y ← rd b2.decs ch
      (List.range x.length).foldlM (fun acc i => do
        let m ← rd x i
        let n ← rd y i
        let d ← floatSub r n m
        pure (addSquare r sq acc (floatNorm r (order ch i) d))) acc) (some 0)) = .ok y ∧ Below x y := by
    refine fold_pair (R := Below) (fun ch hch x y hxy => ?_) z0
    have k1 := List.forall₂_iff_get.1 h.1
    have k2 := List.forall₂_iff_get.1 h.2.1
    have hb1 : ch < b1.decs.length := k1.1 ▸ hch
    have hb2 : ch < b2.decs.length := k2.1 ▸ hch
    have l1 := (List.forall₂_iff_get.1 (k1.2 ch hch hb1)).1
    have l2 := (List.forall₂_iff_get.1 (k2.2 ch hch hb2)).1
    have ea : b.decs.getD ch [] = b.decs[ch] := List.getD_eq_getElem _ _ hch
    have e1 : b1.decs.getD ch [] = b1.decs[ch] := List.getD_eq_getElem _ _ hb1
    have e2 : b2.decs.getD ch [] = b2.decs[ch] := List.getD_eq_getElem _ _ hb2
    have el : bands b.decs ch = b.decs[ch].length := by unfold bands; rw [ea]
    simp only [rd_ok hch, rd_ok hb1, rd_ok hb2, Outcome.bind_ok]
    refine fold_pair (R := Below) (fun i hi x y hxy => ?_) hxy
    have hi1 : i < b1.decs[ch].length := lt_of_lt_of_eq hi l1
    have hi2 : i < b2.decs[ch].length := lt_of_lt_of_eq hi l2
    have f0 : band b.decs ch i = b.decs[ch][i] := by unfold band; rw [ea, List.getD_eq_getElem _ _ hi]
    have f1 : band b1.decs ch i = b1.decs[ch][i] := by unfold band; rw [e1, List.getD_eq_getElem _ _ hi1]
    have f2 : band b2.decs ch i = b2.decs[ch][i] := by unfold band; rw [e2, List.getD_eq_getElem _ _ hi2]
    obtain ⟨d1, d2, g1, g2, g3⟩ := below_norm hr (sameSizes_band h.1 hch (el ▸ hi)) (sameSizes_band h.2.1 hch (el ▸ hi)) (h.2.2 ch hch i (el ▸ hi)) (order ch i)
    rw [f0, f1] at g1
    rw [f0, f2] at g2
    refine ⟨_, _, ?_, ?_, below_addSquare hr hsq hxy g3⟩
    · simp only [rd_ok hi, rd_ok hi1, Outcome.bind_ok, g1]
      rfl
    · simp only [rd_ok hi, rd_ok hi2, Outcome.bind_ok, g2]
      rfl
  unfold floatDistance
  rw [if_pos (by rw [h1]), if_pos (by rw [h2]), hx, hy, Outcome.bind_ok, Outcome.bind_ok]
  simp only [Outcome.pure_eq]
  refine ⟨_, _, rfl, rfl, ?_⟩
  split_ifs with hn
  · intro y hy
    cases hy
  · intro w hw
    cases y with
    | none => cases hw
    | some t =>
      obtain ⟨s, rfl, s2, s3⟩ := hxy t rfl
      have n0 : 0 ≤ r.toDouble ((b.params.signalNumber * signalSize b.params.shape % 2 ^ 64 : ℕ) : ℝ) := nearest_nonneg hr.2 (by positivity)
      exact below_round hr (nearest_nonneg hr.2 (div_nonneg s2 n0)) (rounds_mono hr.2 (div_le_div_of_nonneg_right s3 n0)) w hw

end WB.Props
