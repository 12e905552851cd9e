import Verif.Proof.Rounding2D

/-!
Rounding errors in the Euclidean norm: local errors of the sums, and how one pass of the transform carries errors on.
-/

namespace WB

open Finset Spec

/-- Relative error of one sum of products. -/
def lk (u η : ℝ) (t : ℕ) : ℝ := (1 + u) ^ (2 * t) * ((1 + u) * (1 + η)) - 1

/-- Absolute error of one sum of products. -/
def lw (u ω : ℝ) (t : ℕ) : ℝ := (1 + u) ^ (2 * t) * (4 * t * ω)

theorem lk_nonneg {u η : ℝ} (hu : 0 ≤ u) (hη : 0 ≤ η) (t : ℕ) : 0 ≤ lk u η t := by
  unfold lk
  have h1 : 1 ≤ (1 + u) ^ (2 * t) := one_le_pow₀ (by linarith)
  have h2 : 1 ≤ (1 + u) * (1 + η) := by nlinarith
  nlinarith

theorem lw_nonneg {u ω : ℝ} (hu : 0 ≤ u) (hω : 0 ≤ ω) (t : ℕ) : 0 ≤ lw u ω t := by unfold lw; positivity

theorem gr_eq_lk (u ω η S : ℝ) (t : ℕ) (q : ℝ) : gr u ω η S t q = (lk u η t + 1) * (S * q) + lw u ω t := by
  unfold gr lk lw; push_cast; ring

section Sums
variable {α : Type} [Zero α] [Add α] [Mul α] [Neg α] [Inhabited α] {u ω Ω η S : ℝ} {sc : Scalars α u ω Ω}

theorem loc_term {x f : α} {F : ℝ} (hx : sc.fin x) (hf : sc.Ap f F |F| ((1 + η) * |F|)) :
    sc.Pr (x * f) (sc.val x * F) (|sc.val x| * |F|) ((1 + u) * ((1 + η) * (|sc.val x| * |F|)) + ω) ∧
    sc.Pr (f * x) (F * sc.val x) (|F| * |sc.val x|) ((1 + u) * ((1 + η) * (|F| * |sc.val x|)) + ω) := by
  have hX : sc.Ap x (sc.val x) |sc.val x| |sc.val x| := ⟨hx, le_rfl, by simp⟩
  exact ⟨(Scalars.Ap.mul hX hf).weaken (le_of_eq (by ring)), (Scalars.Ap.mul hf hX).weaken (le_of_eq (by ring))⟩

theorem loc_fold1 (hu : 0 ≤ u) (hω : 0 ≤ ω) (hη : 0 ≤ η) {n t : ℕ} (hn : n ≤ 2 * t) (T : ℕ → α) (E c : ℕ → ℝ)
    (h : ∀ j < n, sc.Pr (T j) (E j) (c j) ((1 + u) * ((1 + η) * c j) + ω)) {B : ℝ} (hc : ∑ j ∈ range n, c j ≤ S * B)
    (hΩ : gr u ω η S t B ≤ Ω) :
    sc.fin ((List.range n).foldl (fun acc j => acc + T j) 0) ∧
    |sc.val ((List.range n).foldl (fun acc j => acc + T j) 0) - ∑ j ∈ range n, E j| ≤ lk u η t * ∑ j ∈ range n, c j + lw u ω t := by
  have hc0 : 0 ≤ ∑ j ∈ range n, c j := sum_nonneg fun j hj => (h j (mem_range.1 hj)).nonneg
  have r : ∑ j ∈ range n, ((1 + u) * ((1 + η) * c j) + ω) = (1 + u) * ((1 + η) * ∑ j ∈ range n, c j) + n * ω := by
    rw [sum_add_distrib, sum_const, card_range, nsmul_eq_mul, mul_sum, mul_sum]
  have hnR : (n : ℝ) ≤ 2 * t := by exact_mod_cast hn
  have hP : (1 + u) ^ n ≤ (1 + u) ^ (2 * t) := pow_le_pow_right₀ (by linarith) hn
  have hb : (1 + u) ^ n * (∑ j ∈ range n, ((1 + u) * ((1 + η) * c j) + ω) + n * ω) ≤
      (lk u η t + 1) * ∑ j ∈ range n, c j + lw u ω t := by
    rw [r]
    calc _ ≤ (1 + u) ^ (2 * t) * ((1 + u) * ((1 + η) * ∑ j ∈ range n, c j) + 4 * t * ω) := by
          refine mul_le_mul hP ?_ (by positivity) (by positivity)
          nlinarith
      _ = _ := by unfold lk lw; ring
  have top : (1 + u) ^ n * (∑ j ∈ range n, ((1 + u) * ((1 + η) * c j) + ω) + n * ω) ≤ Ω := by
    rw [gr_eq_lk] at hΩ
    have := lk_nonneg hu hη t
    nlinarith
  have k := ap_fold1 (sc := sc) hu T E c _ n h top
  rw [foldl_sum, zero_add] at k
  exact ⟨k.1, by linarith [k.2.2]⟩

theorem loc_fold2 (hu : 0 ≤ u) (_hω : 0 ≤ ω) (hη : 0 ≤ η) {t : ℕ} (T T' : ℕ → α) (E E' c c' : ℕ → ℝ)
    (h : ∀ j < t, sc.Pr (T j) (E j) (c j) ((1 + u) * ((1 + η) * c j) + ω))
    (h' : ∀ j < t, sc.Pr (T' j) (E' j) (c' j) ((1 + u) * ((1 + η) * c' j) + ω)) {B : ℝ} (hc : ∑ j ∈ range t, (c j + c' j) ≤ S * B)
    (hΩ : gr u ω η S t B ≤ Ω) :
    sc.fin ((List.range t).foldl (fun acc j => acc + T j + T' j) 0) ∧
    |sc.val ((List.range t).foldl (fun acc j => acc + T j + T' j) 0) - ∑ j ∈ range t, (E j + E' j)| ≤
      lk u η t * ∑ j ∈ range t, (c j + c' j) + lw u ω t := by
  have r : ∑ j ∈ range t, (((1 + u) * ((1 + η) * c j) + ω) + ((1 + u) * ((1 + η) * c' j) + ω)) =
      (1 + u) * ((1 + η) * ∑ j ∈ range t, (c j + c' j)) + (2 * t : ℕ) * ω := by
    rw [sum_congr rfl fun j _ => show ((1 + u) * ((1 + η) * c j) + ω) + ((1 + u) * ((1 + η) * c' j) + ω) =
      (1 + u) * ((1 + η) * (c j + c' j)) + 2 * ω by ring, sum_add_distrib, sum_const, card_range, nsmul_eq_mul, mul_sum, mul_sum]
    push_cast; ring
  have hb : (1 + u) ^ (2 * t) * (∑ j ∈ range t, (((1 + u) * ((1 + η) * c j) + ω) + ((1 + u) * ((1 + η) * c' j) + ω)) + (2 * t : ℕ) * ω) =
      (lk u η t + 1) * ∑ j ∈ range t, (c j + c' j) + lw u ω t := by
    rw [r]; unfold lk lw; push_cast; ring
  have top : (1 + u) ^ (2 * t) * (∑ j ∈ range t, (((1 + u) * ((1 + η) * c j) + ω) + ((1 + u) * ((1 + η) * c' j) + ω)) + (2 * t : ℕ) * ω) ≤ Ω := by
    rw [gr_eq_lk] at hΩ
    rw [hb]
    have := lk_nonneg hu hη t
    nlinarith
  have k := ap_fold2 (sc := sc) hu T T' E E' c c' _ _ t h h' top
  rw [hb] at k
  have e : (List.range t).foldl (fun acc j => acc + E j + E' j) (0 : ℝ) = ∑ j ∈ range t, (E j + E' j) := by
    simp_rw [add_assoc]
    rw [foldl_sum, zero_add]
  rw [e] at k
  exact ⟨k.1, by linarith [k.2.2]⟩

/-- Finite values with absolute value at most `B`. -/
def FinL (sc : Scalars α u ω Ω) (B : ℝ) (x : List α) (X : ℕ → ℝ) : Prop :=
  ∀ k, sc.fin (x.getD k 0) ∧ |sc.val (x.getD k 0)| ≤ B ∧ sc.val (x.getD k 0) = X k

theorem loc_ana (hu : 0 ≤ u) (hω : 0 ≤ ω) (hη : 0 ≤ η) {t : ℕ} (_ht : 0 < t) {B : ℝ} {x f : List α} {X : ℕ → ℝ} {F : List ℝ}
    (hx : FinL sc B x X) (hf : ApF sc η f F) (hl : F.length = 2 * t) (hS : ∑ j ∈ range (2 * t), |F.getD j 0| ≤ S)
    (hΩ : gr u ω η S t B ≤ Ω) (hx0 : 0 < x.length) (i : ℕ) :
    sc.fin (anaP x f i) ∧ |sc.val (anaP x f i) - ∑ k ∈ range x.length, kern x.length (fl F) (2 * t) i k * X k| ≤
      lk u η t * ∑ k ∈ range x.length, kern x.length (fl (F.map fun c => |c|)) (2 * t) i k * |X k| + lw u ω t := by
  have hB0 : 0 ≤ B := (abs_nonneg _).trans (hx 0).2.1
  have small : ∀ j < 2 * t, |F.getD j 0| ≤ S := fun j hj =>
    (single_le_sum (f := fun j => |F.getD j 0|) (fun _ _ => abs_nonneg _) (mem_range.2 hj)).trans hS
  have pull : ∀ (G : List ℝ) (Y : ℕ → ℝ), ∑ k ∈ range x.length, kern x.length (fl G) (2 * t) i k * Y k =
      ∑ j ∈ range (2 * t), Y ((i * 2 + j) % x.length) * G.getD j 0 := by
    intro G Y
    unfold kern
    simp_rw [sum_mul]
    rw [sum_comm]
    refine sum_congr rfl fun j _ => ?_
    rw [sum_eq_single ((2 * i + j) % x.length)]
    · rw [if_pos rfl, mul_comm i 2, mul_comm]
    · intro b _ hb
      rw [if_neg (fun h => hb h.symm), zero_mul]
    · intro h
      exact absurd (mem_range.2 (Nat.mod_lt _ hx0)) h
  rw [pull, pull]
  unfold anaP
  rw [hf.1, hl]
  have terms : ∀ j < 2 * t, sc.Pr (x.getD ((i * 2 + j) % x.length) 0 * f.getD j 0) (X ((i * 2 + j) % x.length) * F.getD j 0)
      (|X ((i * 2 + j) % x.length)| * (F.map fun c => |c|).getD j 0)
      ((1 + u) * ((1 + η) * (|X ((i * 2 + j) % x.length)| * (F.map fun c => |c|).getD j 0)) + ω) := by
    intro j hj
    rw [fl_map_abs, ← (hx _).2.2]
    exact (loc_term (hx _).1 (hf.2 j)).1
  refine loc_fold1 hu hω hη le_rfl _ _ _ terms (B := B) ?_ hΩ
  calc _ ≤ ∑ j ∈ range (2 * t), B * |F.getD j 0| := sum_le_sum fun j _ => by
        rw [fl_map_abs, ← (hx _).2.2]
        exact mul_le_mul_of_nonneg_right (hx _).2.1 (abs_nonneg _)
    _ = B * ∑ j ∈ range (2 * t), |F.getD j 0| := by rw [mul_sum]
    _ ≤ S * B := by rw [mul_comm S]; exact mul_le_mul_of_nonneg_left hS hB0

/-- The sum behind one synthesised sample, for any pair of filters. -/
theorem syn_index {R : Type} [CommRing R] (v G : List R) {t n2 : ℕ} (hv : v.length = n2) (hG : G.length = 2 * t) (h0 : 0 < n2) (ht : 0 < t) (hs : t ≤ n2 + 1)
    {i : ℕ} (hi : i < 2 * n2) :
    ∑ jj ∈ range t, G.reverse.getD ((if i % 2 = 0 then 1 else 0) + 2 * jj) 0 * v.getD ((n2 - (2 * t - 2) / 2 + i / 2 + jj) % n2) 0 =
      ∑ a ∈ range n2, kern (2 * n2) (fl G) (2 * t) a i * v.getD a 0 := by
  rw [kern_transpose v G t n2 hv h0 i hi, ← sum_range_reflect]
  refine sum_congr rfl fun p hp => ?_
  rw [mem_range] at hp
  have h1 : (if i % 2 = 0 then 1 else 0) + 2 * (t - 1 - p) < G.length := by split_ifs <;> omega
  have h2 : G.length - 1 - ((if i % 2 = 0 then 1 else 0) + 2 * (t - 1 - p)) = 2 * p + i % 2 := by
    split_ifs <;> omega
  rw [getD_reverse' G h1, h2]
  congr 1
  rw [← hv, ← per_natCast]
  apply per_congr
  refine ⟨1, ?_⟩
  have : (2 * t - 2) / 2 = t - 1 := by omega
  rw [this]
  have h3 : t - 1 ≤ v.length := by omega
  omega

theorem loc_syn (hu : 0 ≤ u) (hω : 0 ≤ ω) (hη : 0 ≤ η) {t n2 : ℕ} (ht : 0 < t) (hn : t ≤ n2) {B : ℝ} {lo hi f : List α} {L H : List ℝ}
    {F : List ℝ} (hlo : FinL sc B lo (fun k => L.getD k 0)) (hhi : FinL sc B hi (fun k => H.getD k 0)) (hf : ApF sc η f F)
    (hl : F.length = 2 * t) (hS : ∑ j ∈ range (2 * t), |F.getD j 0| ≤ S) (hΩ : gr u ω η S t B ≤ Ω) (h1 : lo.length = n2)
    (hL : L.length = n2) (hH : H.length = n2) {i : ℕ} (hi' : i < 2 * n2) :
    sc.fin (synP lo hi f.reverse (qmf f).reverse i) ∧
    |sc.val (synP lo hi f.reverse (qmf f).reverse i) - (∑ a ∈ range n2, kern (2 * n2) (fl F) (2 * t) a i * L.getD a 0 +
      ∑ a ∈ range n2, kern (2 * n2) (fl (qmf F)) (2 * t) a i * H.getD a 0)| ≤
      lk u η t * (∑ a ∈ range n2, kern (2 * n2) (fl (F.map fun c => |c|)) (2 * t) a i * |L.getD a 0| +
        ∑ a ∈ range n2, kern (2 * n2) (fl ((qmf F).map fun c => |c|)) (2 * t) a i * |H.getD a 0|) + lw u ω t := by
  have hB0 : 0 ≤ B := (abs_nonneg _).trans (hlo 0).2.1
  have hq := apF_qmf hf hl
  have hlq : (qmf F).length = 2 * t := by simp [hl]
  set e := if i % 2 = 0 then 1 else 0 with he
  have he2 : e < 2 := by rw [he]; split_ifs <;> omega
  have hsyn := sum_abs_syn hl e he2
  have small : ∀ j < t, |F.reverse.getD (e + 2 * j) 0| ≤ S ∧ |(qmf F).reverse.getD (e + 2 * j) 0| ≤ S := by
    intro j hj
    have := single_le_sum (f := fun j => |F.reverse.getD (e + 2 * j) 0| + |(qmf F).reverse.getD (e + 2 * j) 0|)
      (fun _ _ => add_nonneg (abs_nonneg _) (abs_nonneg _)) (mem_range.2 hj)
    have i1 := abs_nonneg (F.reverse.getD (e + 2 * j) 0)
    have i2 := abs_nonneg ((qmf F).reverse.getD (e + 2 * j) 0)
    constructor <;> linarith
  have ix : ∀ (v G : List ℝ), v.length = n2 → G.length = 2 * t → ∑ a ∈ range n2, kern (2 * n2) (fl G) (2 * t) a i * v.getD a 0 =
      ∑ jj ∈ range t, G.reverse.getD (e + 2 * jj) 0 * v.getD ((n2 - (2 * t - 2) / 2 + i / 2 + jj) % n2) 0 :=
    fun v G hv hG => (syn_index v G hv hG (by omega) ht (by omega) hi').symm
  have ab : ∀ (v G : List ℝ), v.length = n2 → G.length = 2 * t →
      ∑ a ∈ range n2, kern (2 * n2) (fl (G.map fun c => |c|)) (2 * t) a i * |v.getD a 0| =
      ∑ jj ∈ range t, |G.reverse.getD (e + 2 * jj) 0| * |v.getD ((n2 - (2 * t - 2) / 2 + i / 2 + jj) % n2) 0| := by
    intro v G hv hG
    have := ix (v.map fun c => |c|) (G.map fun c => |c|) (by simp [hv]) (by simp [hG])
    simp_rw [fl_map_abs] at this
    rw [this, ← List.map_reverse]
    simp_rw [fl_map_abs]
  rw [ix L F hL hl, ix H (qmf F) hH hlq, ab L F hL hl, ab H (qmf F) hH hlq, ← sum_add_distrib, ← sum_add_distrib]
  unfold synP
  have hlen : (f.reverse.length + 1) / 2 = t := by rw [List.length_reverse, hf.1]; omega
  have hfl : f.reverse.length = 2 * t := by rw [List.length_reverse, hf.1, hl]
  rw [hlen, hfl, h1, ← he]
  have fr := apF_reverse hf
  have qr := apF_reverse hq
  refine loc_fold2 hu hω hη _ _ _ _ _ _ (fun j hj => ?_) (fun j hj => ?_) (B := B) ?_ hΩ
  · have := (loc_term (hlo ((n2 - (2 * t - 2) / 2 + i / 2 + j) % n2)).1 (fr.2 (e + 2 * j))).2
    rwa [(hlo _).2.2] at this
  · have := (loc_term (hhi ((n2 - (2 * t - 2) / 2 + i / 2 + j) % n2)).1 (qr.2 (e + 2 * j))).2
    rwa [(hhi _).2.2] at this
  · calc _ ≤ ∑ j ∈ range t, (|F.reverse.getD (e + 2 * j) 0| + |(qmf F).reverse.getD (e + 2 * j) 0|) * B := sum_le_sum fun j _ => by
          rw [add_mul]
          refine add_le_add (mul_le_mul_of_nonneg_left ?_ (abs_nonneg _)) (mul_le_mul_of_nonneg_left ?_ (abs_nonneg _))
          · have := (hlo ((n2 - (2 * t - 2) / 2 + i / 2 + j) % n2)).2.1
            rwa [(hlo _).2.2] at this
          · have := (hhi ((n2 - (2 * t - 2) / 2 + i / 2 + j) % n2)).2.1
            rwa [(hhi _).2.2] at this
      _ = (∑ j ∈ range (2 * t), |F.getD j 0|) * B := by rw [← sum_mul, hsyn]
      _ ≤ S * B := mul_le_mul_of_nonneg_right hS hB0

theorem loc_row (hu : 0 ≤ u) (hω : 0 ≤ ω) (hη : 0 ≤ η) {t : ℕ} (_ht : 0 < t) {B : ℝ} {x : List α} {X : ℕ → ℝ} (hx : FinL sc B x X)
    {r : List (ℕ × α × ℝ)} (hr : ∀ e ∈ r, sc.Ap e.2.1 e.2.2 |e.2.2| ((1 + η) * |e.2.2|)) (hl : r.length ≤ 2 * t)
    (hS : (r.map fun e => |e.2.2|).sum ≤ S) (hΩ : gr u ω η S t B ≤ Ω) :
    sc.fin ((r.map fun e => (e.1, e.2.1)).foldl (fun acc e => acc + e.2 * x.getD e.1 0) 0) ∧
    |sc.val ((r.map fun e => (e.1, e.2.1)).foldl (fun acc e => acc + e.2 * x.getD e.1 0) 0) - (r.map fun e => e.2.2 * X e.1).sum| ≤
      lk u η t * (r.map fun e => |e.2.2| * |X e.1|).sum + lw u ω t := by
  have hB0 : 0 ≤ B := (abs_nonneg _).trans (hx 0).2.1
  have small : ∀ j < r.length, |(r.getD j (0, 0, 0)).2.2| ≤ S := by
    intro j hj
    have := single_le_sum (f := fun j => |(r.getD j (0, 0, 0)).2.2|) (fun _ _ => abs_nonneg _) (mem_range.2 hj)
    rw [sum_getD_map r (0, 0, 0) (fun e => |e.2.2|)] at this
    exact this.trans hS
  rw [List.foldl_map, foldl_eq_range r (0, 0, 0), ← sum_getD_map r (0, 0, 0) (fun e => e.2.2 * X e.1),
    ← sum_getD_map r (0, 0, 0) (fun e => |e.2.2| * |X e.1|)]
  refine loc_fold1 hu hω hη hl _ _ _ (fun j hj => ?_) (B := B) ?_ hΩ
  · have hmem : r.getD j (0, 0, 0) ∈ r := by simp [List.getD, hj]
    have := (loc_term (hx (r.getD j (0, 0, 0)).1).1 (hr _ hmem)).2
    rwa [(hx _).2.2] at this
  · calc _ ≤ ∑ j ∈ range r.length, |(r.getD j (0, 0, 0)).2.2| * B := sum_le_sum fun j _ => by
          refine mul_le_mul_of_nonneg_left ?_ (abs_nonneg _)
          have := (hx (r.getD j (0, 0, 0)).1).2.1
          rwa [(hx _).2.2] at this
      _ = (r.map fun e => |e.2.2|).sum * B := by rw [← sum_mul, sum_getD_map r (0, 0, 0) (fun e => |e.2.2|)]
      _ ≤ S * B := mul_le_mul_of_nonneg_right hS hB0

end Sums

end WB
