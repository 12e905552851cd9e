import Verif.Spec.Optimal
import Verif.Proof.SimpleLoss
import Verif.Proof.Reverse

/-! Best approximations with few coefficients. -/

set_option linter.unusedSectionVars false

namespace WB

open Finset Spec Props

theorem sqDist_prod (x y : Mat ℝ) : sqDist x y = ∑ q ∈ range x.rows ×ˢ range x.cols, (x.get q.1 q.2 - y.get q.1 q.2) ^ 2 := by
  unfold sqDist
  rw [← sum_product']

theorem nonzeros_sum (m : Mat ℝ) : (nonzeros m : ℝ) = ∑ q ∈ range m.rows ×ˢ range m.cols, if m.get q.1 q.2 ≠ 0 then 1 else 0 := by
  unfold nonzeros
  rw [sum_boole]

/-- Sets of entries: no set of the same size has more squares than one of largest entries. -/
theorem largest_sum {ι : Type} [DecidableEq ι] (S K T : Finset ι) (hK : K ⊆ S) (hT : T ⊆ S) (hc : T.card ≤ K.card) (f : ι → ℝ)
    (h : ∀ a ∈ K, ∀ b ∈ S, b ∉ K → |f b| ≤ |f a|) : ∑ b ∈ S \ K, f b ^ 2 ≤ ∑ b ∈ S \ T, f b ^ 2 := by
  have e1 : S \ K = (S \ (K ∪ T)) ∪ (T \ K) := by
    ext b
    simp only [mem_sdiff, mem_union]
    constructor
    · rintro ⟨h1, h2⟩
      by_cases h3 : b ∈ T
      · exact .inr ⟨h3, h2⟩
      · exact .inl ⟨h1, by tauto⟩
    · rintro (⟨h1, h2⟩ | ⟨h1, h2⟩)
      · exact ⟨h1, by tauto⟩
      · exact ⟨hT h1, h2⟩
  have e2 : S \ T = (S \ (K ∪ T)) ∪ (K \ T) := by
    ext b
    simp only [mem_sdiff, mem_union]
    constructor
    · rintro ⟨h1, h2⟩
      by_cases h3 : b ∈ K
      · exact .inr ⟨h3, h2⟩
      · exact .inl ⟨h1, by tauto⟩
    · rintro (⟨h1, h2⟩ | ⟨h1, h2⟩)
      · exact ⟨h1, by tauto⟩
      · exact ⟨hK h1, h2⟩
  have d1 : Disjoint (S \ (K ∪ T)) (T \ K) := by
    rw [disjoint_left]; intro b h1 h2; simp only [mem_sdiff, mem_union] at h1 h2; tauto
  have d2 : Disjoint (S \ (K ∪ T)) (K \ T) := by
    rw [disjoint_left]; intro b h1 h2; simp only [mem_sdiff, mem_union] at h1 h2; tauto
  rw [e1, e2, sum_union d1, sum_union d2]
  refine add_le_add le_rfl ?_
  have hcard : (T \ K).card ≤ (K \ T).card := by
    have h1 := card_sdiff_add_card_inter T K
    have h2 := card_sdiff_add_card_inter K T
    rw [inter_comm] at h2
    omega
  by_cases hne : (T \ K).Nonempty
  · obtain ⟨b, hb, hmax⟩ := exists_max_image (T \ K) (fun b => f b ^ 2) hne
    have hb' := mem_sdiff.1 hb
    calc ∑ a ∈ T \ K, f a ^ 2 ≤ ∑ _a ∈ T \ K, f b ^ 2 := sum_le_sum hmax
      _ = ((T \ K).card : ℝ) * f b ^ 2 := by rw [sum_const, nsmul_eq_mul]
      _ ≤ ((K \ T).card : ℝ) * f b ^ 2 := mul_le_mul_of_nonneg_right (by exact_mod_cast hcard) (sq_nonneg _)
      _ = ∑ _a ∈ K \ T, f b ^ 2 := by rw [sum_const, nsmul_eq_mul]
      _ ≤ _ := by
        refine sum_le_sum fun a ha => ?_
        exact sq_le_sq.2 (h a (mem_sdiff.1 ha).1 b (hT hb'.1) hb'.2)
  · rw [not_nonempty_iff_eq_empty] at hne
    rw [hne, sum_empty]
    exact sum_nonneg fun _ _ => sq_nonneg _

theorem keepsLargest_best {data r z : Mat ℝ} {count : ℕ} (h : KeepsLargest (fun x : ℝ => |x|) count data r) (hz : SameSize z data)
    (hn : nonzeros z ≤ count) : sqDist r data ≤ sqDist z data := by
  classical
  obtain ⟨hr, hc, kept, hin, hcard, hval, hmax⟩ := h
  rw [sqDist_prod, sqDist_prod, hr, hc, hz.1, hz.2]
  set S := range data.rows ×ˢ range data.cols with hS
  have mS : ∀ q, q ∈ S ↔ q.1 < data.rows ∧ q.2 < data.cols := by intro q; rw [hS, mem_product, mem_range, mem_range]
  have hK : kept ⊆ S := fun q hq => (mS q).2 (hin q hq)
  set T := S.filter fun q => z.get q.1 q.2 ≠ 0 with hT
  have hTc : T.card ≤ kept.card := by
    rw [hcard]
    unfold nonzeros at hn
    rw [hz.1, hz.2] at hn
    convert hn using 2
  have h1 := largest_sum S kept T hK (filter_subset _ _) hTc (fun q => data.get q.1 q.2)
    (fun a ha b hb hb' => not_lt.1 (hmax a ha b.1 ((mS b).1 hb).1 b.2 ((mS b).1 hb).2 hb'))
  have e1 : ∑ q ∈ S, (r.get q.1 q.2 - data.get q.1 q.2) ^ 2 = ∑ q ∈ S \ kept, data.get q.1 q.2 ^ 2 := by
    rw [← sum_sdiff hK]
    have z1 : ∑ q ∈ kept, (r.get q.1 q.2 - data.get q.1 q.2) ^ 2 = 0 := by
      refine sum_eq_zero fun q hq => ?_
      have := hin q hq
      rw [hval _ this.1 _ this.2, if_pos (by simpa using hq)]; ring
    rw [z1, add_zero]
    refine sum_congr rfl fun q hq => ?_
    have := (mS q).1 (mem_sdiff.1 hq).1
    rw [hval _ this.1 _ this.2, if_neg (by simpa using (mem_sdiff.1 hq).2)]; ring
  rw [e1]
  refine h1.trans ?_
  have e2 : ∑ q ∈ S \ T, data.get q.1 q.2 ^ 2 = ∑ q ∈ S \ T, (z.get q.1 q.2 - data.get q.1 q.2) ^ 2 := by
    refine sum_congr rfl fun q hq => ?_
    rw [mem_sdiff, hT, mem_filter] at hq
    have : z.get q.1 q.2 = 0 := by
      by_contra hne
      exact hq.2 ⟨hq.1, hne⟩
    rw [this]; ring
  rw [e2]
  exact sum_le_sum_of_subset_of_nonneg sdiff_subset fun _ _ _ => sq_nonneg _

theorem keepsLargest_nonzeros {data r : Mat ℝ} {count : ℕ} (h : KeepsLargest (fun x : ℝ => |x|) count data r) : nonzeros r ≤ count := by
  classical
  obtain ⟨hr, hc, kept, hin, hcard, hval, hmax⟩ := h
  unfold nonzeros
  rw [hr, hc, ← hcard]
  refine card_le_card fun q hq => ?_
  rw [mem_filter, mem_product, mem_range, mem_range] at hq
  by_contra hn
  apply hq.2
  rw [hval _ hq.1.1 _ hq.1.2, if_neg (by simpa using hn)]

theorem threshold_best {t : ℝ} (ht : 0 ≤ t) (m z : Mat ℝ) (hz : SameSize z m) :
    sqDist (m.map fun x => if t < |x| then x else 0) m + t ^ 2 * nonzeros (m.map fun x => if t < |x| then x else 0) ≤
      sqDist z m + t ^ 2 * nonzeros z := by
  rw [nonzeros_sum, nonzeros_sum, sqDist_prod, sqDist_prod, hz.1, hz.2, mul_sum, mul_sum]
  simp only [Mat.rows_map, Mat.cols_map]
  rw [← sum_add_distrib, ← sum_add_distrib]
  refine sum_le_sum fun q hq => ?_
  rw [mem_product, mem_range, mem_range] at hq
  rw [Mat.get_map _ m hq.1 hq.2]
  generalize m.get q.1 q.2 = x
  generalize z.get q.1 q.2 = y
  have hsq : 0 ≤ (y - x) ^ 2 := sq_nonneg _
  have hx2 : |x| ^ 2 = x ^ 2 := sq_abs x
  have h0 := abs_nonneg x
  by_cases h : t < |x|
  · have hx : x ≠ 0 := by rintro rfl; simp at h; linarith
    simp only [if_pos h, if_pos hx]
    by_cases hy : y = 0
    · simp only [hy, ne_eq, not_true_eq_false, if_false]; nlinarith
    · rw [if_pos hy]; nlinarith
  · simp only [if_neg h, ne_eq, not_true_eq_false, if_false]
    push Not at h
    by_cases hy : y = 0
    · simp only [hy, not_true_eq_false, if_false]; exact le_rfl
    · rw [if_pos hy]; nlinarith

/-- Sums over the subbands of a channel. -/
theorem channel_dist {p : Params} {c c0 : List (Mat ℝ)} (h : c.length = decompositionSize p) (h0 : c0.length = decompositionSize p) :
    (List.zipWith sqDist c c0).sum = ∑ s ∈ range p.steps, ∑ q ∈ range (subbandsPerWT p),
      sqDist (c.getD (s * subbandsPerWT p + q) default) (c0.getD (s * subbandsPerWT p + q) default) +
      sqDist (c.getD (p.steps * subbandsPerWT p) default) (c0.getD (p.steps * subbandsPerWT p) default) := by
  set F : ℕ → ℝ := fun i => sqDist (c.getD i default) (c0.getD i default) with hF
  have e1 : (List.zipWith sqDist c c0).sum = ∑ i ∈ range (decompositionSize p), F i := by
    rw [← h, Finset.sum_range, ← List.sum_ofFn]
    congr 1
    apply List.ext_getElem
    · simp [h, h0]
    · intro i h1 h2
      have h3 : i < c.length := by simpa using h2
      have h4 : i < c0.length := by omega
      simp [hF, List.getD, h4]
  have e2 : ∀ n, ∑ i ∈ range (n * subbandsPerWT p), F i = ∑ s ∈ range n, ∑ q ∈ range (subbandsPerWT p), F (s * subbandsPerWT p + q) := by
    intro n
    induction n with
    | zero => simp
    | succ n ih => rw [Nat.succ_mul, sum_range_add, ih, sum_range_succ]
  have e3 : decompositionSize p = p.steps * subbandsPerWT p + 1 := by unfold decompositionSize; ring
  rw [e1, e3, sum_range_succ, e2]

theorem sqDist_nonneg (x y : Mat ℝ) : 0 ≤ sqDist x y := sum_nonneg fun _ _ => sum_nonneg fun _ _ => sq_nonneg _

/-- Distances of composed channels are those of the subbands. -/
theorem composed_dist {k : Kit ℝ} {p : Params} (hv : ValidParams p) (hf : FilterLen k p) (ho : OrthoKit k p)
    (hdvd : ∀ n ∈ p.shape, 2 ^ p.steps ∣ n) {c : Channel ℝ} (hc : SizedChan p c) {x : Mat ℝ} (hx : Shaped p x) :
    sqDist (outP k p 0 c) x = (List.zipWith sqDist c (chanP p (scaling k p) nullDenoiser x)).sum := by
  obtain ⟨h1, h2⟩ := chanP_outP hv hf ho hdvd hc
  have := energy_pair hv hf ho h1 hx
  rw [h2, padOf_self hv h1 hdvd, padOf_self hv hx hdvd] at this
  exact this.symm

end WB
