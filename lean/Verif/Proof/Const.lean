import Verif.Proof.Linear

/-!
Constant signals.
-/

set_option linter.unusedSectionVars false

namespace WB

open Finset Spec

section Ring
variable {R : Type} [CommRing R] [Inhabited R]

/-- Sum of the taps of one parity. -/
def taps (h : List R) (t e : ℕ) : R := ∑ q ∈ range t, h.getD (2 * q + e) 0

theorem kern_row_sum (n : ℕ) (hn : 0 < n) (f : ℕ → R) (L i : ℕ) : ∑ k ∈ range n, kern n f L i k = ∑ j ∈ range L, f j := by
  unfold kern
  rw [sum_comm]
  refine sum_congr rfl (fun j _ => ?_)
  rw [sum_ite_eq, if_pos (mem_range.2 (Nat.mod_lt _ hn))]

theorem sum_taps (h : List R) (t : ℕ) : ∑ j ∈ range (2 * t), fl h j = taps h t 0 + taps h t 1 := by
  rw [FB.sum_even_odd, sum_add_distrib]; rfl

theorem sum_qmf (h : List R) (t : ℕ) (hL : h.length = 2 * t) : ∑ j ∈ range (2 * t), fl (qmf h) j = taps h t 1 - taps h t 0 := by
  rw [FB.sum_even_odd, sum_add_distrib]
  have e0 : ∑ q ∈ range t, fl (qmf h) (2 * q) = taps h t 1 := by
    unfold taps
    rw [← sum_range_reflect]
    refine sum_congr rfl (fun q hq => ?_)
    rw [mem_range] at hq
    rw [show fl (qmf h) (2 * (t - 1 - q)) = (qmf h).getD (2 * (t - 1 - q)) 0 from rfl, getD_qmf h t hL (by omega),
      FB.hp_even _ (by omega)]
    congr 1; omega
  have e1 : ∑ q ∈ range t, fl (qmf h) (2 * q + 1) = - taps h t 0 := by
    unfold taps
    rw [← sum_range_reflect, ← sum_neg_distrib]
    refine sum_congr rfl (fun q hq => ?_)
    rw [mem_range] at hq
    rw [show fl (qmf h) (2 * (t - 1 - q) + 1) = (qmf h).getD (2 * (t - 1 - q) + 1) 0 from rfl, getD_qmf h t hL (by omega),
      FB.hp_odd _ (by omega)]
    congr 2; omega
  rw [e0, e1, sub_eq_add_neg]

theorem kern_col_sum (h : List R) (t n2 : ℕ) (hn : 0 < n2) (k : ℕ) (hk : k < 2 * n2) :
    ∑ i ∈ range n2, kern (2 * n2) (fl h) (2 * t) i k = taps h t (k % 2) := by
  have := kern_transpose ((List.range n2).map (fun _ => (1 : R))) h t n2 (by simp) hn k hk
  have e1 : ∀ i ∈ range n2, kern (2 * n2) (fl h) (2 * t) i k * ((List.range n2).map (fun _ => (1 : R))).getD i 0 =
      kern (2 * n2) (fl h) (2 * t) i k := by
    intro i hi
    rw [getD_map_range _ _ (mem_range.1 hi), mul_one]
  rw [sum_congr rfl e1] at this
  rw [this]
  unfold taps
  refine sum_congr rfl (fun q _ => ?_)
  have e2 : per ((List.range n2).map (fun _ => (1 : R))) (((k / 2 : ℕ) : ℤ) - q) = 1 := by
    unfold per
    rw [getD_map_range]
    have h0 : (0 : ℤ) < n2 := by exact_mod_cast hn
    have h1 := Int.emod_nonneg (((k / 2 : ℕ) : ℤ) - q) (ne_of_gt h0)
    have h2 := Int.emod_lt_of_pos (((k / 2 : ℕ) : ℤ) - q) h0
    simp only [List.length_map, List.length_range]
    omega
  rw [e2, mul_one]

/-- Both parities of the filter have the sum `σ`. -/
def BalancedTaps (h : List R) (t : ℕ) (σ : R) : Prop := taps h t 0 = σ ∧ taps h t 1 = σ

/-- Gain of one step. -/
def gainOf (p : Params) (σ : R) : R := if p.dimension = 1 then 2 * σ else 2 * σ * (2 * σ)

/-- Gain of one inverse step. -/
def backOf (p : Params) (σ : R) : R := if p.dimension = 1 then σ else σ * σ

theorem trans_row_sum (h : List R) (t n2 : ℕ) (hL : h.length = 2 * t) (hn : 0 < n2) {σ : R} (hb : BalancedTaps h t σ) (i : ℕ) :
    ∑ k ∈ range (2 * n2), trans n2 t h i k = if i < n2 then 2 * σ else 0 := by
  unfold trans
  split_ifs
  · rw [kern_row_sum _ (by omega), sum_taps, hb.1, hb.2]; ring
  · rw [kern_row_sum _ (by omega), sum_qmf h t hL, hb.1, hb.2, sub_self]

theorem trans_col_sum (h : List R) (t n2 : ℕ) (hn : 0 < n2) {σ : R} (hb : BalancedTaps h t σ) {k : ℕ} (hk : k < 2 * n2) :
    ∑ i ∈ range n2, trans n2 t h i k = σ := by
  rw [sum_congr rfl (fun i hi => trans_low h (mem_range.1 hi) k), kern_col_sum h t n2 hn k hk]
  have : k % 2 = 0 ∨ k % 2 = 1 := by omega
  rcases this with e | e <;> rw [e]
  · exact hb.1
  · exact hb.2

theorem const_sepOp {KH KW : ℕ → ℕ → R} {x : Mat R} {c : R} (hx : ConstMat c x) {i j : ℕ} (hi : i < x.rows) (hj : j < x.cols) :
    (sepOp KH KW x).get i j = (∑ a ∈ range x.rows, KH i a) * (∑ b ∈ range x.cols, KW j b) * c := by
  rw [sepOp_get hi hj]
  have : ∀ a ∈ range x.rows, KH i a * ∑ b ∈ range x.cols, KW j b * x.get a b = KH i a * ((∑ b ∈ range x.cols, KW j b) * c) := by
    intro a ha
    rw [sum_mul]
    congr 1
    refine sum_congr rfl (fun b hb => ?_)
    rw [hx a (mem_range.1 ha) b (mem_range.1 hb)]
  rw [sum_congr rfl this, ← sum_mul, mul_assoc]

/-- One analysis step of a constant. -/
theorem const_step {k : Kit R} {p : Params} (hv : ValidParams p) (hf : FilterLen k p) {σ : R}
    (hb : BalancedTaps (scaling k p) p.wtype σ) {s : ℕ} (hs : s < p.steps) {m : Mat R} (hm : Fits p s m) {c : R}
    (hc : ConstMat c m) :
    ConstMat (gainOf p σ * c) (approxStep p (scaling k p) m) ∧
    ∀ q < subbandsPerWT p, ConstMat 0 ((detailStep p (scaling k p) nullDenoiser s m).getD q default) := by
  have ht := wavelet_of_steps hv hs
  have hL := length_scaling hf ht
  have hp := analysis_parts (k := k) hv hs hm
  have hg := glue_analysis hv hf hs hm
  -- values of the full step
  have hval : ∀ i < m.rows, ∀ j < m.cols, (fullStep p (scaling k p) m).get i j =
      (if i < lvlR p (s + 1) ∧ j < lvlC p (s + 1) then gainOf p σ * c else 0) := by
    intro i hi j hj
    unfold fullStep
    rw [const_sepOp hc hi hj]
    unfold kR kC lvlR lvlC gainOf
    rcases fits_halves hv ht hs hm with ⟨hd, n2, h1, h2, h3, h4⟩ | ⟨hd, sh, sw, h1, h2, h3, h4, h5, h6, _⟩
    · rw [if_pos hd, if_pos hd, if_pos hd, h1, h2, h4, Nat.mul_div_cancel_left _ (by omega : 0 < 2),
        trans_row_sum _ _ _ hL (by omega) hb]
      have : j = 0 := by omega
      subst this
      simp [delta]
    · have hd' : ¬ p.dimension = 1 := by omega
      simp only [if_neg hd']
      rw [h1, h2, h5, h6, Nat.mul_div_cancel_left _ (by omega : 0 < 2),
        Nat.mul_div_cancel_left _ (by omega : 0 < 2), trans_row_sum _ _ _ hL (by omega) hb, trans_row_sum _ _ _ hL (by omega) hb]
      split_ifs <;> simp_all
  rw [← hg] at hval
  have hrows : (glue p (approxStep p (scaling k p) m) (detailStep p (scaling k p) nullDenoiser s m)).rows = m.rows := by
    rw [hg]; rfl
  have hcols : (glue p (approxStep p (scaling k p) m) (detailStep p (scaling k p) nullDenoiser s m)).cols = m.cols := by
    rw [hg]; rfl
  constructor
  · intro i hi j hj
    rw [hp.1] at hi
    rw [hp.2.1] at hj
    rw [← glue_low hp hi hj, hval i (by rw [← hrows, glue_rows, hp.1]; omega)
      j (by rw [← hcols, glue_cols p hp]; split_ifs <;> omega), if_pos ⟨hi, hj⟩]
  · intro q hq i hi j hj
    rw [(hp.2.2.2 q hq).1] at hi
    rw [(hp.2.2.2 q hq).2] at hj
    obtain ⟨o1, o2⟩ := off_lt hp (q := q) hi hj
    rw [← glue_detail hp hq hi hj, hval _ (by rw [← hrows]; exact o1) _ (by rw [← hcols]; exact o2), if_neg]
    unfold rOff cOff
    rcases dim_cases hv with hd | hd
    · simp [hd]
    · have : q < 3 := by simpa [subbandsPerWT, hd] using hq
      have : q = 0 ∨ q = 1 ∨ q = 2 := by omega
      rcases this with rfl | rfl | rfl <;> simp [hd]

theorem const_sig {k : Kit R} {p : Params} (hv : ValidParams p) (hf : FilterLen k p) {σ : R}
    (hb : 0 < p.steps → BalancedTaps (scaling k p) p.wtype σ) {m : Mat R} (hm : Fits p 0 m) {c : R} (hc : ConstMat c m)
    {s : ℕ} (hs : s ≤ p.steps) : ConstMat (gainOf p σ ^ s * c) (sig p (scaling k p) m s) := by
  induction s with
  | zero => simpa [sig] using hc
  | succ s ih =>
    have := (const_step hv hf (hb (by omega)) (show s < p.steps by omega) (fits_sig hv hm (by omega)) (ih (by omega))).1
    rw [pow_succ, mul_comm _ (gainOf p σ), mul_assoc]
    exact this

/-- One synthesis step of a constant with zero details. -/
theorem const_synth {k : Kit R} {p : Params} (hv : ValidParams p) (hf : FilterLen k p) {σ : R}
    (hb : BalancedTaps (scaling k p) p.wtype σ) {s : ℕ} (hs : s < p.steps) {m : Mat R} (hm : Fits p (s + 1) m)
    {ds : List (Mat R)} (hds : ∀ q < subbandsPerWT p, Fits p (s + 1) (ds.getD q default)) {c : R} (hc : ConstMat c m)
    (hz : ∀ q < subbandsPerWT p, ConstMat 0 (ds.getD q default)) :
    ConstMat (backOf p σ * c) (synthStep p (scaling k p) m ds) := by
  have ht := wavelet_of_steps hv hs
  have hp := parts_of_fits hm hds
  rw [synth_glue hv hf hs hm hds]
  intro i hi j hj
  have hi' : i < (glue p m ds).rows := hi
  have hj' : j < (glue p m ds).cols := hj
  rw [sepOp_get hi' hj']
  have hval : ∀ a < (glue p m ds).rows, ∀ b < (glue p m ds).cols, (glue p m ds).get a b =
      if a < lvlR p (s + 1) ∧ b < lvlC p (s + 1) then c else 0 := by
    intro a ha b hb'
    rcases glue_cases hp (dim_cases hv) ha hb' with ⟨h1, h2⟩ | ⟨q, hq, i', hi', j', hj', rfl, rfl⟩
    · rw [glue_low hp h1 h2, if_pos ⟨h1, h2⟩]
      exact hc a (by rw [hp.1]; exact h1) b (by rw [hp.2.1]; exact h2)
    · rw [glue_detail hp hq hi' hj', hz q hq i' (by rw [(hp.2.2.2 q hq).1]; exact hi') j' (by rw [(hp.2.2.2 q hq).2]; exact hj'),
        if_neg]
      unfold rOff cOff
      rcases dim_cases hv with hd | hd
      · simp [hd]
      · have : q < 3 := by simpa [subbandsPerWT, hd] using hq
        have : q = 0 ∨ q = 1 ∨ q = 2 := by omega
        rcases this with rfl | rfl | rfl <;> simp [hd]
  have e1 : ∀ a ∈ range (glue p m ds).rows, tr (kR p (scaling k p) (glue p m ds).rows) i a *
      ∑ b ∈ range (glue p m ds).cols, tr (kC p (scaling k p) (glue p m ds).cols) j b * (glue p m ds).get a b =
      (if a < lvlR p (s + 1) then tr (kR p (scaling k p) (glue p m ds).rows) i a else 0) *
      (∑ b ∈ range (glue p m ds).cols, if b < lvlC p (s + 1) then tr (kC p (scaling k p) (glue p m ds).cols) j b * c else 0) := by
    intro a ha
    by_cases h : a < lvlR p (s + 1)
    · rw [if_pos h]
      congr 1
      refine sum_congr rfl (fun b hb' => ?_)
      rw [hval a (mem_range.1 ha) b (mem_range.1 hb')]
      simp only [h, true_and]
      split_ifs <;> simp
    · rw [if_neg h, zero_mul, sum_eq_zero, mul_zero]
      intro b hb'
      rw [hval a (mem_range.1 ha) b (mem_range.1 hb'), if_neg (by tauto), mul_zero]
  rw [sum_congr rfl e1, ← sum_mul]
  have hsplit : ∀ (n r : ℕ) (F : ℕ → R), r ≤ n → ∑ a ∈ range n, (if a < r then F a else 0) = ∑ a ∈ range r, F a := by
    intro n r F hrn
    rw [← sum_filter]
    congr 1
    ext a
    simp only [mem_filter, mem_range]
    omega
  have hrr := glue_rows p m ds
  have hcc := glue_cols p hp
  rw [hsplit _ _ _ (by rw [hrr, hp.1]; omega), hsplit _ _ _ (by rw [hcc]; split_ifs <;> omega), ← sum_mul]
  rw [hrr, hp.1] at hi' ⊢
  rw [hcc] at hj' ⊢
  have hrow : ∑ a ∈ range (lvlR p (s + 1)), tr (kR p (scaling k p) (2 * lvlR p (s + 1))) i a = σ := by
    unfold tr kR
    rw [Nat.mul_div_cancel_left _ (by omega : 0 < 2)]
    exact trans_col_sum _ _ _ (by omega) hb hi'
  rw [hrow]
  unfold backOf
  by_cases hd : p.dimension = 1
  · rw [if_pos hd] at hj' ⊢
    rw [if_pos hd]
    have : lvlC p (s + 1) = 1 := by simp [lvlC, hd]
    rw [this] at hj' ⊢
    have : j = 0 := by omega
    subst this
    simp [tr, kC, hd, delta]
  · rw [if_neg hd] at hj' ⊢
    rw [if_neg hd]
    have hcol : ∑ a ∈ range (lvlC p (s + 1)), tr (kC p (scaling k p) (2 * lvlC p (s + 1))) j a = σ := by
      unfold tr kC
      rw [if_neg hd, Nat.mul_div_cancel_left _ (by omega : 0 < 2)]
      exact trans_col_sum _ _ _ (by omega) hb hj'
    rw [hcol, mul_assoc]

theorem const_chan {k : Kit R} {p : Params} (hv : ValidParams p) (hf : FilterLen k p) {σ : R}
    (hb : 0 < p.steps → BalancedTaps (scaling k p) p.wtype σ) (hσ : backOf p σ * gainOf p σ = 1) {m : Mat R} (hm : Fits p 0 m)
    {c : R} (hc : ConstMat c m) {ch : Channel R}
    (hch : ∀ s < p.steps, detailsAt p ch s = detailStep p (scaling k p) nullDenoiser s (sig p (scaling k p) m s))
    (n i : ℕ) (hi : i ≤ p.steps) (hn : n ≤ i) {x : Mat R} (fx : Fits p i x) (hx : ConstMat (gainOf p σ ^ i * c) x) :
    ConstMat (gainOf p σ ^ (i - n) * c) (reconFrom p (scaling k p) ch n i x) := by
  induction n generalizing i x with
  | zero => exact hx
  | succ n ih =>
    obtain ⟨j, rfl⟩ : ∃ j, i = j + 1 := ⟨i - 1, by omega⟩
    simp only [reconFrom, Nat.add_sub_cancel]
    have hs : j < p.steps := by omega
    have e : j + 1 - (n + 1) = j - n := by omega
    rw [e]
    refine ih j (by omega) (by omega) (fits_synth hv _ hs fx _) ?_
    rw [hch j hs]
    have fj := fits_sig (k := k) hv hm hs.le
    have h := const_synth hv hf (hb (by omega)) hs fx (fun q hq => detailStep_fits hv nullDenoiser_sized hs fj hq) hx
      (const_step hv hf (hb (by omega)) hs fj (const_sig hv hf hb hm hc hs.le)).2
    have e2 : backOf p σ * (gainOf p σ ^ (j + 1) * c) = gainOf p σ ^ j * c := by
      rw [pow_succ]
      calc backOf p σ * (gainOf p σ ^ j * gainOf p σ * c) = (backOf p σ * gainOf p σ) * (gainOf p σ ^ j * c) := by ring
        _ = _ := by rw [hσ, one_mul]
    rwa [e2] at h

/-- Even-shift orthonormality ties the sums of the two parities together. -/
theorem ortho_taps (h : List R) (t : ℕ) (hL : h.length = 2 * t) (ho : FB.Ortho t (fl h)) :
    taps h t 0 * taps h t 0 + taps h t 1 * taps h t 1 = 1 := by
  have h1 := FB.sum_corr_group t (fl h) (fun j hj => fl_zero h (by omega)) (fun _ => 1)
  rw [ho 0, if_pos rfl] at h1
  have h2 : ∑ s ∈ range t, FB.auto t (fl h) (s + 1) * ((1 : R) + 1) = 0 := by
    apply sum_eq_zero
    intro s _
    rw [ho (s + 1), if_neg (by omega), zero_mul]
  rw [h2] at h1
  simp only [mul_one, add_zero] at h1
  rw [← h1]
  unfold taps
  rw [sum_mul_sum, sum_mul_sum, ← sum_add_distrib]
  refine sum_congr rfl (fun a _ => ?_)
  rw [← sum_add_distrib]
  rfl

end Ring

end WB
