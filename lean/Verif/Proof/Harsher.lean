import Verif.Spec.Harsher
import Verif.Proof.Optimal
import Verif.Proof.Metrics
import Verif.Props.Optimal
import Verif.Props.Twice

/-! Comparing two denoisers subband by subband. -/

set_option linter.unusedSectionVars false

namespace WB

open Finset Spec Props

/-- The second result keeps no more than the first and is no closer. -/
def NoMore (m m' m0 : Mat ℝ) : Prop := SameSize m m0 ∧ SameSize m' m0 ∧ nonzeros m' ≤ nonzeros m ∧ sqDist m m0 ≤ sqDist m' m0

/-- Of denoisers, for subbands with at most `N` coefficients. -/
def NoMoreDen (p : Params) (N : ℕ) (den den' : Denoiser ℝ) : Prop :=
  ∀ s < p.steps, (∀ v : List ℝ, v.length ≤ N → NoMore (Mat.ofCol (den.d1 v s)) (Mat.ofCol (den'.d1 v s)) (Mat.ofCol v)) ∧
    ∀ m : Mat ℝ, m.rows * m.cols ≤ N → NoMore (den.d2 m s) (den'.d2 m s) m

theorem keepsLargest_fewer {data r r' : Mat ℝ} {c c' : ℕ} (h : KeepsLargest (fun x : ℝ => |x|) c data r)
    (h' : KeepsLargest (fun x : ℝ => |x|) c' data r') (hc : c' ≤ c) : NoMore r r' data := by
  classical
  have hn' := keepsLargest_nonzeros h'
  refine ⟨⟨h.rows, h.cols⟩, ⟨h'.rows, h'.cols⟩, ?_, keepsLargest_best h ⟨h'.rows, h'.cols⟩ (hn'.trans hc)⟩
  obtain ⟨hr, hcl, kept, hin, hcard, hval, hmax⟩ := h
  by_cases hz : ∃ q ∈ kept, data.get q.1 q.2 = 0
  · obtain ⟨q, hq, hq0⟩ := hz
    obtain ⟨hr', hcl', kept', hin', hcard', hval', hmax'⟩ := h'
    unfold nonzeros
    refine card_le_card fun t ht => ?_
    rw [mem_filter, mem_product, mem_range, mem_range] at ht ⊢
    rw [hr', hcl'] at ht
    have hd : data.get t.1 t.2 ≠ 0 := by
      intro h0
      apply ht.2
      rw [hval' _ ht.1.1 _ ht.1.2, h0, ite_self]
    refine ⟨by rw [hr, hcl]; exact ht.1, ?_⟩
    rw [hval _ ht.1.1 _ ht.1.2, if_pos]
    · exact hd
    · by_contra hnk
      have := hmax q hq _ ht.1.1 _ ht.1.2 hnk
      rw [hq0, abs_zero] at this
      exact this (abs_pos.2 hd)
  · push Not at hz
    refine hn'.trans (hc.trans ?_)
    rw [← hcard]
    unfold nonzeros
    refine card_le_card fun t ht => ?_
    have hb := hin t ht
    rw [mem_filter, mem_product, mem_range, mem_range]
    refine ⟨by rw [hr, hcl]; exact hb, ?_⟩
    rw [hval _ hb.1 _ hb.2, if_pos ht]
    exact hz t ht

theorem thresholds_fewer {t t' : ℝ} (h : t ≤ t') (m : Mat ℝ) :
    NoMore (m.map fun x => if t < |x| then x else 0) (m.map fun x => if t' < |x| then x else 0) m := by
  classical
  refine ⟨⟨rfl, rfl⟩, ⟨rfl, rfl⟩, ?_, ?_⟩
  · unfold nonzeros
    refine card_le_card fun q hq => ?_
    rw [mem_filter, mem_product, mem_range, mem_range] at hq ⊢
    simp only [Mat.rows_map, Mat.cols_map] at hq ⊢
    refine ⟨hq.1, ?_⟩
    have h2 := hq.2
    rw [Mat.get_map _ _ hq.1.1 hq.1.2] at h2 ⊢
    split_ifs at h2 with hlt
    · rw [if_pos (lt_of_le_of_lt h hlt)]; exact h2
    · exact absurd rfl h2
  · rw [sqDist_prod, sqDist_prod]
    simp only [Mat.rows_map, Mat.cols_map]
    refine sum_le_sum fun q hq => ?_
    rw [mem_product, mem_range, mem_range] at hq
    rw [Mat.get_map _ _ hq.1 hq.2, Mat.get_map _ _ hq.1 hq.2]
    by_cases h1 : t < |m.get q.1 q.2|
    · rw [if_pos h1, sub_self, zero_pow two_ne_zero]; exact sq_nonneg _
    · rw [if_neg h1, if_neg fun h2 => h1 (lt_of_le_of_lt h h2)]

theorem threshold_noMore {p : Params} (N : ℕ) {a c a' c' : ℝ} (h : ∀ s < p.steps, a * s + c ≤ a' * s + c') :
    NoMoreDen p N (thresholdDenoiser (fun x => |x|) a c) (thresholdDenoiser (fun x => |x|) a' c') := by
  intro s hs
  refine ⟨fun v _ => ?_, fun m _ => thresholds_fewer (h s hs) m⟩
  have key := thresholds_fewer (h s hs) (Mat.ofCol v)
  have e : ∀ t : ℝ, (Mat.ofCol v).map (fun x => if t < |x| then x else 0) = Mat.ofCol (v.map fun x => if t < |x| then x else 0) := by
    intro t
    rw [Mat.eq_iff]
    exact ⟨by simp, rfl, rfl⟩
  rw [e, e] at key
  exact key

theorem simple_noMore {ext : SimpleExt ℝ} (ha : ExactCast ext) (hnth : NthOk ext) {level level' : ℝ} (h0 : 0 ≤ level) (hl : level ≤ level')
    (h1 : level' ≤ 1) {den den' : Denoiser ℝ} (hden : IsSimple ext level den) (hden' : IsSimple ext level' den') {p : Params} {N : ℕ}
    (hN : N < 2 ^ 64) : NoMoreDen p N den den' := by
  have habs : ext.abs = fun x => |x| := funext ha.1
  have count : ∀ n : ℕ, n - min ⌊(n : ℝ) * level'⌋₊ (n - 1) ≤ n - min ⌊(n : ℝ) * level⌋₊ (n - 1) := by
    intro n
    have : ⌊(n : ℝ) * level⌋₊ ≤ ⌊(n : ℝ) * level'⌋₊ := Nat.floor_le_floor (mul_le_mul_of_nonneg_left hl (Nat.cast_nonneg n))
    omega
  intro s _
  constructor
  · intro v hv
    have hv : v.length < 2 ^ 64 := hv.trans_lt hN
    obtain ⟨r, hr, hk⟩ := simple1_ok ext level v _ (cut_ok ha h0 (hl.trans h1) hv).1 hnth.1
    obtain ⟨r', hr', hk'⟩ := simple1_ok ext level' v _ (cut_ok ha (h0.trans hl) h1 hv).1 hnth.1
    rw [hden.2.1 v s r hv hr, hden'.2.1 v s r' hv hr']
    rw [habs] at hk hk'
    exact keepsLargest_fewer hk hk' (count _)
  · intro m hm
    have hm : m.rows * m.cols < 2 ^ 64 := hm.trans_lt hN
    obtain ⟨r, hr, hk⟩ := simple2_ok ext level m _ (cut_ok ha h0 (hl.trans h1) hm).1 hnth.2
    obtain ⟨r', hr', hk'⟩ := simple2_ok ext level' m _ (cut_ok ha (h0.trans hl) h1 hm).1 hnth.2
    rw [hden.2.2 m s r hm hr, hden'.2.2 m s r' hm hr']
    rw [habs] at hk hk'
    exact keepsLargest_fewer hk hk' (count _)

/-- In the subbands of a step. -/
theorem detail_noMore {k : Kit ℝ} {p : Params} (hv : ValidParams p) {den den' : Denoiser ℝ}
    (h : NoMoreDen p (p.shape.map (paddedSide p)).prod den den') {x : Mat ℝ} (hx : Shaped p x) {s q : ℕ} (hs : s < p.steps)
    (hq : q < subbandsPerWT p) :
    NoMore ((detailStep p (scaling k p) den s (sig p (scaling k p) (padOf p x) s)).getD q default)
      ((detailStep p (scaling k p) den' s (sig p (scaling k p) (padOf p x) s)).getD q default)
      ((detailStep p (scaling k p) nullDenoiser s (sig p (scaling k p) (padOf p x) s)).getD q default) := by
  have f0 := detailStep_fits (k := k) hv nullDenoiser_sized hs (fits_sig (k := k) hv (fits_padOf hv hx) hs.le) hq
  have hle := level_le hv (show s + 1 ≤ p.steps by omega)
  rw [← show Mat.rows _ = lvlR p (s + 1) from f0.1, ← show Mat.cols _ = lvlC p (s + 1) from f0.2] at hle
  revert hle
  unfold detailStep
  split_ifs with hdim
  · have hj0 : q = 0 := by rw [subbandsPerWT, if_pos hdim] at hq; omega
    subst hj0
    simp only [List.getD_cons_zero, nullDenoiser, Mat.rows_ofCol, Mat.cols_ofCol, Nat.mul_one]
    exact fun hle => (h s hs).1 _ hle
  · have hj3 : q < 3 := by rw [subbandsPerWT, if_neg hdim] at hq; omega
    rcases (by omega : q = 0 ∨ q = 1 ∨ q = 2) with rfl | rfl | rfl <;> exact fun hle => (h s hs).2 _ hle

theorem channel_noMore {k : Kit ℝ} {p : Params} (hv : ValidParams p) {den den' : Denoiser ℝ}
    (h : NoMoreDen p (p.shape.map (paddedSide p)).prod den den') {x : Mat ℝ} (hx : Shaped p x) :
    (List.zipWith sqDist (chanP p (scaling k p) den x) (chanP p (scaling k p) nullDenoiser x)).sum ≤
      (List.zipWith sqDist (chanP p (scaling k p) den' x) (chanP p (scaling k p) nullDenoiser x)).sum := by
  have key := best_channel (k := k) (p := p) (den := den) (x := x) (fun _ => 0) (c2 := chanP p (scaling k p) den' x) (chanP_length _ _ _ _) ?_
  · unfold price at key
    simpa using key
  intro s hs q hq
  rw [chanP_detail p _ _ _ hs hq]
  simpa using (detail_noMore (k := k) hv h hx hs hq).2.2.2

theorem sized_forall2 {p : Params} {c c' : List (Mat ℝ)} (h : SizedChan p c) (h' : SizedChan p c') : List.Forall₂ SameSize c c' := by
  refine List.forall₂_iff_get.2 ⟨h.1.trans h'.1.symm, ?_⟩
  intro i h1 h2
  have e3 : decompositionSize p = p.steps * subbandsPerWT p + 1 := by unfold decompositionSize; ring
  have hi : i < p.steps * subbandsPerWT p + 1 := by rw [← e3, ← h.1]; exact h1
  have g : ∀ (l : List (Mat ℝ)) (hl : i < l.length), l.get ⟨i, hl⟩ = l.getD i default := by
    intro l hl; simp [List.getD, List.getElem?_eq_getElem hl]
  rw [g c h1, g c' h2]
  have hpos : 0 < subbandsPerWT p := by unfold subbandsPerWT; split_ifs <;> omega
  rcases Nat.lt_succ_iff_lt_or_eq.1 hi with hlt | rfl
  · have hs : i / subbandsPerWT p < p.steps := Nat.div_lt_of_lt_mul (by rw [Nat.mul_comm]; exact hlt)
    have hq := Nat.mod_lt i hpos
    have e : i / subbandsPerWT p * subbandsPerWT p + i % subbandsPerWT p = i := Nat.div_add_mod' i _
    have f := h.2.1 _ hs _ hq
    have f' := h'.2.1 _ hs _ hq
    rw [e] at f f'
    exact ⟨f.1.trans f'.1.symm, f.2.trans f'.2.symm⟩
  · exact ⟨h.2.2.1.trans h'.2.2.1.symm, h.2.2.2.trans h'.2.2.2.symm⟩

theorem forall2_map_map {γ δ : Type} {R : δ → δ → Prop} (f g : γ → δ) : ∀ l : List γ, (∀ x ∈ l, R (f x) (g x)) → List.Forall₂ R (l.map f) (l.map g)
  | [], _ => .nil
  | x :: l, h => .cons (h x (by simp)) (forall2_map_map f g l fun y hy => h y (by simp [hy]))

theorem keepsNoMore {k : Kit ℝ} {b : Buffer ℝ} (hb : WellFormed b) (hk : FilterPresent k b.params) (hcs : CountableSamples b.params)
    {data : List (Mat ℝ)} (hd : IsSignal b.params data) {den den' : Denoiser ℝ} (hden : KeepsSizes den) (hden' : KeepsSizes den')
    (h : NoMoreDen b.params (b.params.shape.map (paddedSide b.params)).prod den den') : KeepsNoMore k b data den den' := by
  have hv := hb.1
  have hch := hcs.1
  have sz : ∀ (dn : Denoiser ℝ), KeepsSizes dn → ∀ e ∈ data.map (chanP b.params (scaling k b.params) dn), SizedChan b.params e := by
    intro dn hdn e he
    obtain ⟨x, h1, rfl⟩ := List.mem_map.1 he
    exact chanP_sized hv hdn (shaped_of (hd.2 x h1))
  have form : ∀ (dn : Denoiser ℝ), KeepsSizes dn → SameForm ⟨b.params, data.map (chanP b.params (scaling k b.params) dn)⟩
      ⟨b.params, data.map (chanP b.params (scaling k b.params) nullDenoiser)⟩ := by
    intro dn hdn
    refine ⟨rfl, rfl, forall2_map_map _ _ _ fun x hx => ?_⟩
    have sx := shaped_of (hd.2 x hx)
    exact sized_forall2 (chanP_sized hv hdn sx) (chanP_sized hv nullDenoiser_sized sx)
  refine ⟨_, _, _, _, _, _, _, decompose_ok hb hk hch hd (fun _ => nullDenoiser_sized), decompose_ok hb hk hch hd (fun _ => hden),
    decompose_ok hb hk hch hd (fun _ => hden'),
    compose_ok (b := Buffer.mk b.params (data.map (chanP b.params (scaling k b.params) den))) hv (by simp [hd.1]) hk (sz den hden) (Nat.zero_le _),
    compose_ok (b := Buffer.mk b.params (data.map (chanP b.params (scaling k b.params) den'))) hv (by simp [hd.1]) hk (sz den' hden') (Nat.zero_le _),
    by simp, by simp, by simp, by simp, ?_, distance_ok (form den hden) rfl hcs, distance_ok (form den' hden') rfl hcs, ?_, ?_⟩
  · intro ch e e' he he'
    rw [List.getElem?_map] at he he'
    obtain ⟨x, hx, rfl⟩ := Option.map_eq_some_iff.1 he
    rw [hx] at he'
    simp only [Option.map_some, Option.some.injEq] at he'
    subst he'
    have sx := shaped_of (hd.2 x (List.mem_of_getElem? hx))
    refine ⟨chanP_length _ _ _ _, chanP_length _ _ _ _, by simp [chanP], ?_⟩
    intro s hs q hq m m' hm hm'
    have e1 : (chanP b.params (scaling k b.params) den x).getD (s * subbandsPerWT b.params + q) default = m := by
      rw [List.getD, subbandsPerWT_eq, hm]; rfl
    have e2 : (chanP b.params (scaling k b.params) den' x).getD (s * subbandsPerWT b.params + q) default = m' := by
      rw [List.getD, subbandsPerWT_eq, hm']; rfl
    rw [chanP_detail _ _ _ _ hs hq] at e1 e2
    obtain ⟨n1, n2, n3, -⟩ := detail_noMore (k := k) hv h sx hs hq
    rw [e1] at n1 n3
    rw [e2] at n2 n3
    exact ⟨⟨n1.1.trans n2.1.symm, n1.2.trans n2.2.symm⟩, n3⟩
  · refine div_le_div_of_nonneg_right ?_ (by positivity)
    unfold sqDistAll
    simp only [List.zipWith_map, List.zipWith_self]
    apply List.sum_le_sum
    intro x hx
    exact channel_noMore hv h (shaped_of (hd.2 x hx))
  · intro ho hdvd n x z z' hx hz hz'
    have hok : OrthoKit k b.params := fun ht => ortho_of hk (ho ht) ht
    simp only [List.getElem?_map, hx, Option.map_some, Option.some.injEq] at hz hz'
    subst hz hz'
    have sx := shaped_of (hd.2 x (List.mem_of_getElem? hx))
    rw [composed_dist hv hk hok hdvd (chanP_sized hv hden sx) sx, composed_dist hv hk hok hdvd (chanP_sized hv hden' sx) sx]
    exact channel_noMore hv h sx

end WB
