import Verif.Props.Structure
import Mathlib.LinearAlgebra.Matrix.NonsingularInverse

/-! Analysis after synthesis. -/

set_option linter.unusedSectionVars false

namespace WB

open Finset Spec Props

section Ring
variable {R : Type} [CommRing R] [Inhabited R]

/-- The rows of an orthogonal matrix are orthonormal too. -/
theorem orthoK_rows {n : ℕ} {K : ℕ → ℕ → R} (h : OrthoK n K) {i j : ℕ} (hi : i < n) (hj : j < n) :
    ∑ a ∈ range n, K i a * K j a = if i = j then 1 else 0 := by
  let M : Matrix (Fin n) (Fin n) R := fun a b => K a b
  have h1 : M.transpose * M = 1 := by
    ext a b
    rw [Matrix.mul_apply, Matrix.one_apply]
    have := h a a.2 b b.2
    rw [← Fin.sum_univ_eq_sum_range (fun i => K i a * K i b)] at this
    refine this.trans ?_
    simp [Fin.ext_iff]
  have h2 : M * M.transpose = 1 := mul_eq_one_comm.1 h1
  have h3 := congrFun (congrFun h2 ⟨i, hi⟩) ⟨j, hj⟩
  rw [Matrix.mul_apply, Matrix.one_apply] at h3
  simp only [Fin.mk.injEq] at h3
  rw [← h3, ← Fin.sum_univ_eq_sum_range (fun a => K i a * K j a)]
  rfl

theorem kernel_back {n : ℕ} {K : ℕ → ℕ → R} (h : OrthoK n K) {i : ℕ} (hi : i < n) (v : ℕ → R) :
    ∑ a ∈ range n, K i a * ∑ c ∈ range n, K c a * v c = v i := by
  simp_rw [mul_sum]
  rw [sum_comm]
  have e : ∀ c ∈ range n, ∑ a ∈ range n, K i a * (K c a * v c) = if i = c then v c else 0 := by
    intro c hc
    have := orthoK_rows h hi (mem_range.1 hc)
    calc _ = (∑ a ∈ range n, K i a * K c a) * v c := by rw [sum_mul]; exact sum_congr rfl fun a _ => by ring
      _ = _ := by rw [this]; split_ifs <;> simp
  rw [sum_congr rfl e, sum_ite_eq, if_pos (mem_range.2 hi)]

theorem sepOp_back {KH KW : ℕ → ℕ → R} {x : Mat R} (hH : OrthoK x.rows KH) (hW : OrthoK x.cols KW) :
    sepOp KH KW (sepOp (tr KH) (tr KW) x) = x := by
  refine Mat.ext' rfl rfl ?_
  intro i hi j hj
  have hi : i < x.rows := hi
  have hj : j < x.cols := hj
  rw [sepOp_get (by exact hi) (by exact hj)]
  have e : ∀ a ∈ range x.rows, ∑ b ∈ range x.cols, KW j b * (sepOp (tr KH) (tr KW) x).get a b =
      ∑ c ∈ range x.rows, KH c a * x.get c j := by
    intro a ha
    have e1 : ∀ b ∈ range x.cols, KW j b * (sepOp (tr KH) (tr KW) x).get a b =
        ∑ c ∈ range x.rows, KH c a * (KW j b * ∑ d ∈ range x.cols, KW d b * x.get c d) := by
      intro b hb
      rw [sepOp_get (mem_range.1 ha) (mem_range.1 hb), mul_sum]
      exact sum_congr rfl fun c _ => by simp only [tr]; ring
    rw [sum_congr rfl e1, sum_comm]
    refine sum_congr rfl fun c _ => ?_
    rw [← mul_sum, kernel_back hW hj]
  have e' : (sepOp (tr KH) (tr KW) x).rows = x.rows := rfl
  have e'' : (sepOp (tr KH) (tr KW) x).cols = x.cols := rfl
  rw [e', e'', sum_congr rfl fun a ha => by rw [e a ha]]
  exact kernel_back hH hi fun c => x.get c j

theorem step_ortho {k : Kit R} {p : Params} (hv : ValidParams p) (hf : FilterLen k p) (ho : OrthoKit k p) {s : ℕ}
    (hs : s < p.steps) {m : Mat R} (hm : Fits p s m) :
    OrthoK m.rows (kR p (scaling k p) m.rows) ∧ OrthoK m.cols (kC p (scaling k p) m.cols) := by
  have ht := wavelet_of_steps hv hs
  have hL := length_scaling hf ht
  constructor
  · unfold kR
    rcases fits_halves hv ht hs hm with ⟨hd, n2, h1, h2, h3, h4⟩ | ⟨hd, sh, sw, h1, h2, h3, h4, h5, h6, _⟩ <;>
    · rw [h1, Nat.mul_div_cancel_left _ (by omega : 0 < 2)]
      intro a ha b hb
      exact trans_ortho _ _ _ hL (ho ht) (by omega) a b ha hb
  · unfold kC
    rcases fits_halves hv ht hs hm with ⟨hd, n2, h1, h2, h3, h4⟩ | ⟨hd, sh, sw, h1, h2, h3, h4, h5, h6, _⟩
    · rw [if_pos hd]; exact orthoK_delta _
    · rw [if_neg (by omega), h2, Nat.mul_div_cancel_left _ (by omega : 0 < 2)]
      intro a ha b hb
      exact trans_ortho _ _ _ hL (ho ht) (by omega) a b ha hb

theorem analysis_synth_step {k : Kit R} {p : Params} (hv : ValidParams p) (hf : FilterLen k p) (ho : OrthoKit k p) {s : ℕ}
    (hs : s < p.steps) {m : Mat R} (hm : Fits p (s + 1) m) {ds : List (Mat R)}
    (hds : ∀ j < subbandsPerWT p, Fits p (s + 1) (ds.getD j default)) :
    approxStep p (scaling k p) (synthStep p (scaling k p) m ds) = m ∧
    ∀ q < subbandsPerWT p, (detailStep p (scaling k p) nullDenoiser s (synthStep p (scaling k p) m ds)).getD q default =
      ds.getD q default := by
  have hy := fits_synth hv (scaling k p) hs hm ds
  have pa := analysis_parts (k := k) hv hs hy
  have pd := parts_of_fits hm hds
  have eq : glue p (approxStep p (scaling k p) (synthStep p (scaling k p) m ds))
      (detailStep p (scaling k p) nullDenoiser s (synthStep p (scaling k p) m ds)) = glue p m ds := by
    rw [glue_analysis hv hf hs hy]
    have e := synth_glue hv hf hs hm hds
    obtain ⟨o1, o2⟩ := step_ortho hv hf ho hs hy
    unfold fullStep
    have er : (synthStep p (scaling k p) m ds).rows = (glue p m ds).rows := by rw [e]; rfl
    have ec : (synthStep p (scaling k p) m ds).cols = (glue p m ds).cols := by rw [e]; rfl
    rw [er] at o1 ⊢
    rw [ec] at o2 ⊢
    rw [e]
    exact sepOp_back o1 o2
  constructor
  · refine Mat.ext' (pa.1.trans pd.1.symm) (pa.2.1.trans pd.2.1.symm) ?_
    intro i hi j hj
    rw [pa.1] at hi
    rw [pa.2.1] at hj
    rw [← glue_low pa hi hj, ← glue_low pd hi hj, eq]
  · intro q hq
    obtain ⟨a1, a2⟩ := pa.2.2.2 q hq
    obtain ⟨b1, b2⟩ := pd.2.2.2 q hq
    refine Mat.ext' (a1.trans b1.symm) (a2.trans b2.symm) ?_
    intro i hi j hj
    rw [a1] at hi
    rw [a2] at hj
    rw [← glue_detail pa hq hi hj, ← glue_detail pd hq hi hj, eq]

theorem reconFrom_succ (p : Params) (h : List R) (c : Channel R) (n i : ℕ) (m : Mat R) :
    reconFrom p h c (n + 1) i m = synthStep p h (reconFrom p h c n i m) (detailsAt p c (i - n - 1)) := by
  induction n generalizing i m with
  | zero => rfl
  | succ n ih =>
    rw [reconFrom, ih, reconFrom]
    congr 2
    omega

theorem reconP_step {p : Params} {h : List R} {c : Channel R} {s : ℕ} (hs : s < p.steps) :
    reconP p h s c = synthStep p h (reconP p h (s + 1) c) (detailsAt p c s) := by
  unfold reconP
  rw [show p.steps - s = (p.steps - (s + 1)) + 1 by omega, reconFrom_succ]
  congr 2
  omega

theorem detailsAt_fits {p : Params} {c : Channel R} (hc : SizedChan p c) {s : ℕ} (hs : s < p.steps) :
    ∀ j < subbandsPerWT p, Fits p (s + 1) ((detailsAt p c s).getD j default) := by
  intro j hj
  rw [detailsAt_getD p c s hj]
  exact hc.2.1 s hs j hj

theorem reconP_fits {p : Params} (hv : ValidParams p) {h : List R} {c : Channel R} (hc : SizedChan p c) {s : ℕ} (hs : s ≤ p.steps) :
    Fits p s (reconP p h s c) := by
  induction hn : p.steps - s generalizing s with
  | zero =>
    obtain rfl : s = p.steps := by omega
    unfold reconP
    rw [Nat.sub_self, reconFrom]
    exact hc.2.2
  | succ n ih =>
    rw [reconP_step (by omega)]
    exact fits_synth hv h (by omega) (ih (s := s + 1) (by omega) (by omega)) _

theorem sig_reconP {k : Kit R} {p : Params} (hv : ValidParams p) (hf : FilterLen k p) (ho : OrthoKit k p) {c : Channel R}
    (hc : SizedChan p c) {s : ℕ} (hs : s ≤ p.steps) :
    sig p (scaling k p) (reconP p (scaling k p) 0 c) s = reconP p (scaling k p) s c := by
  induction s with
  | zero => rfl
  | succ s ih =>
    rw [sig, ih (by omega), reconP_step (s := s) (by omega)]
    exact (analysis_synth_step hv hf ho (by omega) (reconP_fits hv hc hs) (detailsAt_fits hc (by omega))).1

theorem crop_nothing {p : Params} (hv : ValidParams p) {m : Mat R} (hm : Shaped p m) (hdvd : ∀ n ∈ p.shape, 2 ^ p.steps ∣ n) :
    cropOf p 0 m = m := by
  have := cropOf_padOf hv hm
  rwa [padOf_self hv hm hdvd] at this

theorem shaped_fits {p : Params} (hv : ValidParams p) (hdvd : ∀ n ∈ p.shape, 2 ^ p.steps ∣ n) {m : Mat R} (hm : Fits p 0 m) :
    Shaped p m := by
  have e : paddedShape p = p.shape := by
    rw [← paddedShape_spec hv]
    conv_rhs => rw [← List.map_id p.shape]
    apply List.map_congr_left
    intro n hn
    unfold paddedSide
    split_ifs
    · rfl
    · obtain ⟨c, rfl⟩ := hdvd n hn
      have h2 : 0 < 2 ^ p.steps := by positivity
      have : (2 ^ p.steps * c + 2 ^ p.steps - 1) / 2 ^ p.steps = c := by
        rw [Nat.add_sub_assoc h2, Nat.mul_add_div h2, Nat.div_eq_of_lt (by omega)]; rfl
      rw [this, Nat.mul_comm]; rfl
  unfold Fits at hm
  rw [e, pow_zero, Nat.div_one, Nat.div_one] at hm
  refine ⟨hm.1, hm.2.trans ?_⟩
  rcases shape_cases hv with ⟨n, hsh, hd1⟩ | ⟨w, h, hsh, hd2⟩
  · rw [if_pos hd1, hsh]; rfl
  · rw [if_neg (by omega)]

/-- Composing a channel and decomposing it again. -/
theorem chanP_outP {k : Kit R} {p : Params} (hv : ValidParams p) (hf : FilterLen k p) (ho : OrthoKit k p)
    (hdvd : ∀ n ∈ p.shape, 2 ^ p.steps ∣ n) {c : Channel R} (hc : SizedChan p c) :
    Shaped p (outP k p 0 c) ∧ chanP p (scaling k p) nullDenoiser (outP k p 0 c) = c := by
  have hs := shaped_fits hv hdvd (reconP_fits (h := scaling k p) hv hc (Nat.zero_le _))
  have e : outP k p 0 c = reconP p (scaling k p) 0 c := by
    unfold outP finishP
    rw [if_neg (by omega), crop_nothing hv hs hdvd]
  rw [e]
  refine ⟨hs, ?_⟩
  apply List.ext_getElem
  · rw [chanP_length, hc.1]
  · intro n h1 h2
    have g : ∀ (l : List (Mat R)) (h : n < l.length), l[n] = l.getD n default := fun l h => by simp [List.getD, h]
    rw [g _ h1, g _ h2]
    rw [hc.1] at h2
    rcases sub_cases p h2 with rfl | ⟨s, hss, q, hq, rfl⟩
    rotate_left
    · rw [chanP_detail _ _ _ _ hss hq, padOf_self hv hs hdvd, sig_reconP hv hf ho hc hss.le, reconP_step hss,
        (analysis_synth_step hv hf ho hss (reconP_fits hv hc hss) (detailsAt_fits hc hss)).2 q hq, detailsAt_getD p c s hq]
    · rw [chanP_last, padOf_self hv hs hdvd, sig_reconP hv hf ho hc le_rfl]
      unfold reconP
      rw [Nat.sub_self, reconFrom]

end Ring

end WB
