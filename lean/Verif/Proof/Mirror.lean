import Verif.Spec.Mirror
import Verif.Props.Structure
import Verif.Proof.Twice
import Verif.Props.Local
import Verif.Model.Denoise

/-!
A step of a transform with the filter `[c, c]` on a mirrored signal.
-/

set_option linter.unusedSectionVars false

namespace WB.Props

open Finset Spec

section Ring
variable {R : Type} [CommRing R] [Inhabited R]

/-- The sign of a filter under reversal. -/
def sgn (b : Bool) : R := if b then -1 else 1

theorem mirror_get (v h : Bool) {m : Mat R} {i j : ℕ} (hi : i < m.rows) (hj : j < m.cols) :
    (mirror v h m).get i j = m.get (if v then m.rows - 1 - i else i) (if h then m.cols - 1 - j else j) := by
  unfold mirror
  rw [Mat.get_ofFn hi hj]

theorem signed_get (b : Bool) {m : Mat R} {i j : ℕ} (hi : i < m.rows) (hj : j < m.cols) : (signed b m).get i j = sgn b * m.get i j := by
  unfold signed sgn
  rw [Mat.get_ofFn hi hj]
  cases b <;> simp

theorem signed_false (m : Mat R) : signed false m = m := by
  refine Mat.ext' rfl rfl fun i hi j hj => ?_
  rw [signed_get _ (by simpa [signed] using hi) (by simpa [signed] using hj)]
  simp [sgn]

/-- The two taps of the filters. -/
theorem taps (c : R) (b : Bool) : fl (subf [c, c] b) 0 = c ∧ fl (subf [c, c] b) 1 = sgn b * c := by
  cases b <;> simp [subf, fl, qmf, sgn]

theorem sum_pair (c : R) (b v : Bool) {n i : ℕ} (hi : i < n) (x : ℕ → R) :
    ∑ u ∈ range 2, fl (subf [c, c] b) u * x (if v then 2 * n - 1 - (2 * i + u) else 2 * i + u) =
      sgn (v && b) * ∑ u ∈ range 2, fl (subf [c, c] b) u * x (2 * (if v then n - 1 - i else i) + u) := by
  simp only [sum_range_succ, sum_range_zero, (taps c b).1, (taps c b).2]
  cases v
  · simp [sgn]
  · have e1 : 2 * n - 1 - (2 * i + 0) = 2 * (n - 1 - i) + 1 := by omega
    have e2 : 2 * n - 1 - (2 * i + 1) = 2 * (n - 1 - i) + 0 := by omega
    simp only [if_true, e1, e2, Bool.true_and]
    cases b
    · simp [sgn]; ring
    · simp [sgn]

theorem stepSub_mirror {p : Params} (hw : p.wtype = 1) (c : R) {m : Mat R} (he : Halves p m) (rb cb v h : Bool) :
    stepSub p [c, c] rb cb (mirror v h m) = signed ((v && rb) != (h && cb && !(p.dimension == 1))) (mirror v h (stepSub p [c, c] rb cb m)) := by
  obtain ⟨⟨r0, r1⟩, hc⟩ := he
  refine Mat.ext' rfl rfl ?_
  intro i hi j hj
  have hi' : i < m.rows / 2 := hi
  have hj' : j < (if p.dimension = 1 then 1 else m.cols / 2) := hj
  have hvi : (if v then m.rows / 2 - 1 - i else i) < m.rows / 2 := by split <;> omega
  have hvj : (if h then (if p.dimension = 1 then 1 else m.cols / 2) - 1 - j else j) < (if p.dimension = 1 then 1 else m.cols / 2) := by split <;> omega
  rw [signed_get (m := mirror v h (stepSub p [c, c] rb cb m)) _ hi hj, mirror_get (m := stepSub p [c, c] rb cb m) _ _ hi hj]
  unfold stepSub
  have er : (mirror v h m).rows = m.rows := rfl
  have ec : (mirror v h m).cols = m.cols := rfl
  simp only [Mat.rows_ofFn, Mat.cols_ofFn, er, ec]
  rw [Mat.get_ofFn hi' hj', Mat.get_ofFn hvi hvj, hw, mul_one]
  by_cases hd : p.dimension = 1
  · simp only [hd, if_true] at hc hj' ⊢
    obtain rfl : j = 0 := by omega
    simp only [tapsC, tapC, hd, if_true, sum_range_one, one_mul, hc, Nat.mod_one]
    have l : ∀ u ∈ range 2, fl (subf [c, c] rb) u * (mirror v h m).get ((2 * i + u) % m.rows) 0 =
        fl (subf [c, c] rb) u * m.get (if v then 2 * (m.rows / 2) - 1 - (2 * i + u) else 2 * i + u) 0 := by
      intro u hu
      rw [mem_range] at hu
      rw [Nat.mod_eq_of_lt (by omega), mirror_get _ _ (by omega) (by omega), hc, ← r1]
      simp
    rw [sum_congr rfl l, sum_pair c rb v hi' fun r => m.get r 0]
    have e : ((v && rb) != (h && cb && !(1 == 1))) = (v && rb) := by simp
    rw [e]
    congr 1
    refine sum_congr rfl fun u hu => ?_
    rw [mem_range] at hu
    rw [Nat.mod_eq_of_lt (by omega)]
  · simp only [hd, if_false] at hc hj' hvj ⊢
    simp only [tapsC, tapC, hd, if_false, hw, mul_one]
    have l : ∀ u ∈ range 2, fl (subf [c, c] rb) u * ∑ w ∈ range 2, fl (subf [c, c] cb) w * (mirror v h m).get ((2 * i + u) % m.rows) ((2 * j + w) % m.cols) =
        fl (subf [c, c] rb) u * (sgn (h && cb) * ∑ w ∈ range 2, fl (subf [c, c] cb) w *
          m.get (if v then 2 * (m.rows / 2) - 1 - (2 * i + u) else 2 * i + u) (2 * (if h then m.cols / 2 - 1 - j else j) + w)) := by
      intro u hu
      rw [mem_range] at hu
      congr 1
      rw [← sum_pair c cb h hj' fun q => m.get (if v then 2 * (m.rows / 2) - 1 - (2 * i + u) else 2 * i + u) q]
      refine sum_congr rfl fun w hw' => ?_
      rw [mem_range] at hw'
      rw [Nat.mod_eq_of_lt (by omega), Nat.mod_eq_of_lt (by omega), mirror_get _ _ (by omega) (by omega), ← r1, ← hc.2]
    rw [sum_congr rfl l, sum_pair c rb v hi' fun r => sgn (h && cb) * ∑ w ∈ range 2, fl (subf [c, c] cb) w * m.get r (2 * (if h then m.cols / 2 - 1 - j else j) + w)]
    have e : ((v && rb) != (h && cb && !(p.dimension == 1))) = ((v && rb) != (h && cb)) := by simp [hd]
    rw [e]
    have s : ∀ a b : Bool, (sgn (a != b) : R) = sgn a * sgn b := by intro a b; cases a <;> cases b <;> simp [sgn]
    rw [s, mul_assoc, mul_sum (a := sgn (h && cb))]
    congr 1
    refine sum_congr rfl fun u hu => ?_
    rw [mem_range] at hu
    rw [Nat.mod_eq_of_lt (show 2 * (if v then m.rows / 2 - 1 - i else i) + u < m.rows by omega), mul_left_comm]
    congr 2
    refine sum_congr rfl fun w hw' => ?_
    rw [mem_range] at hw'
    rw [Nat.mod_eq_of_lt (show 2 * (if h then m.cols / 2 - 1 - j else j) + w < m.cols by omega)]

theorem sig_mirror {k : Kit R} {p : Params} (hv : ValidParams p) (hf : FilterLen k p) (hw : p.wtype = 1) {c : R} (hc : scaling k p = [c, c]) {m : Mat R} (hm : Fits p 0 m)
    (v h : Bool) {s : ℕ} (hs : s ≤ p.steps) : sig p (scaling k p) (mirror v h m) s = mirror v h (sig p (scaling k p) m s) := by
  induction s with
  | zero => rfl
  | succ s ih =>
    have hm' : Fits p 0 (mirror v h m) := hm
    rw [sig_sub hv hf hm' (by omega), ih (by omega), sig_sub hv hf hm (by omega), hc,
      stepSub_mirror hw c (by rw [← hc]; exact halves_of_fits hv (by omega) (fits_sig hv hm (by omega)))]
    simp [signed_false]

/-- The padding of an even side is symmetric. -/
theorem clamp_mirror {n N i : ℕ} (hn : 0 < n) (hN : n ≤ N) (he : 2 ∣ N - n) (_hi : i < N) (v : Bool) :
    (if v then n - 1 - clampIdx (padOffset .both N n) n i else clampIdx (padOffset .both N n) n i) =
      clampIdx (padOffset .both N n) n (if v then N - 1 - i else i) := by
  unfold clampIdx padOffset
  cases v
  · rfl
  · simp only [if_true, reduceCtorEq, if_false]
    omega

theorem centred_sides {p : Params} (hv : ValidParams p) {s : ℕ} {v h : Bool} (hc : Centred p s v h) {m : Mat R} (hm : Fits p s m) :
    (v = true → 2 ∣ m.rows - matRows (p.shape.map (· / 2 ^ s))) ∧ (h = true → 2 ∣ m.cols - matCols (p.shape.map (· / 2 ^ s))) := by
  obtain ⟨e1, e2⟩ := fits_sides hv hm
  rw [e1, e2]
  unfold levelSides
  unfold Centred at hc
  rcases shape_cases hv with ⟨n, hsh, hd⟩ | ⟨a, b, hsh, hd⟩
  · rw [hsh] at hc ⊢
    exact ⟨hc, fun _ => by simp [matCols]⟩
  · rw [hsh] at hc ⊢
    exact hc

theorem padOf_mirror {p : Params} (hv : ValidParams p) (hw : p.wtype = 1) {x : Mat R} (hx : Shaped p x) {v h : Bool} (hc : Centred p 0 v h) :
    padOf p (mirror v h x) = mirror v h (padOf p x) := by
  have ht : p.wtype ≠ 0 := by omega
  obtain ⟨r0, c0, r1, c1⟩ := padded_ge hv ht
  obtain ⟨ev, eh⟩ := centred_sides hv hc (fits_padOf hv hx)
  have hmap : p.shape.map (· / 2 ^ 0) = p.shape := by simp
  have pr : (padOf p x).rows = matRows (paddedShape p) := by unfold padOf; rw [if_neg ht]; rfl
  have pc : (padOf p x).cols = matCols (paddedShape p) := by unfold padOf; rw [if_neg ht]; rfl
  rw [hmap, pr, ← hx.1] at ev
  rw [hmap, pc, ← hx.2] at eh
  rw [← hx.1] at r0 r1
  rw [← hx.2] at c0 c1
  have er : (mirror v h x).rows = x.rows := rfl
  have ec : (mirror v h x).cols = x.cols := rfl
  unfold padOf
  rw [if_neg ht, if_neg ht]
  refine Mat.ext' rfl rfl ?_
  intro i hi j hj
  simp only [Mat.rows_ofFn, Mat.cols_ofFn, er, ec] at hi hj ⊢
  rw [mirror_get _ _ (by simpa using hi) (by simpa using hj)]
  simp only [Mat.rows_ofFn, Mat.cols_ofFn]
  have cl : ∀ {pad n i : ℕ}, 0 < n → clampIdx pad n i < n := by intro pad n i hn; unfold clampIdx; omega
  rw [Mat.get_ofFn hi hj, mirror_get _ _ (cl r0) (cl c0), Mat.get_ofFn (by split <;> omega) (by split <;> omega)]
  congr 1
  · cases v with
    | false => rfl
    | true => exact clamp_mirror r0 r1 (ev rfl) hi true
  · cases h with
    | false => rfl
    | true => exact clamp_mirror c0 c1 (eh rfl) hj true

/-- The columns of mirrored matrices with one column. -/
theorem mirror_col (b v h : Bool) {m : Mat R} (hc : m.cols = 1) : (signed b (mirror v h m)).col 0 = mirrorList b v (m.col 0) := by
  have hs : (signed b (mirror v h m)).rows = m.rows := rfl
  unfold Mat.col mirrorList
  rw [hs]
  apply List.ext_getElem?
  intro i
  by_cases hi : i < m.rows
  · have e : (signed b (mirror v h m)).get i 0 = if b then -m.get (if v then m.rows - 1 - i else i) 0 else m.get (if v then m.rows - 1 - i else i) 0 := by
      rw [signed_get (m := mirror v h m) _ hi (by show 0 < m.cols; omega), mirror_get _ _ hi (by omega), hc]
      cases b <;> simp [sgn]
    cases v
    · simp [hi, e]
    · simp [hi, e]
  · cases v <;> simp [hi]

theorem mirror_ofCol (b v h : Bool) (l : List R) : Mat.ofCol (mirrorList b v l) = signed b (mirror v h (Mat.ofCol l)) := by
  have e := mirror_col b v h (m := Mat.ofCol l) rfl
  rw [Mat.col_ofCol] at e
  rw [← e]
  exact Mat.ofCol_col _ rfl

theorem clean_mirror {p : Params} {den : Denoiser R} (hi : IgnoresMirrors den) (b v h : Bool) {m : Mat R} (hc : p.dimension = 1 → m.cols = 1) (s : ℕ) :
    cleanOne p den s (signed b (mirror v h m)) = signed b (mirror v h (cleanOne p den s m)) := by
  unfold cleanOne
  split_ifs with hd
  · rw [mirror_col _ _ _ (hc hd), hi.1, mirror_ofCol b v h]
  · exact hi.2 b v h m s

theorem crop_mirror {p : Params} (hv : ValidParams p) {s : ℕ} {m : Mat R} (hm : Fits p s m) {v h : Bool} (hc : Centred p s v h) :
    cropOf p s (mirror v h m) = mirror v h (cropOf p s m) := by
  obtain ⟨ev, eh⟩ := centred_sides hv hc hm
  obtain ⟨l1, l2⟩ := scaled_le hv hm
  have er : (mirror v h m).rows = m.rows := rfl
  have ec : (mirror v h m).cols = m.cols := rfl
  unfold cropOf
  simp only
  split_ifs with h0
  · rfl
  refine Mat.ext' rfl rfl ?_
  intro i hi j hj
  simp only [Mat.rows_ofFn, Mat.cols_ofFn, er, ec] at hi hj ⊢
  rw [mirror_get _ _ (by simpa using hi) (by simpa using hj)]
  simp only [Mat.rows_ofFn, Mat.cols_ofFn]
  generalize matRows (p.shape.map (· / 2 ^ s)) = r at *
  generalize matCols (p.shape.map (· / 2 ^ s)) = c at *
  have o1 : padOffset .both m.rows r = (m.rows - r) / 2 := rfl
  have o2 : padOffset .both m.cols c = (m.cols - c) / 2 := rfl
  rw [Mat.get_ofFn hi hj, o1, o2, mirror_get _ _ (by omega) (by omega), Mat.get_ofFn (by split <;> omega) (by split <;> omega)]
  congr 1
  · cases v with
    | false => rfl
    | true => have := ev rfl; simp only [if_true]; omega
  · cases h with
    | false => rfl
    | true => have := eh rfl; simp only [if_true]; omega

theorem map_mirror (f : R → R) (v h : Bool) (m : Mat R) : (mirror v h m).map f = mirror v h (m.map f) := by
  refine Mat.ext' rfl rfl ?_
  intro i hi j hj
  have hi' : i < m.rows := hi
  have hj' : j < m.cols := hj
  rw [Mat.get_map f (mirror v h m) hi' hj', mirror_get (m := m.map f) _ _ hi' hj', mirror_get _ _ hi' hj']
  exact (Mat.get_map _ _ (by split <;> omega) (by split <;> omega)).symm

theorem finish_mirror {k : Kit R} {p : Params} (hv : ValidParams p) {s : ℕ} {m : Mat R} (hm : Fits p s m) {v h : Bool} (hc : Centred p s v h) :
    finishP k p s (mirror v h m) = mirror v h (finishP k p s m) := by
  unfold finishP
  rw [crop_mirror hv hm hc]
  split_ifs
  · exact map_mirror _ _ _ _
  · rfl

theorem turns_eq {p : Params} (hv : ValidParams p) (v h : Bool) {q : ℕ} (hq : q < subbandsPerWT p) :
    ((v && rOff p q) != (h && cOff p q && !(p.dimension == 1))) = turns p v h q := by
  unfold turns rOff cOff
  unfold subbandsPerWT at hq
  rcases shape_cases hv with ⟨n, hsh, hd⟩ | ⟨a, b, hsh, hd⟩
  · rw [hsh, hd]; simp
  · rw [hsh, hd]
    rw [hd] at hq
    simp only [show ¬ (2 : ℕ) = 1 by decide, if_false] at hq
    rcases (by omega : q = 0 ∨ q = 1 ∨ q = 2) with rfl | rfl | rfl <;> cases v <;> cases h <;> rfl

section Haar
variable {k : Kit R} {p : Params} (hv : ValidParams p) (hf : FilterLen k p) (hw : p.wtype = 1) {c : R} (hc : scaling k p = [c, c])
include hv hf hw hc

theorem approx_mirror {s : ℕ} (hs : s < p.steps) {m : Mat R} (hm : Fits p s m) (v h : Bool) :
    approxStep p (scaling k p) (mirror v h m) = mirror v h (approxStep p (scaling k p) m) := by
  have hm' : Fits p s (mirror v h m) := hm
  rw [approx_sub hv hf hs hm', approx_sub hv hf hs hm, hc, stepSub_mirror hw c (halves_of_fits hv hs hm)]
  simp [signed_false]

theorem detail_mirror {s : ℕ} (hs : s < p.steps) {m : Mat R} (hm : Fits p s m) (v h : Bool) {q : ℕ} (hq : q < subbandsPerWT p) :
    (detailStep p (scaling k p) nullDenoiser s (mirror v h m)).getD q default =
      signed (turns p v h q) (mirror v h ((detailStep p (scaling k p) nullDenoiser s m).getD q default)) := by
  have hm' : Fits p s (mirror v h m) := hm
  rw [detail_sub hv hf hs hm' hq, detail_sub hv hf hs hm hq, hc, stepSub_mirror hw c (halves_of_fits hv hs hm), turns_eq hv v h hq]

theorem synth_mirror (ho : OrthoKit k p) {s : ℕ} (hs : s < p.steps) {m : Mat R} (hm : Fits p (s + 1) m) {ds ds' : List (Mat R)} (v h : Bool)
    (hl : ds'.length = subbandsPerWT p) (hds : ∀ j < subbandsPerWT p, Fits p (s + 1) (ds.getD j default))
    (hr : ∀ j < subbandsPerWT p, ds'.getD j default = signed (turns p v h j) (mirror v h (ds.getD j default))) :
    synthStep p (scaling k p) (mirror v h m) ds' = mirror v h (synthStep p (scaling k p) m ds) := by
  have hy := fits_synth hv (scaling k p) hs hm ds
  obtain ⟨a1, a2⟩ := analysis_synth_step hv hf ho hs hm hds
  have hy' : Fits p s (mirror v h (synthStep p (scaling k p) m ds)) := hy
  have e := synth_analysis_step hv hf ho hs hy'
  rw [approx_mirror hv hf hw hc hs hy, a1] at e
  rw [← e]
  congr 1
  apply List.ext_getElem
  · rw [hl, length_detailStep]
  · intro n h1 h2
    have g : ∀ (l : List (Mat R)) (h : n < l.length), l[n] = l.getD n default := fun l h => by simp [List.getD, h]
    rw [hl] at h1
    rw [g _ (by omega), g _ h2, hr n h1, detail_mirror hv hf hw hc hs hy v h h1, a2 n h1]

theorem recon_mirror (ho : OrthoKit k p) {x x' : Channel R} (hx : SizedChan p x) (v h : Bool)
    (hr : ∀ s < p.steps, ∀ q < subbandsPerWT p, x'.getD (s * subbandsPerWT p + q) default = signed (turns p v h q) (mirror v h (x.getD (s * subbandsPerWT p + q) default)))
    (hl : x'.getD (p.steps * subbandsPerWT p) default = mirror v h (x.getD (p.steps * subbandsPerWT p) default)) {s : ℕ} (hs : s ≤ p.steps) :
    reconP p (scaling k p) s x' = mirror v h (reconP p (scaling k p) s x) := by
  induction hn : p.steps - s generalizing s with
  | zero =>
    obtain rfl : s = p.steps := by omega
    unfold reconP
    rw [Nat.sub_self, reconFrom, reconFrom, hl]
  | succ n ih =>
    rw [reconP_step (c := x') (by omega), reconP_step (c := x) (by omega), ih (s := s + 1) (by omega) (by omega)]
    refine synth_mirror hv hf hw hc ho (by omega) (reconP_fits hv hx (by omega)) v h (by simp [detailsAt]) (detailsAt_fits hx (by omega)) ?_
    intro j hj
    rw [detailsAt_getD p x' s hj, detailsAt_getD p x s hj]
    exact hr s (by omega) j hj

theorem chan_mirror {x : Mat R} (hx : Shaped p x) {v h : Bool} (h0 : Centred p 0 v h) {den : Denoiser R} (hi : IgnoresMirrors den) :
    (∀ s < p.steps, ∀ q < subbandsPerWT p, (chanP p (scaling k p) den (mirror v h x)).getD (s * subbandsPerWT p + q) default =
      signed (turns p v h q) (mirror v h ((chanP p (scaling k p) den x).getD (s * subbandsPerWT p + q) default))) ∧
    (chanP p (scaling k p) den (mirror v h x)).getD (p.steps * subbandsPerWT p) default =
      mirror v h ((chanP p (scaling k p) den x).getD (p.steps * subbandsPerWT p) default) := by
  have hp := fits_padOf hv hx
  constructor
  · intro s hs q hq
    have f := fits_sig (k := k) hv hp hs.le
    have g : ∀ m : Mat R, (detailStep p (scaling k p) den s m).getD q default = cleanOne p den s ((detailStep p (scaling k p) nullDenoiser s m).getD q default) := by
      intro m
      have hl : q < (detailStep p (scaling k p) nullDenoiser s m).length := by rw [length_detailStep]; exact hq
      rw [detailStep_clean]
      simp [List.getD, hl]
    rw [chanP_detail _ _ _ _ hs hq, chanP_detail _ _ _ _ hs hq, g, g, padOf_mirror hv hw hx h0, sig_mirror hv hf hw hc hp v h hs.le,
      detail_mirror hv hf hw hc hs f v h hq]
    refine clean_mirror hi _ _ _ ?_ _
    intro hd
    have := (detailStep_fits (k := k) hv nullDenoiser_sized hs f hq).2
    rwa [if_pos hd] at this
  · rw [chanP_last, chanP_last, padOf_mirror hv hw hx h0, sig_mirror hv hf hw hc hp v h le_rfl]

end Haar

end Ring

end WB.Props
