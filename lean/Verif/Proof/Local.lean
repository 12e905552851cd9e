import Verif.Proof.Bridge
import Verif.Spec.Local

/-!
Which samples a coefficient depends on and which coefficients a sample depends on, for any scalar type: the folds over filter taps and
stored matrix entries read nothing else.
-/

set_option linter.unusedSectionVars false

namespace WB

open Spec

variable {α : Type}

theorem foldl_same {β γ : Type} (l : List β) (f g : γ → β → γ) (h : ∀ b ∈ l, ∀ a, f a b = g a b) (a : γ) : l.foldl f a = l.foldl g a := by
  induction l generalizing a with
  | nil => rfl
  | cons b l ih =>
    rw [List.foldl_cons, List.foldl_cons, h b (by simp), ih (fun c hc => h c (by simp [hc]))]

/-! ### reach -/

theorem reaches_zero {w n i : ℕ} (hi : i < n) : Reaches w n 0 i i := ⟨0, by simp, by simp [Nat.mod_eq_of_lt hi]⟩

theorem reaches_line {w k c : ℕ} : Reaches w 1 k c 0 := ⟨0, Nat.zero_le _, Nat.mod_one _⟩

theorem reaches_up {w n k c a i : ℕ} (h1 : Reaches w n k c a) (h2 : Reaches w (2 * n) 1 a i) : Reaches w (2 * n) (k + 1) c i := by
  obtain ⟨t, ht, rfl⟩ := h1
  obtain ⟨t', ht', rfl⟩ := h2
  refine ⟨2 * t + t', ?_, ?_⟩
  · have hp : 0 < 2 ^ k := by positivity
    have e : 2 ^ (k + 1) - 1 = 2 * (2 ^ k - 1) + 1 := by rw [pow_succ]; omega
    rw [e, Nat.mul_add, Nat.mul_left_comm]
    norm_num at ht'
    omega
  · rw [pow_one, ← Nat.mul_mod_mul_left, Nat.mod_add_mod]
    congr 1
    rw [pow_succ]; ring

theorem reaches_down {w n k c a i : ℕ} (h1 : Reaches w (2 * n) 1 c a) (h2 : Reaches w (2 ^ k * (2 * n)) k a i) :
    Reaches w (2 ^ k * (2 * n)) (k + 1) c i := by
  obtain ⟨t, ht, rfl⟩ := h1
  obtain ⟨t', ht', rfl⟩ := h2
  refine ⟨2 ^ k * t + t', ?_, ?_⟩
  · have hp : 0 < 2 ^ k := by positivity
    have e : 2 ^ (k + 1) - 1 = 2 ^ k + (2 ^ k - 1) := by rw [pow_succ]; omega
    rw [e, Nat.mul_add, Nat.mul_comm (2 * w - 1) (2 ^ k)]
    norm_num at ht
    have := Nat.mul_le_mul_left (2 ^ k) ht
    omega
  · rw [pow_one, ← Nat.mul_mod_mul_left, Nat.mod_add_mod]
    congr 1
    rw [pow_succ]; ring

section Poly
variable [Zero α] [Add α] [Mul α] [Neg α] [Inhabited α]

/-! ### one dimension -/

theorem anaP_same {x y f : List α} (hl : y.length = x.length) {i : ℕ}
    (h : ∀ u < f.length, x.getD ((2 * i + u) % x.length) 0 = y.getD ((2 * i + u) % x.length) 0) : anaP x f i = anaP y f i := by
  unfold anaP
  refine foldl_same _ _ _ (fun j hj a => ?_) _
  rw [hl, Nat.mul_comm i 2, h j (List.mem_range.1 hj)]

theorem synP_same {low high low' high' lo hi : List α} {w i : ℕ} (hw : 0 < w) (hlo : lo.length = 2 * w) (hs : w ≤ low.length)
    (hl : low'.length = low.length) (hi' : i < 2 * low.length)
    (h : ∀ a < low.length, Reaches w (2 * low.length) 1 a i → low.getD a 0 = low'.getD a 0 ∧ high.getD a 0 = high'.getD a 0) :
    synP low high lo hi i = synP low' high' lo hi i := by
  unfold synP
  refine foldl_same _ _ _ (fun j hj acc => ?_) _
  rw [List.mem_range] at hj
  obtain ⟨h1, h2⟩ := h ((low.length - (lo.length - 2) / 2 + i / 2 + j) % low.length) (Nat.mod_lt _ (by omega)) (by
    refine ⟨2 * (w - 1 - j) + i % 2, by norm_num; omega, ?_⟩
    rw [pow_one, ← Nat.mul_mod_mul_left, Nat.mod_add_mod]
    have : 2 * (low.length - (lo.length - 2) / 2 + i / 2 + j) + (2 * (w - 1 - j) + i % 2) = i + 2 * low.length := by omega
    rw [this, Nat.add_mod_right, Nat.mod_eq_of_lt hi'])
  rw [hl, h1, h2]

/-! ### two dimensions -/

/-- Columns of the entries stored in a row. -/
def SpMat.supp (m : SpMat α) (r a : ℕ) : Prop := ∃ e ∈ m.rowsE.getD r [], e.1 = a

theorem mulP_same {m : SpMat α} {x y : List α} {r : ℕ} (h : ∀ a, m.supp r a → x.getD a 0 = y.getD a 0) :
    (m.mulP x).getD r default = (m.mulP y).getD r default := by
  unfold SpMat.mulP
  rcases Nat.lt_or_ge r m.rowsE.length with hr | hr
  · simp only [List.getD, List.getElem?_map, List.getElem?_eq_getElem hr, Option.map_some, Option.getD_some]
    refine foldl_same _ _ _ (fun e he acc => ?_) _
    have := h e.1 ⟨e, by simpa [List.getD, List.getElem?_eq_getElem hr] using he, rfl⟩
    simp only [List.getD] at this
    rw [this]
  · simp only [List.getD, List.getElem?_map, List.getElem?_eq_none hr, Option.map_none]

theorem col_getD (x : Mat α) (j : ℕ) {a : ℕ} (h : a < x.rows) (d : α) : (x.col j).getD a d = x.get a j := by
  simp [Mat.col, List.getD, h]

theorem row_getD (x : Mat α) (i : ℕ) {a : ℕ} (h : a < x.cols) (d : α) : (x.row i).getD a d = x.get i a := by
  simp [Mat.row, List.getD, h]

theorem sep_same {m m' : Mat α} {W H : SpMat α} (er : m'.rows = m.rows) (ec : m'.cols = m.cols) {r c : ℕ} (hr : r < m.rows) (hc : c < m.cols)
    (hH : ∀ a, H.supp r a → a < m.rows) (hW : ∀ b, W.supp c b → b < m.cols)
    (h : ∀ a, H.supp r a → ∀ b, W.supp c b → m.get a b = m'.get a b) :
    (colsP (rowsP m W) H).get r c = (colsP (rowsP m' W) H).get r c := by
  unfold colsP
  rw [Mat.get_ofFn (by exact hr) (by exact hc), Mat.get_ofFn (by simpa [rowsP, er] using hr) (by simpa [rowsP, ec] using hc)]
  refine mulP_same fun a ha => ?_
  have har := hH a ha
  rw [col_getD _ _ (by exact har), col_getD _ _ (by simpa [rowsP, er] using har)]
  unfold rowsP
  rw [Mat.get_ofFn har hc, Mat.get_ofFn (by omega) (by omega)]
  refine mulP_same fun b hb => ?_
  have hbc := hW b hb
  rw [row_getD _ _ hbc, row_getD _ _ (by omega)]
  exact h a ha b hb

/-- Entries of the transform matrix: row `i` and row `n + i` have their entries at the samples that coefficient `i` reaches. -/
theorem supp_daub {lo hi : List α} {w n r a : ℕ} (hlo : lo.length = 2 * w) (hhi : hi.length = 2 * w) (hw : w ≤ n) (hn : 0 < w)
    (h : (daubP lo hi (2 * n)).supp r a) :
    a < 2 * n ∧ r < 2 * n ∧ Reaches w (2 * n) 1 (if r < n then r else r - n) a := by
  obtain ⟨e, he, rfl⟩ := h
  have key : ∀ f : List α, f.length = 2 * w → ∀ i < n, e ∈ rowP f (2 * n) i → e.1 < 2 * n ∧ Reaches w (2 * n) 1 i e.1 := by
    intro f hf i hi he
    unfold rowP at he
    rw [List.mem_map] at he
    obtain ⟨s, hs, rfl⟩ := he
    rw [List.mem_range] at hs
    refine ⟨tapCol_lt (by omega) (by omega) hs, tapIdx (2 * n) f.length i s, ?_, ?_⟩
    · unfold tapIdx; norm_num; split_ifs <;> omega
    · rw [pow_one]; exact (tapCol_eq (by omega) (by omega) hs).symm
  have hdiv : 2 * n / 2 = n := by omega
  unfold daubP at he
  simp only [hdiv] at he
  rcases Nat.lt_or_ge r n with h1 | h1
  · rw [List.getD, List.getElem?_append_left (by simpa using h1)] at he
    simp only [List.getElem?_map, List.getElem?_range h1, Option.map_some, Option.getD_some] at he
    rw [if_pos h1]
    have := key lo hlo r h1 he
    exact ⟨this.1, by omega, this.2⟩
  · rw [List.getD, List.getElem?_append_right (by simpa using h1)] at he
    simp only [List.length_map, List.length_range] at he
    rcases Nat.lt_or_ge (r - n) n with h2 | h2
    · simp only [List.getElem?_map, List.getElem?_range h2, Option.map_some, Option.getD_some] at he
      rw [if_neg (by omega)]
      have := key hi hhi (r - n) h2 he
      exact ⟨this.1, by omega, this.2⟩
    · rw [List.getElem?_eq_none (by simpa using h2)] at he
      simp at he

theorem supp_transpose {m : SpMat α} {r a : ℕ} (h : m.transpose.supp r a) : m.supp a r ∧ r < m.cols := by
  obtain ⟨e, he, rfl⟩ := h
  unfold SpMat.transpose at he
  simp only at he
  rcases Nat.lt_or_ge r m.cols with h1 | h1
  · rw [List.getD] at he
    simp only [List.getElem?_map, List.getElem?_range h1, Option.map_some, Option.getD_some, List.mem_flatMap, List.mem_map,
      List.mem_filter] at he
    obtain ⟨⟨l, i⟩, hl, e', ⟨he', hr⟩, rfl⟩ := he
    refine ⟨⟨e', ?_, by simpa using hr⟩, h1⟩
    have := List.mem_zipIdx_iff_getElem?.1 hl
    simp only [List.getD, this, Option.getD_some]
    exact he'
  · rw [List.getD, List.getElem?_eq_none (by simpa using h1)] at he
    simp at he

/-! ### one step of the decomposition -/

theorem analysis_same {k : Kit α} {p : Params} (hv : ValidParams p) (hf : FilterLen k p) {s : ℕ} (hs : s < p.steps) {m m' : Mat α}
    (hm : Fits p s m) (hm' : Fits p s m') {i j : ℕ} (hi : i < (approxStep p (scaling k p) m).rows)
    (hj : j < (approxStep p (scaling k p) m).cols)
    (h : ∀ a < m.rows, ∀ b < m.cols, Reaches p.wtype m.rows 1 i a → Reaches p.wtype m.cols 1 j b → m.get a b = m'.get a b) :
    (approxStep p (scaling k p) m).get i j = (approxStep p (scaling k p) m').get i j ∧
    ∀ q < subbandsPerWT p, ((detailStep p (scaling k p) nullDenoiser s m).getD q default).get i j =
      ((detailStep p (scaling k p) nullDenoiser s m').getD q default).get i j := by
  have ht := wavelet_of_steps hv hs
  have hw : 0 < p.wtype := by omega
  have hlen := length_scaling hf ht
  have hq := length_qmf (scaling k p)
  have er : m'.rows = m.rows := hm'.1.trans hm.1.symm
  have ec : m'.cols = m.cols := hm'.2.trans hm.2.symm
  rcases fits_halves hv ht hs hm with ⟨hd, n2, h1, h2, h3, h4⟩ | ⟨hd, sh, sw, h1, h2, h3, h4, h5, h6, _⟩
  · unfold approxStep at hi hj ⊢
    unfold detailStep
    simp only [if_pos hd] at hi hj ⊢
    have hi2 : i < n2 := by simp at hi; omega
    obtain rfl : j = 0 := by simp at hj; omega
    have hdiv : m.rows / 2 = n2 := by omega
    have key : ∀ f : List α, f.length = 2 * p.wtype → anaP (m.col 0) f i = anaP (m'.col 0) f i := by
      intro f hfl
      refine anaP_same (by simp [Mat.col, er]) fun u hu => ?_
      have hlt : (2 * i + u) % m.rows < m.rows := Nat.mod_lt _ (by omega)
      have e : (m.col 0).length = m.rows := by simp [Mat.col]
      rw [e, col_getD _ _ hlt, col_getD _ _ (by omega)]
      refine h _ hlt 0 (by omega) ⟨u, by norm_num; omega, by rw [pow_one]⟩ ?_
      rw [h2]; exact reaches_line
    refine ⟨?_, ?_⟩
    · rw [Mat.get_ofCol, Mat.get_ofCol, er, hdiv, getD_map_range' _ _ _ hi2, getD_map_range' _ _ _ hi2, key _ hlen]
    · intro q hq1
      have : q = 0 := by simp [subbandsPerWT, hd] at hq1; exact hq1
      subst this
      simp only [nullDenoiser, List.getD, List.getElem?_cons_zero, Option.getD_some]
      rw [Mat.get_ofCol, Mat.get_ofCol, er, hdiv, getD_map_range' _ _ _ hi2, getD_map_range' _ _ _ hi2, key _ (by omega)]
  · have hd1 : ¬ p.dimension = 1 := by omega
    unfold approxStep at hi hj ⊢
    unfold detailStep
    simp only [if_neg hd1] at hi hj ⊢
    have d1 : m.rows / 2 = sh := by omega
    have d2 : m.cols / 2 = sw := by omega
    have hi2 : i < sh := by simp [quadOf, quadP] at hi; omega
    have hj2 : j < sw := by simp [quadOf, quadP] at hj; omega
    have key : ∀ rb cb : Bool, (colsP (rowsP m (daubP (scaling k p) (qmf (scaling k p)) m.cols))
        (daubP (scaling k p) (qmf (scaling k p)) m.rows)).get ((if rb then sh else 0) + i) ((if cb then sw else 0) + j) =
        (colsP (rowsP m' (daubP (scaling k p) (qmf (scaling k p)) m.cols))
        (daubP (scaling k p) (qmf (scaling k p)) m.rows)).get ((if rb then sh else 0) + i) ((if cb then sw else 0) + j) := by
      intro rb cb
      have sH : ∀ a, (daubP (scaling k p) (qmf (scaling k p)) m.rows).supp ((if rb then sh else 0) + i) a →
          a < m.rows ∧ Reaches p.wtype m.rows 1 i a := by
        intro a ha
        rw [h1] at ha ⊢
        obtain ⟨q1, q2, q3⟩ := supp_daub hlen (by omega) h3 hw ha
        refine ⟨q1, ?_⟩
        cases rb
        · simp only [Bool.false_eq_true, if_false, Nat.zero_add, if_pos hi2] at q3; exact q3
        · simp only [if_true] at q3
          rw [if_neg (by omega), Nat.add_sub_cancel_left] at q3; exact q3
      have sW : ∀ b, (daubP (scaling k p) (qmf (scaling k p)) m.cols).supp ((if cb then sw else 0) + j) b →
          b < m.cols ∧ Reaches p.wtype m.cols 1 j b := by
        intro a ha
        rw [h2] at ha ⊢
        obtain ⟨q1, q2, q3⟩ := supp_daub hlen (by omega) h4 hw ha
        refine ⟨q1, ?_⟩
        cases cb
        · simp only [Bool.false_eq_true, if_false, Nat.zero_add, if_pos hj2] at q3; exact q3
        · simp only [if_true] at q3
          rw [if_neg (by omega), Nat.add_sub_cancel_left] at q3; exact q3
      refine sep_same er ec (by split <;> omega) (by split <;> omega) (fun a ha => (sH a ha).1) (fun b hb => (sW b hb).1) ?_
      intro a ha b hb
      exact h a (sH a ha).1 b (sW b hb).1 (sH a ha).2 (sW b hb).2
    have k00 := key false false
    have k10 := key true false
    have k01 := key false true
    have k11 := key true true
    simp only [Bool.false_eq_true, if_false, if_true, Nat.zero_add] at k00 k10 k01 k11
    unfold quadOf quadP
    rw [er, ec, d1, d2]
    refine ⟨?_, ?_⟩
    · simp only [Mat.get_ofFn hi2 hj2]; exact k00
    · intro q hq1
      have : q = 0 ∨ q = 1 ∨ q = 2 := by simp [subbandsPerWT, hd] at hq1; omega
      rcases this with rfl | rfl | rfl
      all_goals
        simp only [nullDenoiser, List.getD, List.getElem?_cons_zero, List.getElem?_cons_succ, Option.getD_some, Mat.get_ofFn hi2 hj2]
        assumption

/-! ### one step of the composition -/

theorem synth_same {k : Kit α} {p : Params} (hv : ValidParams p) (hf : FilterLen k p) {s : ℕ} (hs : s < p.steps) {low low' : Mat α}
    {ds ds' : List (Mat α)} (hl : Fits p (s + 1) low) (hl' : Fits p (s + 1) low')
    (hds : ∀ q < subbandsPerWT p, Fits p (s + 1) (ds.getD q default)) (hds' : ∀ q < subbandsPerWT p, Fits p (s + 1) (ds'.getD q default))
    {i j : ℕ} (hi : i < (synthStep p (scaling k p) low ds).rows) (hj : j < (synthStep p (scaling k p) low ds).cols)
    (h : ∀ a < low.rows, ∀ b < low.cols, Reaches p.wtype (synthStep p (scaling k p) low ds).rows 1 a i →
      Reaches p.wtype (synthStep p (scaling k p) low ds).cols 1 b j → low.get a b = low'.get a b ∧
        ∀ q < subbandsPerWT p, (ds.getD q default).get a b = (ds'.getD q default).get a b) :
    (synthStep p (scaling k p) low ds).get i j = (synthStep p (scaling k p) low' ds').get i j := by
  have ht := wavelet_of_steps hv hs
  have hw : 0 < p.wtype := by omega
  have hlen := length_scaling hf ht
  have hq := length_qmf (scaling k p)
  have er : low'.rows = low.rows := hl'.1.trans hl.1.symm
  have ec : low'.cols = low.cols := hl'.2.trans hl.2.symm
  rcases fits_up hv hs hl with ⟨hd, h1, h2, h3⟩ | ⟨hd, h1, h2, h3, h4, h5⟩
  · have hsub : subbandsPerWT p = 1 := by simp [subbandsPerWT, hd]
    unfold synthStep at hi hj h ⊢
    simp only [if_pos hd] at hi hj h ⊢
    have hi2 : i < low.rows * 2 := by simpa using hi
    obtain rfl : j = 0 := by simp at hj; omega
    rw [Mat.get_ofCol, Mat.get_ofCol, er, getD_map_range' _ _ _ hi2, getD_map_range' _ _ _ hi2]
    have e : (low.col 0).length = low.rows := by simp [Mat.col]
    have r1 : (ds.getD 0 default).rows = low.rows := (hds 0 (by omega)).1.trans hl.1.symm
    have r2 : (ds'.getD 0 default).rows = low.rows := (hds' 0 (by omega)).1.trans hl.1.symm
    refine synP_same hw (by simpa using hlen) (by omega) (by simp [Mat.col, er]) (by omega) ?_
    intro a ha hr
    rw [e] at ha hr
    obtain ⟨q1, q2⟩ := h a ha 0 (by omega) (by simpa [Nat.mul_comm] using hr) (by simpa using reaches_line)
    rw [col_getD _ _ ha, col_getD _ _ (by omega), col_getD _ _ (by omega), col_getD _ _ (by omega)]
    exact ⟨q1, q2 0 (by omega)⟩
  · have hsub : subbandsPerWT p = 3 := by simp [subbandsPerWT, hd]
    have hd1 : ¬ p.dimension = 1 := by omega
    unfold synthStep at hi hj h ⊢
    simp only [if_neg hd1] at hi hj h ⊢
    have hi2 : i < 2 * low.rows := by simpa [colsP, rowsP, assemble] using hi
    have hj2 : j < 2 * low.cols := by simpa [colsP, rowsP, assemble] using hj
    have h : ∀ a < low.rows, ∀ b < low.cols, Reaches p.wtype (2 * low.rows) 1 a i → Reaches p.wtype (2 * low.cols) 1 b j →
        low.get a b = low'.get a b ∧ ∀ q < subbandsPerWT p, (ds.getD q default).get a b = (ds'.getD q default).get a b := h
    rw [er, ec]
    have sS : ∀ n, p.wtype ≤ n → ∀ r a, (daubP (scaling k p) (qmf (scaling k p)) (2 * n)).transpose.supp r a →
        a < 2 * n ∧ Reaches p.wtype (2 * n) 1 (if a < n then a else a - n) r := by
      intro n hn r a ha
      obtain ⟨ha, _⟩ := supp_transpose ha
      obtain ⟨q1, q2, q3⟩ := supp_daub hlen (by omega) hn hw ha
      exact ⟨q2, q3⟩
    refine sep_same (by simp [assemble]) (by simp [assemble]) (by simpa [assemble] using hi2) (by simpa [assemble] using hj2)
      (fun a ha => by simpa [assemble] using (sS _ h1 _ _ ha).1) (fun b hb => by simpa [assemble] using (sS _ h2 _ _ hb).1) ?_
    intro a ha b hb
    obtain ⟨a1, a2⟩ := sS _ h1 _ _ ha
    obtain ⟨b1, b2⟩ := sS _ h2 _ _ hb
    unfold assemble
    rw [Mat.get_ofFn a1 b1, Mat.get_ofFn a1 b1]
    by_cases ca : a < low.rows
    · by_cases cb : b < low.cols
      · rw [if_pos ca] at a2
        rw [if_pos cb] at b2
        simp only [if_pos ca, if_pos cb]
        exact (h a ca b cb a2 b2).1
      · rw [if_pos ca] at a2
        rw [if_neg cb] at b2
        simp only [if_pos ca, if_neg cb]
        exact (h a ca _ (by omega) a2 b2).2 1 (by omega)
    · by_cases cb : b < low.cols
      · rw [if_neg ca] at a2
        rw [if_pos cb] at b2
        simp only [if_neg ca, if_pos cb]
        exact (h _ (by omega) b cb a2 b2).2 0 (by omega)
      · rw [if_neg ca] at a2
        rw [if_neg cb] at b2
        simp only [if_neg ca, if_neg cb]
        exact (h _ (by omega) _ (by omega) a2 b2).2 2 (by omega)

/-! ### whole channels -/

theorem fits_pow2 {p : Params} (hv : ValidParams p) {s : ℕ} (hs : s ≤ p.steps) {x X : Mat α} (hx : Fits p 0 x) (hX : Fits p s X) :
    x.rows = 2 ^ s * X.rows ∧ (if p.dimension = 1 then x.cols = 1 ∧ X.cols = 1 else x.cols = 2 ^ s * X.cols) := by
  rcases Nat.eq_zero_or_pos s with rfl | hpos
  · refine ⟨by rw [pow_zero, one_mul]; exact hx.1.trans hX.1.symm, ?_⟩
    have e := hx.2.trans hX.2.symm
    split_ifs with hd
    · have := hx.2; rw [if_pos hd] at this; exact ⟨this, by omega⟩
    · rw [pow_zero, one_mul]; exact e
  have ht := wavelet_of_steps hv (show 0 < p.steps by omega)
  have hd : ∀ n, 2 ^ s ∣ paddedSide p n := fun n => by
    unfold paddedSide
    rw [if_neg ht]
    exact Dvd.dvd.mul_left (pow_dvd_pow 2 hs) _
  rw [fits_iff hv] at hx hX
  rcases shape_cases hv with ⟨n, hsh, hd1⟩ | ⟨w, hh, hsh, hd2⟩
  · rw [hsh] at hx hX
    simp only [List.map_cons, List.map_nil, pow_zero, Nat.div_one, HasShape] at hx hX
    rw [if_pos hd1]
    exact ⟨by rw [hx.1, hX.1, Nat.mul_div_cancel' (hd n)], hx.2, hX.2⟩
  · rw [hsh] at hx hX
    simp only [List.map_cons, List.map_nil, pow_zero, Nat.div_one, HasShape] at hx hX
    rw [if_neg (by omega)]
    exact ⟨by rw [hx.1, hX.1, Nat.mul_div_cancel' (hd hh)], by rw [hx.2, hX.2, Nat.mul_div_cancel' (hd w)]⟩

/-- From one level to the next. -/
theorem reach_levels {p : Params} (hv : ValidParams p) {s : ℕ} (hs : s < p.steps) {x X : Mat α} (hx : Fits p 0 x) (hX : Fits p s X)
    {i j a b i' j' : ℕ} (hj' : j' < x.cols) (h1 : Reaches p.wtype X.rows 1 i a) (h2 : Reaches p.wtype X.cols 1 j b)
    (h3 : Reaches p.wtype x.rows s a i') (h4 : Reaches p.wtype x.cols s b j') :
    Reaches p.wtype x.rows (s + 1) i i' ∧ Reaches p.wtype x.cols (s + 1) j j' := by
  obtain ⟨er, ec⟩ := fits_pow2 hv (by omega) hx hX
  have ht := wavelet_of_steps hv hs
  rcases fits_halves hv ht hs hX with ⟨hd, n2, q1, q2, q3, q4⟩ | ⟨hd, sh, sw, q1, q2, q3, q4, q5, q6, _⟩
  · rw [if_pos hd] at ec
    rw [er, q1] at h3 ⊢
    rw [q1] at h1
    refine ⟨reaches_down h1 h3, ?_⟩
    rw [ec.1]
    obtain rfl : j' = 0 := by omega
    exact reaches_line
  · rw [if_neg (by omega)] at ec
    rw [er, q1] at h3 ⊢
    rw [q1] at h1
    rw [ec, q2] at h4 ⊢
    rw [q2] at h2
    exact ⟨reaches_down h1 h3, reaches_down h2 h4⟩

theorem sig_same {k : Kit α} {p : Params} (hv : ValidParams p) (hf : FilterLen k p) {x y : Mat α} (hx : Fits p 0 x) (hy : Fits p 0 y)
    {s : ℕ} (hs : s ≤ p.steps) :
    ∀ i < (sig p (scaling k p) x s).rows, ∀ j < (sig p (scaling k p) x s).cols,
      (∀ a < x.rows, ∀ b < x.cols, Reaches p.wtype x.rows s i a → Reaches p.wtype x.cols s j b → x.get a b = y.get a b) →
      (sig p (scaling k p) x s).get i j = (sig p (scaling k p) y s).get i j := by
  induction s with
  | zero =>
    intro i hi j hj h
    exact h i hi j hj (reaches_zero hi) (reaches_zero hj)
  | succ s ih =>
    intro i hi j hj h
    have fx := fits_sig (k := k) hv hx (show s ≤ p.steps by omega)
    refine (analysis_same hv hf (by omega) fx (fits_sig hv hy (by omega)) hi hj ?_).1
    intro a ha b hb ra rb
    refine ih (by omega) a ha b hb ?_
    intro a' ha' b' hb' ra' rb'
    obtain ⟨q1, q2⟩ := reach_levels hv (by omega) hx fx hb' ra rb ra' rb'
    exact h a' ha' b' hb' q1 q2

theorem detail_same {k : Kit α} {p : Params} (hv : ValidParams p) (hf : FilterLen k p) {x y : Mat α} (hx : Fits p 0 x) (hy : Fits p 0 y)
    {s q : ℕ} (hs : s < p.steps) (hq : q < subbandsPerWT p) {i j : ℕ} (hi : i < (sig p (scaling k p) x (s + 1)).rows)
    (hj : j < (sig p (scaling k p) x (s + 1)).cols)
    (h : ∀ a < x.rows, ∀ b < x.cols, Reaches p.wtype x.rows (s + 1) i a → Reaches p.wtype x.cols (s + 1) j b → x.get a b = y.get a b) :
    ((detailStep p (scaling k p) nullDenoiser s (sig p (scaling k p) x s)).getD q default).get i j =
      ((detailStep p (scaling k p) nullDenoiser s (sig p (scaling k p) y s)).getD q default).get i j := by
  have fx := fits_sig (k := k) hv hx (show s ≤ p.steps by omega)
  refine (analysis_same hv hf hs fx (fits_sig hv hy (by omega)) hi hj ?_).2 q hq
  intro a ha b hb ra rb
  refine sig_same hv hf hx hy (by omega) a ha b hb ?_
  intro a' ha' b' hb' ra' rb'
  obtain ⟨q1, q2⟩ := reach_levels hv hs hx fx hb' ra rb ra' rb'
  exact h a' ha' b' hb' q1 q2

theorem pointwise_sized {den : Denoiser α} (h : Pointwise den) : den.Sized := by
  obtain ⟨g, h1, h2⟩ := h
  exact ⟨fun v s => by rw [h1, List.length_map], fun m s => by rw [h2]; exact ⟨rfl, rfl⟩⟩

/-- A pointwise denoiser acts on each coefficient. -/
theorem pointwise_get {den : Denoiser α} {p : Params} {h : List α} {s q : ℕ} {m : Mat α} (g : ℕ → α → α) (h1 : ∀ v s, den.d1 v s = v.map (g s))
    (h2 : ∀ m s, den.d2 m s = m.map (g s)) (hd : p.dimension = 1 ∨ p.dimension = 2) (hq : q < subbandsPerWT p) {i j : ℕ}
    (hi : i < ((detailStep p h nullDenoiser s m).getD q default).rows) (hj : j < ((detailStep p h nullDenoiser s m).getD q default).cols) :
    ((detailStep p h den s m).getD q default).get i j = g s (((detailStep p h nullDenoiser s m).getD q default).get i j) := by
  rcases hd with hd | hd
  · obtain rfl : q = 0 := by simp [subbandsPerWT, hd] at hq; exact hq
    unfold detailStep at hi hj ⊢
    simp only [if_pos hd, nullDenoiser, List.getD, List.getElem?_cons_zero, Option.getD_some] at hi hj ⊢
    obtain rfl : j = 0 := by simp at hj; omega
    rw [Mat.get_ofCol, Mat.get_ofCol, h1]
    simp only [Mat.rows_ofCol] at hi
    simp [List.getD, List.getElem?_eq_getElem hi]
    simp at hi
    simp [hi]
  · have hd1 : ¬ p.dimension = 1 := by omega
    have : q = 0 ∨ q = 1 ∨ q = 2 := by simp [subbandsPerWT, hd] at hq; omega
    unfold detailStep at hi hj ⊢
    rcases this with rfl | rfl | rfl
    all_goals
      simp only [if_neg hd1, nullDenoiser, List.getD, List.getElem?_cons_zero, List.getElem?_cons_succ, Option.getD_some] at hi hj ⊢
      rw [h2, Mat.get_map _ _ hi hj]

/-- Coefficients of two channels agree where the samples they reach agree. -/
theorem chan_same {k : Kit α} {p : Params} (hv : ValidParams p) (hf : FilterLen k p) {den : Denoiser α} (hden : Pointwise den) {x y : Mat α}
    (hx : Shaped p x) (hy : Shaped p y) :
    (∀ s < p.steps, ∀ q < subbandsPerWT p, ∀ i < ((chanP p (scaling k p) den x).getD (s * subbandsPerWT p + q) default).rows,
      ∀ j < ((chanP p (scaling k p) den x).getD (s * subbandsPerWT p + q) default).cols,
      (∀ a < (padOf p x).rows, ∀ b < (padOf p x).cols, Reaches p.wtype (padOf p x).rows (s + 1) i a →
        Reaches p.wtype (padOf p x).cols (s + 1) j b → (padOf p x).get a b = (padOf p y).get a b) →
      ((chanP p (scaling k p) den x).getD (s * subbandsPerWT p + q) default).get i j =
        ((chanP p (scaling k p) den y).getD (s * subbandsPerWT p + q) default).get i j) ∧
    ∀ i < ((chanP p (scaling k p) den x).getD (p.steps * subbandsPerWT p) default).rows,
      ∀ j < ((chanP p (scaling k p) den x).getD (p.steps * subbandsPerWT p) default).cols,
      (∀ a < (padOf p x).rows, ∀ b < (padOf p x).cols, Reaches p.wtype (padOf p x).rows p.steps i a →
        Reaches p.wtype (padOf p x).cols p.steps j b → (padOf p x).get a b = (padOf p y).get a b) →
      ((chanP p (scaling k p) den x).getD (p.steps * subbandsPerWT p) default).get i j =
        ((chanP p (scaling k p) den y).getD (p.steps * subbandsPerWT p) default).get i j := by
  have fx := fits_padOf hv hx
  have fy := fits_padOf hv hy
  have hd : p.dimension = 1 ∨ p.dimension = 2 := by
    rcases shape_cases hv with ⟨_, _, hd⟩ | ⟨_, _, _, hd⟩
    · exact .inl hd
    · exact .inr hd
  refine ⟨?_, ?_⟩
  · intro s hs q hq i hi j hj h
    have s1 := fits_sig (k := k) hv fx (show s ≤ p.steps by omega)
    have s2 := fits_sig (k := k) hv fy (show s ≤ p.steps by omega)
    have s3 := fits_sig (k := k) hv fx (show s + 1 ≤ p.steps by omega)
    have a0 := detailStep_fits (k := k) hv (pointwise_sized hden) hs s1 hq
    have a1 := detailStep_fits (k := k) hv nullDenoiser_sized hs s1 hq
    have a2 := detailStep_fits (k := k) hv nullDenoiser_sized hs s2 hq
    rw [chanP_detail _ _ _ _ hs hq] at hi hj ⊢
    rw [chanP_detail _ _ _ _ hs hq]
    have hi' := hi
    have hj' := hj
    rw [a0.1] at hi'
    rw [a0.2] at hj'
    obtain ⟨g, h1, h2⟩ := hden
    rw [pointwise_get g h1 h2 hd hq (by rw [a1.1]; exact hi') (by rw [a1.2]; exact hj'),
      pointwise_get g h1 h2 hd hq (by rw [a2.1]; exact hi') (by rw [a2.2]; exact hj')]
    congr 1
    exact detail_same hv hf fx fy hs hq (by rw [s3.1]; exact hi') (by rw [s3.2]; exact hj') h
  · intro i hi j hj h
    rw [chanP_last] at hi hj ⊢
    rw [chanP_last]
    exact sig_same hv hf fx fy le_rfl i hi j hj h

theorem reconP_one {p : Params} {h : List α} {c : Channel α} {s : ℕ} (hs : s < p.steps) :
    reconP p h s c = synthStep p h (reconP p h (s + 1) c) (detailsAt p c s) := by
  have last : ∀ (n i : ℕ) (m : Mat α),
      reconFrom p h c (n + 1) i m = synthStep p h (reconFrom p h c n i m) (detailsAt p c (i - n - 1)) := by
    intro n
    induction n with
    | zero => intro i m; rfl
    | succ n ih =>
      intro i m
      rw [reconFrom, ih, reconFrom]
      congr 2
      omega
  unfold reconP
  rw [show p.steps - s = (p.steps - (s + 1)) + 1 by omega, last]
  congr 2
  omega

theorem fits_recon {p : Params} (hv : ValidParams p) {h : List α} {c : Channel α} (hc : SizedChan p c) {n : ℕ} (hn : n ≤ p.steps) :
    Fits p (p.steps - n) (reconP p h (p.steps - n) c) := by
  induction n with
  | zero =>
    unfold reconP
    rw [Nat.sub_zero, Nat.sub_self]
    exact hc.2.2
  | succ n ih =>
    rw [reconP_one (by omega)]
    have e : p.steps - (n + 1) + 1 = p.steps - n := by omega
    refine fits_synth hv h (by omega) ?_ _
    rw [e]
    exact ih (by omega)

theorem detailsAt_sub {p : Params} {c : Channel α} {s q : ℕ} (hq : q < subbandsPerWT p) :
    (detailsAt p c s).getD q default = c.getD (s * subbandsPerWT p + q) default := by
  unfold detailsAt
  rw [getD_map_range' _ _ _ hq]

/-- A composed sample depends on the coefficients that reach it. -/
theorem recon_same {k : Kit α} {p : Params} (hv : ValidParams p) (hf : FilterLen k p) {c c' : Channel α} (hc : SizedChan p c)
    (hc' : SizedChan p c') {n : ℕ} (hn : n ≤ p.steps) {i j : ℕ} (hi : i < (reconP p (scaling k p) (p.steps - n) c).rows)
    (hj : j < (reconP p (scaling k p) (p.steps - n) c).cols)
    (h1 : ∀ s', p.steps - n ≤ s' → s' < p.steps → ∀ q < subbandsPerWT p, ∀ a < (c.getD (s' * subbandsPerWT p + q) default).rows,
      ∀ b < (c.getD (s' * subbandsPerWT p + q) default).cols,
      Reaches p.wtype (reconP p (scaling k p) (p.steps - n) c).rows (s' + 1 - (p.steps - n)) a i →
      Reaches p.wtype (reconP p (scaling k p) (p.steps - n) c).cols (s' + 1 - (p.steps - n)) b j →
      (c.getD (s' * subbandsPerWT p + q) default).get a b = (c'.getD (s' * subbandsPerWT p + q) default).get a b)
    (h2 : ∀ a < (c.getD (p.steps * subbandsPerWT p) default).rows, ∀ b < (c.getD (p.steps * subbandsPerWT p) default).cols,
      Reaches p.wtype (reconP p (scaling k p) (p.steps - n) c).rows n a i →
      Reaches p.wtype (reconP p (scaling k p) (p.steps - n) c).cols n b j →
      (c.getD (p.steps * subbandsPerWT p) default).get a b = (c'.getD (p.steps * subbandsPerWT p) default).get a b) :
    (reconP p (scaling k p) (p.steps - n) c).get i j = (reconP p (scaling k p) (p.steps - n) c').get i j := by
  induction n generalizing i j with
  | zero =>
    have e : ∀ c : Channel α, reconP p (scaling k p) (p.steps - 0) c = c.getD (p.steps * subbandsPerWT p) default := by
      intro c
      unfold reconP
      rw [Nat.sub_zero, Nat.sub_self]
      rfl
    rw [e] at hi hj h2 ⊢
    rw [e]
    exact h2 i hi j hj (reaches_zero hi) (reaches_zero hj)
  | succ n ih =>
    have hs : p.steps - (n + 1) < p.steps := by omega
    have e : p.steps - (n + 1) + 1 = p.steps - n := by omega
    have f0 := fits_recon (h := scaling k p) hv hc hn
    have fl := fits_recon (h := scaling k p) hv hc (show n ≤ p.steps by omega)
    have fl' := fits_recon (h := scaling k p) hv hc' (show n ≤ p.steps by omega)
    have fl1 : Fits p (p.steps - (n + 1) + 1) (reconP p (scaling k p) (p.steps - n) c) := by rw [e]; exact fl
    have fl1' : Fits p (p.steps - (n + 1) + 1) (reconP p (scaling k p) (p.steps - n) c') := by rw [e]; exact fl'
    have ers : ∀ c : Channel α, reconP p (scaling k p) (p.steps - (n + 1)) c =
        synthStep p (scaling k p) (reconP p (scaling k p) (p.steps - n) c) (detailsAt p c (p.steps - (n + 1))) := fun c => by
      rw [reconP_one hs, e]
    have hr : (reconP p (scaling k p) (p.steps - (n + 1)) c).rows = 2 * (reconP p (scaling k p) (p.steps - n) c).rows ∧
        (if p.dimension = 1 then (reconP p (scaling k p) (p.steps - (n + 1)) c).cols = 1
          else (reconP p (scaling k p) (p.steps - (n + 1)) c).cols = 2 * (reconP p (scaling k p) (p.steps - n) c).cols) := by
      rcases fits_up hv hs fl1 with ⟨hd, q1, q2, q3⟩ | ⟨hd, q1, q2, q3, q4, q5⟩
      · rw [if_pos hd, f0.1, f0.2, if_pos hd]; exact ⟨by omega, rfl⟩
      · rw [if_neg (by omega), f0.1, f0.2, if_neg (by omega)]; exact ⟨q3, q4⟩
    have up : ∀ {m a' b' a b : ℕ}, Reaches p.wtype (reconP p (scaling k p) (p.steps - n) c).rows m a' a →
        Reaches p.wtype (reconP p (scaling k p) (p.steps - n) c).cols m b' b →
        Reaches p.wtype (reconP p (scaling k p) (p.steps - (n + 1)) c).rows 1 a i →
        Reaches p.wtype (reconP p (scaling k p) (p.steps - (n + 1)) c).cols 1 b j →
        Reaches p.wtype (reconP p (scaling k p) (p.steps - (n + 1)) c).rows (m + 1) a' i ∧
        Reaches p.wtype (reconP p (scaling k p) (p.steps - (n + 1)) c).cols (m + 1) b' j := by
      intro m a' b' a b g1 g2 g3 g4
      rw [hr.1] at g3 ⊢
      refine ⟨reaches_up g1 g3, ?_⟩
      by_cases hd : p.dimension = 1
      · have hcol := hr.2
        rw [if_pos hd] at hcol
        rw [hcol] at hj ⊢
        obtain rfl : j = 0 := by omega
        exact reaches_line
      · have hcol := hr.2
        rw [if_neg hd] at hcol
        rw [hcol] at g4 ⊢
        exact reaches_up g2 g4
    rw [ers c, ers c']
    rw [ers c] at hi hj
    refine synth_same (k := k) hv hf hs fl1 fl1'
      (fun q hq => by rw [detailsAt_sub hq]; exact hc.2.1 _ hs q hq) (fun q hq => by rw [detailsAt_sub hq]; exact hc'.2.1 _ hs q hq) hi hj ?_
    intro a ha b hb ra rb
    rw [← ers c] at ra rb
    refine ⟨?_, ?_⟩
    · refine ih (by omega) ha hb ?_ ?_
      · intro s' hs1 hs2 q hq a' ha' b' hb' g1 g2
        obtain ⟨g3, g4⟩ := up g1 g2 ra rb
        rw [show s' + 1 - (p.steps - n) + 1 = s' + 1 - (p.steps - (n + 1)) by omega] at g3 g4
        exact h1 s' (by omega) hs2 q hq a' ha' b' hb' g3 g4
      · intro a' ha' b' hb' g1 g2
        obtain ⟨g3, g4⟩ := up g1 g2 ra rb
        exact h2 a' ha' b' hb' g3 g4
    · intro q hq
      rw [detailsAt_sub hq, detailsAt_sub hq]
      have fq := hc.2.1 _ hs q hq
      have e1 : p.steps - (n + 1) + 1 - (p.steps - (n + 1)) = 1 := by omega
      rw [e] at fq
      exact h1 _ le_rfl hs q hq a (by rw [fq.1, ← fl.1]; exact ha) b (by rw [fq.2, ← fl.2]; exact hb) (by rw [e1]; exact ra) (by rw [e1]; exact rb)

end Poly

end WB
