import Verif.Spec.Polarity
import Verif.Props.Local

/-!
A relation between two signals that survives sums, products and quotients survives decomposition and composition.
-/

namespace WB.Props

open Spec

section
set_option linter.unusedSectionVars false
variable {α : Type} [Zero α] [Add α] [Mul α] [Neg α] [Inhabited α] {R : α → α → Prop} {k : Kit α}

theorem getD_rel {v w : List α} {d : α} (hd : R d d) (h : List.Forall₂ R v w) (i : ℕ) : R (v.getD i d) (w.getD i d) := by
  rcases Nat.lt_or_ge i v.length with hi | hi
  · rw [List.getD_eq_getElem _ _ hi, List.getD_eq_getElem _ _ (by rw [← h.length_eq]; exact hi)]
    exact h.get hi (by rw [← h.length_eq]; exact hi)
  · rw [List.getD_eq_default _ _ hi, List.getD_eq_default _ _ (by rw [← h.length_eq]; exact hi)]
    exact hd

theorem map_range_rel {β : Type} {S : β → β → Prop} {n n' : ℕ} (hn : n' = n) {f g : ℕ → β} (h : ∀ i < n, S (f i) (g i)) :
    List.Forall₂ S ((List.range n).map f) ((List.range n').map g) := by
  subst hn
  rw [List.forall₂_iff_get]
  refine ⟨by simp, fun i h1 h2 => ?_⟩
  simp only [List.get_eq_getElem, List.getElem_map, List.getElem_range]
  exact h i (by simpa using h1)

theorem foldl_rel {β : Type} (hR : Survives k R) {f g : β → α} : ∀ (l : List β) (a a' : α), R a a' → (∀ e ∈ l, R (f e) (g e)) →
    R (l.foldl (fun acc e => acc + f e) a) (l.foldl (fun acc e => acc + g e) a')
  | [], _, _, h, _ => h
  | e :: l, _, _, h, he => by
    rw [List.foldl_cons, List.foldl_cons]
    exact foldl_rel hR l _ _ (hR.add _ _ _ _ h (he e List.mem_cons_self)) fun e' h' => he e' (List.mem_cons_of_mem _ h')

theorem anaP_rel (hR : Survives k R) {x x' : List α} (h : List.Forall₂ R x x') (f : List α) (i : ℕ) : R (anaP x f i) (anaP x' f i) := by
  unfold anaP
  rw [← h.length_eq]
  exact foldl_rel hR _ _ _ hR.zero fun j _ => (hR.mul _ _ _ (getD_rel hR.zero h _)).1

theorem synP_rel (hR : Survives k R) {x x' y y' : List α} (hx : List.Forall₂ R x x') (hy : List.Forall₂ R y y') (lo hi : List α) (i : ℕ) :
    R (synP x y lo hi i) (synP x' y' lo hi i) := by
  unfold synP
  rw [← hx.length_eq]
  have step : ∀ (l : List ℕ) (a a' : α), R a a' → R
      (l.foldl (fun acc jj => acc + lo.getD ((if i % 2 = 0 then 1 else 0) + 2 * jj) 0 * x.getD ((x.length - (lo.length - 2) / 2 + i / 2 + jj) % x.length) 0
        + hi.getD ((if i % 2 = 0 then 1 else 0) + 2 * jj) 0 * y.getD ((x.length - (lo.length - 2) / 2 + i / 2 + jj) % x.length) 0) a)
      (l.foldl (fun acc jj => acc + lo.getD ((if i % 2 = 0 then 1 else 0) + 2 * jj) 0 * x'.getD ((x.length - (lo.length - 2) / 2 + i / 2 + jj) % x.length) 0
        + hi.getD ((if i % 2 = 0 then 1 else 0) + 2 * jj) 0 * y'.getD ((x.length - (lo.length - 2) / 2 + i / 2 + jj) % x.length) 0) a') := by
    intro l
    induction l with
    | nil => exact fun _ _ h => h
    | cons e l ih =>
      intro a a' h
      rw [List.foldl_cons, List.foldl_cons]
      exact ih _ _ (hR.add _ _ _ _ (hR.add _ _ _ _ h (hR.mul _ _ _ (getD_rel hR.zero hx _)).2) (hR.mul _ _ _ (getD_rel hR.zero hy _)).2)
  exact step _ _ _ hR.zero

theorem mulP_rel (hR : Survives k R) {x x' : List α} (h : List.Forall₂ R x x') (m : SpMat α) (i : ℕ) :
    R ((m.mulP x).getD i default) ((m.mulP x').getD i default) := by
  refine getD_rel hR.fill ?_ i
  unfold SpMat.mulP
  rw [List.forall₂_map_left_iff, List.forall₂_map_right_iff, List.forall₂_same]
  exact fun r _ => foldl_rel hR _ _ _ hR.zero fun e _ => (hR.mul _ _ _ (getD_rel hR.zero h _)).2

theorem row_rel {m m' : Mat α} (h : RelatedMats R m m') {i : ℕ} (hi : i < m.rows) : List.Forall₂ R (m.row i) (m'.row i) :=
  map_range_rel h.2.1 fun j hj => h.2.2 i hi j hj

theorem col_rel {m m' : Mat α} (h : RelatedMats R m m') {j : ℕ} (hj : j < m.cols) : List.Forall₂ R (m.col j) (m'.col j) :=
  map_range_rel h.1 fun i hi => h.2.2 i hi j hj

theorem ofFn_rel {r c r' c' : ℕ} (hr : r' = r) (hc : c' = c) {f g : ℕ → ℕ → α} (h : ∀ i < r, ∀ j < c, R (f i j) (g i j)) :
    RelatedMats R (Mat.ofFn r c f) (Mat.ofFn r' c' g) := by
  subst hr hc
  refine ⟨rfl, rfl, fun i hi j hj => ?_⟩
  simp only [Mat.rows_ofFn, Mat.cols_ofFn] at hi hj
  rw [Mat.get_ofFn hi hj, Mat.get_ofFn hi hj]
  exact h i hi j hj

theorem ofCol_rel (hR : R default default) {v w : List α} (h : List.Forall₂ R v w) : RelatedMats R (Mat.ofCol v) (Mat.ofCol w) := by
  refine ⟨h.length_eq.symm, rfl, fun i _ j hj => ?_⟩
  obtain rfl : j = 0 := by simpa using hj
  rw [Mat.get_ofCol, Mat.get_ofCol]
  exact getD_rel hR h i

theorem rowsP_rel (hR : Survives k R) {m m' : Mat α} (h : RelatedMats R m m') (w : SpMat α) : RelatedMats R (rowsP m w) (rowsP m' w) :=
  ofFn_rel h.1 h.2.1 fun _ hi j _ => mulP_rel hR (row_rel h hi) w j

theorem colsP_rel (hR : Survives k R) {m m' : Mat α} (h : RelatedMats R m m') (w : SpMat α) : RelatedMats R (colsP m w) (colsP m' w) :=
  ofFn_rel h.1 h.2.1 fun i _ _ hj => mulP_rel hR (col_rel h hj) w i

theorem default_rel : RelatedMats R (default : Mat α) default := ⟨rfl, rfl, fun i hi => absurd hi (Nat.not_lt_zero i)⟩

theorem getD_mat_rel {c c' : List (Mat α)} (h : List.Forall₂ (RelatedMats R) c c') (i : ℕ) : RelatedMats R (c.getD i default) (c'.getD i default) := by
  rcases Nat.lt_or_ge i c.length with hi | hi
  · rw [List.getD_eq_getElem _ _ hi, List.getD_eq_getElem _ _ (by rw [← h.length_eq]; exact hi)]
    exact h.get hi (by rw [← h.length_eq]; exact hi)
  · rw [List.getD_eq_default _ _ hi, List.getD_eq_default _ _ (by rw [← h.length_eq]; exact hi)]
    exact default_rel

theorem quad_rel (hR : Survives k R) (h : List α) {m m' : Mat α} (hm : RelatedMats R m m') :
    RelatedMats R (quadOf h m).ll (quadOf h m').ll ∧ RelatedMats R (quadOf h m).lh (quadOf h m').lh ∧ RelatedMats R (quadOf h m).hl (quadOf h m').hl ∧
      RelatedMats R (quadOf h m).hh (quadOf h m').hh := by
  unfold quadOf
  rw [hm.1, hm.2.1]
  have g := colsP_rel hR (rowsP_rel hR hm (daubP h (qmf h) m.cols)) (daubP h (qmf h) m.rows)
  have e1 : (colsP (rowsP m (daubP h (qmf h) m.cols)) (daubP h (qmf h) m.rows)).rows = m.rows := rfl
  have e2 : (colsP (rowsP m (daubP h (qmf h) m.cols)) (daubP h (qmf h) m.rows)).cols = m.cols := rfl
  refine ⟨ofFn_rel rfl rfl fun i hi j hj => g.2.2 _ (by omega) _ (by omega), ofFn_rel rfl rfl fun i hi j hj => g.2.2 _ (by omega) _ (by omega),
    ofFn_rel rfl rfl fun i hi j hj => g.2.2 _ (by omega) _ (by omega), ofFn_rel rfl rfl fun i hi j hj => g.2.2 _ (by omega) _ (by omega)⟩

theorem approx_rel (hR : Survives k R) {p : Params} (h : List α) {m m' : Mat α} (hm : RelatedMats R m m') (hc : p.dimension = 1 → 0 < m.cols) :
    RelatedMats R (approxStep p h m) (approxStep p h m') := by
  unfold approxStep
  split_ifs with hd
  · exact ofCol_rel hR.fill (map_range_rel (by rw [hm.1]) fun i _ => anaP_rel hR (col_rel hm (hc hd)) h i)
  · exact (quad_rel hR h hm).1

theorem detail_rel (hR : Survives k R) {p : Params} (h : List α) {den : Denoiser α} (hden : DenoiserKeeps R den) (s : ℕ) {m m' : Mat α} (hm : RelatedMats R m m')
    (hc : p.dimension = 1 → 0 < m.cols) : List.Forall₂ (RelatedMats R) (detailStep p h den s m) (detailStep p h den s m') := by
  unfold detailStep
  split_ifs with hd
  · exact .cons (ofCol_rel hR.fill (hden.1 _ _ _ (map_range_rel (by rw [hm.1]) fun i _ => anaP_rel hR (col_rel hm (hc hd)) _ i))) .nil
  · obtain ⟨_, q2, q3, q4⟩ := quad_rel hR h hm
    exact .cons (hden.2 _ _ _ q2) (.cons (hden.2 _ _ _ q3) (.cons (hden.2 _ _ _ q4) .nil))

theorem pad_rel {p : Params} {m m' : Mat α} (hm : RelatedMats R m m') (h0 : p.wtype ≠ 0 → 0 < m.rows ∧ 0 < m.cols) :
    RelatedMats R (padOf p m) (padOf p m') := by
  unfold padOf
  split_ifs with ht
  · exact hm
  · obtain ⟨hr, hc⟩ := h0 ht
    rw [hm.1, hm.2.1]
    refine ofFn_rel rfl rfl fun i _ j _ => hm.2.2 _ ?_ _ ?_
    · unfold clampIdx; omega
    · unfold clampIdx; omega

theorem sig_rel (hR : Survives k R) {p : Params} (h : List α) {m m' : Mat α} (hm : RelatedMats R m m') (hc : p.dimension = 1 → 0 < m.cols) :
    ∀ s, RelatedMats R (sig p h m s) (sig p h m' s) ∧ (p.dimension = 1 → 0 < (sig p h m s).cols)
  | 0 => ⟨hm, hc⟩
  | s + 1 => by
    obtain ⟨k1, k2⟩ := sig_rel hR h hm hc s
    refine ⟨approx_rel hR h k1 k2, fun hd => ?_⟩
    show 0 < (approxStep p h _).cols
    unfold approxStep
    rw [if_pos hd]
    exact Nat.one_pos

theorem flatMap_rel {β γ : Type} {S : γ → γ → Prop} {f g : β → List γ} : ∀ (l : List β), (∀ e ∈ l, List.Forall₂ S (f e) (g e)) →
    List.Forall₂ S (l.flatMap f) (l.flatMap g)
  | [], _ => .nil
  | e :: l, h => by
    rw [List.flatMap_cons, List.flatMap_cons]
    exact List.rel_append (h e List.mem_cons_self) (flatMap_rel l fun e' h' => h e' (List.mem_cons_of_mem _ h'))

theorem chan_rel (hR : Survives k R) {p : Params} (h : List α) {den : Denoiser α} (hden : DenoiserKeeps R den) {m m' : Mat α} (hm : RelatedMats R m m')
    (hv : ValidParams p) (hs : Shaped p m) : List.Forall₂ (RelatedMats R) (chanP p h den m) (chanP p h den m') := by
  have pc : p.dimension = 1 → 0 < (padOf p m).cols := by
    intro hd
    unfold padOf
    split_ifs
    · rcases shape_cases hv with ⟨a, hsh, _⟩ | ⟨a, c, _, hd'⟩
      · rw [hs.2, hsh]; exact Nat.one_pos
      · omega
    · show 0 < matCols (paddedShape p)
      have : (paddedShape p).length = 1 := by
        unfold paddedShape
        split_ifs <;> simpa [Params.dimension] using hd
      match hs : paddedShape p, this with
      | [a], _ => simp [matCols]
  have g := sig_rel hR h (pad_rel (p := p) hm fun ht => by
    obtain ⟨a, b, _⟩ := padded_ge hv ht
    rw [hs.1, hs.2]
    exact ⟨a, b⟩) pc
  unfold chanP
  refine List.rel_append (flatMap_rel _ fun s _ => detail_rel hR h hden s (g s).1 (g s).2) (.cons (g _).1 .nil)

theorem synth_rel (hR : Survives k R) {p : Params} (h : List α) {low low' : Mat α} (hl : RelatedMats R low low') {ds ds' : List (Mat α)}
    (hd : List.Forall₂ (RelatedMats R) ds ds') (hc : p.dimension = 1 → 0 < low.cols ∧ 0 < (ds.getD 0 default).cols)
    (hs : p.dimension ≠ 1 → ∀ j < 3, (ds.getD j default).rows = low.rows ∧ (ds.getD j default).cols = low.cols) :
    RelatedMats R (synthStep p h low ds) (synthStep p h low' ds') := by
  unfold synthStep
  split_ifs with h1
  · exact ofCol_rel hR.fill (map_range_rel (by rw [hl.1]) fun i _ =>
      synP_rel hR (col_rel hl (hc h1).1) (col_rel (getD_mat_rel hd 0) (hc h1).2) _ _ i)
  · rw [hl.1, hl.2.1]
    refine colsP_rel hR (rowsP_rel hR ?_ _) _
    obtain ⟨a1, b1⟩ := hs h1 0 (by norm_num)
    obtain ⟨a2, b2⟩ := hs h1 1 (by norm_num)
    obtain ⟨a3, b3⟩ := hs h1 2 (by norm_num)
    unfold assemble
    refine ofFn_rel rfl rfl fun i hi j hj => ?_
    by_cases hi2 : i < low.rows <;> by_cases hj2 : j < low.cols <;> simp only [hi2, hj2, if_true, if_false]
    · exact hl.2.2 _ hi2 _ hj2
    · exact (getD_mat_rel hd 1).2.2 _ (by omega) _ (by omega)
    · exact (getD_mat_rel hd 0).2.2 _ (by omega) _ (by omega)
    · exact (getD_mat_rel hd 2).2.2 _ (by omega) _ (by omega)

theorem recon_rel (hR : Survives k R) {p : Params} (hv : ValidParams p) {c c' : Channel α} (hc : SizedChan p c) (h : List.Forall₂ (RelatedMats R) c c') {n : ℕ}
    (hn : n ≤ p.steps) : RelatedMats R (reconP p (scaling k p) (p.steps - n) c) (reconP p (scaling k p) (p.steps - n) c') := by
  induction n with
  | zero =>
    unfold reconP
    rw [Nat.sub_zero, Nat.sub_self]
    exact getD_mat_rel h _
  | succ n ih =>
    have e : p.steps - (n + 1) + 1 = p.steps - n := by omega
    have f := fits_recon (h := scaling k p) hv hc (show n ≤ p.steps by omega)
    rw [← e] at f ih
    rw [reconP_one (c := c) (s := p.steps - (n + 1)) (by omega), reconP_one (c := c') (s := p.steps - (n + 1)) (by omega)]
    have hlt : p.steps - (n + 1) < p.steps := by omega
    have q : ∀ j < subbandsPerWT p, (detailsAt p c (p.steps - (n + 1))).getD j default = c.getD ((p.steps - (n + 1)) * subbandsPerWT p + j) default :=
      fun j hj => getD_map_range' _ _ _ hj
    have q' := hc.2.1 _ hlt
    refine synth_rel hR _ (ih (by omega)) (map_range_rel rfl fun j _ => getD_mat_rel h _) (fun hd => ?_) (fun hd j hj => ?_)
    · have s1 : 0 < subbandsPerWT p := by simp [subbandsPerWT, hd]
      rw [q 0 s1, (q' 0 s1).2, f.2]
      simp [hd]
    · rcases fits_up hv hlt f with ⟨hd', _⟩ | ⟨hd', _⟩
      · exact absurd hd' hd
      · have s1 : j < subbandsPerWT p := by simpa [subbandsPerWT, hd'] using hj
        rw [q j s1]
        exact ⟨(q' j s1).1.trans f.1.symm, (q' j s1).2.trans f.2.symm⟩

theorem finish_rel (hR : Survives k R) {p : Params} (hv : ValidParams p) {s : ℕ} {m m' : Mat α} (hm : Fits p s m) (h : RelatedMats R m m') :
    RelatedMats R (finishP k p s m) (finishP k p s m') := by
  obtain ⟨l1, l2⟩ := scaled_le hv hm
  have g : RelatedMats R (cropOf p s m) (cropOf p s m') := by
    unfold cropOf
    simp only
    split_ifs
    · exact h
    · rw [h.1, h.2.1]
      refine ofFn_rel rfl rfl fun i hi j hj => h.2.2 _ ?_ _ ?_
      · unfold padOffset; simp; omega
      · unfold padOffset; simp; omega
  unfold finishP
  split_ifs
  · refine ⟨g.1, g.2.1, fun i hi j hj => ?_⟩
    simp only [Mat.rows_map, Mat.cols_map] at hi hj
    rw [Mat.get_map _ _ hi hj, Mat.get_map _ _ (by rw [g.1]; exact hi) (by rw [g.2.1]; exact hj)]
    exact hR.div _ _ _ _ (g.2.2 i hi j hj)
  · exact g

theorem out_rel (hR : Survives k R) {p : Params} (hv : ValidParams p) {s : ℕ} (hs : s ≤ p.steps) {c c' : Channel α} (hc : SizedChan p c)
    (h : List.Forall₂ (RelatedMats R) c c') : RelatedMats R (outP k p s c) (outP k p s c') := by
  have e : p.steps - (p.steps - s) = s := by omega
  have f := fits_recon (h := scaling k p) hv hc (show p.steps - s ≤ p.steps by omega)
  have g := recon_rel (k := k) hR hv hc h (n := p.steps - s) (by omega)
  rw [e] at f g
  exact finish_rel hR hv f g

end

end WB.Props
