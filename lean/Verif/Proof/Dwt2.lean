import Verif.Proof.Sparse
import Mathlib.Data.List.GetD
import Mathlib.Algebra.BigOperators.Group.List.Lemmas

/-!
2D transform: inverse returns normally (any scalars); over a ring both directions in terms of the kernel, and perfect
reconstruction.
-/

set_option linter.unusedSectionVars false

namespace WB

open Finset

variable {α : Type}

section Poly
variable [Zero α] [Add α] [Mul α] [Inhabited α]

theorem idwt2_ok {q : Quad α} {w h : SpMat α} {sh sw : ℕ} (hw : w.Good) (hh : h.Good) (hwc : w.cols = 2 * sw)
    (hwr : w.rows = 2 * sw) (hhc : h.cols = 2 * sh) (hhr : h.rows = 2 * sh) (hq : q.Sized sh sw) :
    idwt2 q w h = .ok (colsP (rowsP (assemble q sh sw) w) h) := by
  obtain ⟨⟨r1, c1⟩, ⟨r2, c2⟩, ⟨r3, c3⟩, ⟨r4, c4⟩⟩ := hq
  unfold idwt2
  simp only [r1, c1, r2, c2, r3, c3, r4, c4]
  rw [Raw.fill_ok (by simp [Raw.new]; omega) (by simp [Raw.new]; omega), Outcome.bind_ok,
    Raw.fill_ok (by simp [Raw.new, Raw.upd]; omega) (by simp [Raw.new, Raw.upd]; omega), Outcome.bind_ok,
    Raw.fill_ok (by simp [Raw.new, Raw.upd]; omega) (by simp [Raw.new, Raw.upd]; omega), Outcome.bind_ok,
    Raw.fill_ok (by simp [Raw.new, Raw.upd]; omega) (by simp [Raw.new, Raw.upd]; omega), Outcome.bind_ok]
  rw [Raw.done_ok (f := fun i j =>
    if i < sh then (if j < sw then q.ll.get i j else q.hl.get i (j - sw))
    else (if j < sw then q.lh.get (i - sh) j else q.hh.get (i - sh) (j - sw)))]
  · rw [Outcome.bind_ok]
    have : Mat.ofFn h.rows w.rows (fun i j =>
        if i < sh then (if j < sw then q.ll.get i j else q.hl.get i (j - sw))
        else (if j < sw then q.lh.get (i - sh) j else q.hh.get (i - sh) (j - sw))) = assemble q sh sw := by
      unfold assemble; rw [hhr, hwr]
    simp only [Raw.upd, Raw.new]
    rw [this]
    exact dwt2s_ok hw hh (by simp [assemble, hwc]) (by simp [assemble, hwr]) (by simp [assemble, hhc])
      (by simp [assemble, hhr])
  · intro i hi j hj
    simp only [Raw.upd, Raw.new] at hi hj ⊢
    by_cases h1 : i < sh
    · by_cases h2 : j < sw
      · rw [if_neg (by omega), if_neg (by omega), if_neg (by omega), if_pos (by omega), if_pos h1, if_pos h2]; simp
      · rw [if_neg (by omega), if_pos (by omega), if_pos h1, if_neg h2]; simp
    · by_cases h2 : j < sw
      · rw [if_neg (by omega), if_neg (by omega), if_pos (by omega), if_neg h1, if_pos h2]; simp
      · rw [if_pos (by omega), if_neg h1, if_neg h2]

theorem quadP_sized (y : Mat α) (sh sw : ℕ) : (quadP y sh sw).Sized sh sw :=
  ⟨⟨rfl, rfl⟩, ⟨rfl, rfl⟩, ⟨rfl, rfl⟩, ⟨rfl, rfl⟩⟩

theorem assemble_quadP (y : Mat α) (sh sw : ℕ) (hr : y.rows = 2 * sh) (hc : y.cols = 2 * sw) :
    assemble (quadP y sh sw) sh sw = y := by
  refine Mat.ext' (by simp [assemble, hr]) (by simp [assemble, hc]) ?_
  intro i hi j hj
  simp only [assemble, Mat.rows_ofFn, Mat.cols_ofFn] at hi hj
  unfold assemble quadP
  rw [Mat.get_ofFn hi hj]
  split_ifs with h1 h2 h2
  · rw [Mat.get_ofFn h1 h2]
  · rw [Mat.get_ofFn h1 (by omega)]; congr 1; omega
  · rw [Mat.get_ofFn (by omega) h2]; congr 1; omega
  · rw [Mat.get_ofFn (by omega) (by omega)]; congr 1 <;> omega

end Poly

section Ring
variable {R : Type} [CommRing R]

/-- Entry of a sparse matrix. -/
def SpMat.ker (m : SpMat R) (i k : ℕ) : R := (((m.rowsE.getD i []).filter (fun e => e.1 = k)).map Prod.snd).sum

theorem foldl_entries (r : List (ℕ × R)) (x : List R) (a : R) :
    r.foldl (fun acc e => acc + e.2 * x.getD e.1 0) a = a + (r.map (fun e => e.2 * x.getD e.1 0)).sum := by
  induction r generalizing a with
  | nil => simp
  | cons e r ih => rw [List.foldl_cons, ih]; simp [add_assoc]

theorem sum_entries (r : List (ℕ × R)) (n : ℕ) (g : ℕ → R) (hr : ∀ e ∈ r, e.1 < n) :
    (r.map (fun e => e.2 * g e.1)).sum = ∑ k ∈ range n, ((r.filter (fun e => e.1 = k)).map Prod.snd).sum * g k := by
  induction r with
  | nil => simp
  | cons e r ih =>
    rw [List.map_cons, List.sum_cons, ih (fun e' he' => hr e' (by simp [he']))]
    have he : e.1 < n := hr e (by simp)
    have : ∀ k ∈ range n, (((e :: r).filter (fun e => e.1 = k)).map Prod.snd).sum * g k =
        (if e.1 = k then e.2 * g k else 0) + ((r.filter (fun e => e.1 = k)).map Prod.snd).sum * g k := by
      intro k _
      by_cases h : e.1 = k
      · simp [h, add_mul]
      · simp [h]
    rw [sum_congr rfl this, sum_add_distrib, sum_ite_eq, if_pos (mem_range.2 he)]

theorem mulP_getD {m : SpMat R} (hg : m.Good) (x : List R) {i : ℕ} (hi : i < m.rows) (d : R) :
    (m.mulP x).getD i d = ∑ k ∈ range m.cols, m.ker i k * x.getD k 0 := by
  unfold SpMat.mulP SpMat.ker
  have hi' : i < m.rowsE.length := hi
  simp only [List.getD, List.getElem?_map, List.getElem?_eq_getElem hi', Option.map_some, Option.getD_some]
  rw [show (fun acc (e : ℕ × R) => acc + e.2 * (x[e.1]?.getD 0)) = (fun acc (e : ℕ × R) => acc + e.2 * x.getD e.1 0) from rfl,
    foldl_entries, zero_add, sum_entries _ m.cols (fun k => x.getD k 0) (hg _ (List.getElem_mem hi'))]
  rfl

theorem filter_flatMap_sum (l : List (List (ℕ × R) × ℕ)) (j i : ℕ) :
    (((l.flatMap (fun (r, i) => (r.filter (fun e => e.1 = j)).map (fun e => (i, e.2)))).filter
      (fun e => e.1 = i)).map Prod.snd).sum =
    (l.map (fun ri => if ri.2 = i then ((ri.1.filter (fun e => e.1 = j)).map Prod.snd).sum else 0)).sum := by
  induction l with
  | nil => simp
  | cons a l ih =>
    rw [List.flatMap_cons, List.filter_append, List.map_append, List.sum_append, ih, List.map_cons, List.sum_cons]
    congr 1
    obtain ⟨r, q⟩ := a
    simp only [List.filter_map, List.map_map]
    by_cases h : q = i
    · subst h
      simp [Function.comp_def]
    · simp [h, Function.comp_def]

theorem sum_zipIdx (l : List (List (ℕ × R))) (F : List (ℕ × R) → R) (i s : ℕ) (hi : i < l.length) :
    ((l.zipIdx s).map (fun ri => if ri.2 = s + i then F ri.1 else 0)).sum = F l[i] := by
  induction l generalizing i s with
  | nil => simp at hi
  | cons a l ih =>
    rw [List.zipIdx_cons, List.map_cons, List.sum_cons]
    cases i with
    | zero =>
      simp only [Nat.add_zero, if_true, List.getElem_cons_zero]
      have : ((l.zipIdx (s + 1)).map (fun ri => if ri.2 = s then F ri.1 else 0)).sum = 0 := by
        apply List.sum_eq_zero
        intro x hx
        rw [List.mem_map] at hx
        obtain ⟨⟨r, q⟩, hrq, rfl⟩ := hx
        have := List.le_snd_of_mem_zipIdx hrq
        rw [if_neg]
        simp only at this ⊢
        omega
      rw [this, add_zero]
    | succ i =>
      rw [if_neg (by omega), zero_add]
      have := ih i (s + 1) (by simpa using hi)
      rw [show s + 1 + i = s + (i + 1) by omega] at this
      rw [this]; rfl

theorem ker_transpose (m : SpMat R) {i k : ℕ} (hi : i < m.rows) (hk : k < m.cols) :
    m.transpose.ker k i = m.ker i k := by
  unfold SpMat.ker SpMat.transpose
  simp only
  rw [getD_map_range' _ _ _ hk, filter_flatMap_sum]
  have hi' : i < m.rowsE.length := hi
  have := sum_zipIdx m.rowsE (fun r => ((r.filter (fun e => e.1 = k)).map Prod.snd).sum) i 0 hi'
  simp only [Nat.zero_add] at this
  rw [this]
  simp [List.getD, hi']

theorem ker_rowP (f : List R) (n i k : ℕ) (hi : 2 * i < n) (hL : f.length ≤ n) :
    (((rowP f n i).filter (fun e => e.1 = k)).map Prod.snd).sum = kern n (fl f) f.length i k := by
  unfold rowP kern
  have e1 : ((((List.range f.length).map (fun s => (tapCol n f.length i s, f.getD (tapIdx n f.length i s) 0))).filter
      (fun e => e.1 = k)).map Prod.snd).sum =
      ∑ s ∈ range f.length, if (2 * i + tapIdx n f.length i s) % n = k then fl f (tapIdx n f.length i s) else 0 := by
    generalize hL' : f.length = L at hL
    have : ∀ M ≤ L, ((((List.range M).map (fun s => (tapCol n L i s, f.getD (tapIdx n L i s) 0))).filter
      (fun e => e.1 = k)).map Prod.snd).sum =
      ∑ s ∈ range M, if (2 * i + tapIdx n L i s) % n = k then fl f (tapIdx n L i s) else 0 := by
      intro M hM
      induction M with
      | zero => simp
      | succ M ih =>
        rw [List.range_succ, List.map_append, List.filter_append, List.map_append, List.sum_append, ih (by omega),
          sum_range_succ]
        congr 1
        simp only [List.map_cons, List.map_nil, ← tapCol_eq hi hL (show M < L by omega)]
        by_cases h : tapCol n L i M = k
        · simp [h]
        · simp [h]
    exact this L le_rfl
  rw [e1]
  -- rotation of the taps
  by_cases h1 : f.length < n - 2 * i
  · refine sum_congr rfl (fun s _ => ?_)
    have : tapIdx n f.length i s = s := by unfold tapIdx; rw [if_pos h1]
    rw [this]
  · have hsplit : f.length = (f.length + 2 * i - n) + (n - 2 * i) := by omega
    have hsplit' : f.length = (n - 2 * i) + (f.length + 2 * i - n) := by omega
    set F : ℕ → R := fun j => if (2 * i + j) % n = k then fl f j else 0 with hF
    have lhs : ∑ s ∈ range f.length, F (tapIdx n f.length i s) =
        ∑ s ∈ range (f.length + 2 * i - n), F (n - 2 * i + s) + ∑ s ∈ range (n - 2 * i), F s := by
      conv_lhs => rw [show range f.length = range ((f.length + 2 * i - n) + (n - 2 * i)) by rw [← hsplit]]
      rw [sum_range_add]
      congr 1
      · refine sum_congr rfl (fun s hs => ?_)
        rw [mem_range] at hs
        congr 1
        unfold tapIdx; rw [if_neg h1, if_pos hs]
      · refine sum_congr rfl (fun s hs => ?_)
        rw [mem_range] at hs
        congr 1
        unfold tapIdx; rw [if_neg h1, if_neg (by omega)]; omega
    have rhs : ∑ s ∈ range f.length, F s =
        ∑ s ∈ range (n - 2 * i), F s + ∑ s ∈ range (f.length + 2 * i - n), F (n - 2 * i + s) := by
      rw [← sum_range_add, ← hsplit']
    rw [lhs, rhs, add_comm]

theorem ker_daubP (h : List R) (t n2 : ℕ) (hL : h.length = 2 * t) (hn : t ≤ n2) {i : ℕ} (hi : i < 2 * n2) (k : ℕ) :
    (daubP h (qmf h) (2 * n2)).ker i k = trans n2 t h i k := by
  unfold SpMat.ker daubP
  have hdiv : 2 * n2 / 2 = n2 := by omega
  simp only [hdiv]
  by_cases h1 : i < n2
  · rw [List.getD_append _ _ _ _ (by simpa using h1), getD_map_range' _ _ _ h1, ker_rowP _ _ _ _ (by omega) (by omega),
      trans_low h h1, hL]
  · rw [List.getD_append_right _ _ _ _ (by simpa using h1)]
    simp only [List.length_map, List.length_range]
    rw [getD_map_range' _ _ _ (by omega), ker_rowP _ _ _ _ (by omega) (by simp; omega)]
    conv_rhs => rw [show i = n2 + (i - n2) by omega]
    rw [trans_high, length_qmf, hL]

theorem getD_row [Inhabited R] (x : Mat R) (i : ℕ) {k : ℕ} (hk : k < x.cols) : (x.row i).getD k 0 = x.get i k := by
  unfold Mat.row; rw [getD_map_range' _ _ _ hk]

theorem getD_col [Inhabited R] (x : Mat R) (j : ℕ) {k : ℕ} (hk : k < x.rows) : (x.col j).getD k 0 = x.get k j := by
  unfold Mat.col; rw [getD_map_range' _ _ _ hk]

/-- Separable operator with the given kernels. -/
def sepOp [Inhabited R] (KH KW : ℕ → ℕ → R) (x : Mat R) : Mat R :=
  Mat.ofFn x.rows x.cols (fun i j => ∑ a ∈ range x.rows, KH i a * ∑ b ∈ range x.cols, KW j b * x.get a b)

theorem cols_rowsP_eq [Inhabited R] {x : Mat R} {w h : SpMat R} {KH KW : ℕ → ℕ → R} (hw : w.Good) (hh : h.Good)
    (hwc : w.cols = x.cols) (hwr : w.rows = x.cols) (hhc : h.cols = x.rows) (hhr : h.rows = x.rows)
    (hKW : ∀ i < x.cols, ∀ k < x.cols, w.ker i k = KW i k) (hKH : ∀ i < x.rows, ∀ k < x.rows, h.ker i k = KH i k) :
    colsP (rowsP x w) h = sepOp KH KW x := by
  unfold colsP sepOp
  have hr : (rowsP x w).rows = x.rows := rfl
  have hc : (rowsP x w).cols = x.cols := rfl
  rw [hr, hc]
  apply Mat.ofFn_congr
  intro i hi j hj
  rw [mulP_getD hh _ (by omega), hhc]
  refine sum_congr rfl (fun a ha => ?_)
  rw [mem_range] at ha
  rw [hKH i hi a ha, getD_col _ _ (by omega)]
  congr 1
  unfold rowsP
  rw [Mat.get_ofFn ha hj, mulP_getD hw _ (by omega), hwc]
  refine sum_congr rfl (fun b hb => ?_)
  rw [mem_range] at hb
  rw [hKW j hj b hb, getD_row _ _ hb]

/-- Inverting a separable operator whose kernels are inverted by `KH'`, `KW'`. -/
theorem sepOp_inv [Inhabited R] {KH KW KH' KW' : ℕ → ℕ → R} (x : Mat R)
    (hH : ∀ i < x.rows, ∀ l < x.rows, ∑ a ∈ range x.rows, KH' i a * KH a l = if i = l then 1 else 0)
    (hW : ∀ i < x.cols, ∀ l < x.cols, ∑ a ∈ range x.cols, KW' i a * KW a l = if i = l then 1 else 0) :
    sepOp KH' KW' (sepOp KH KW x) = x := by
  refine Mat.ext' rfl rfl ?_
  intro i hi j hj
  have hi' : i < x.rows := hi
  have hj' : j < x.cols := hj
  unfold sepOp
  simp only [Mat.rows_ofFn, Mat.cols_ofFn]
  rw [Mat.get_ofFn hi' hj']
  have e1 : ∀ a ∈ range x.rows, KH' i a * ∑ b ∈ range x.cols, KW' j b * (Mat.ofFn x.rows x.cols (fun i j =>
      ∑ a ∈ range x.rows, KH i a * ∑ b ∈ range x.cols, KW j b * x.get a b)).get a b =
      ∑ a' ∈ range x.rows, ∑ b' ∈ range x.cols,
        (KH' i a * KH a a') * ((∑ b ∈ range x.cols, KW' j b * KW b b') * x.get a' b') := by
    intro a ha
    rw [mem_range] at ha
    have : ∀ b ∈ range x.cols, KW' j b * (Mat.ofFn x.rows x.cols (fun i j =>
      ∑ a ∈ range x.rows, KH i a * ∑ b ∈ range x.cols, KW j b * x.get a b)).get a b =
      ∑ a' ∈ range x.rows, ∑ b' ∈ range x.cols, KH a a' * (KW' j b * KW b b' * x.get a' b') := by
      intro b hb
      rw [mem_range] at hb
      rw [Mat.get_ofFn ha hb, mul_sum]
      refine sum_congr rfl (fun a' _ => ?_)
      rw [mul_sum, mul_sum]
      exact sum_congr rfl (fun b' _ => by ring)
    rw [sum_congr rfl this, sum_comm, mul_sum]
    refine sum_congr rfl (fun a' _ => ?_)
    rw [sum_comm, mul_sum]
    refine sum_congr rfl (fun b' _ => ?_)
    rw [sum_mul, mul_sum, mul_sum]
    exact sum_congr rfl (fun b _ => by ring)
  rw [sum_congr rfl e1, sum_comm]
  have e2 : ∀ a' ∈ range x.rows, ∑ a ∈ range x.rows, ∑ b' ∈ range x.cols,
      (KH' i a * KH a a') * ((∑ b ∈ range x.cols, KW' j b * KW b b') * x.get a' b') =
      (if i = a' then 1 else 0) * x.get a' j := by
    intro a' ha'
    rw [← hH i hi' a' (mem_range.1 ha'), sum_mul]
    refine sum_congr rfl (fun a _ => ?_)
    rw [← mul_sum]
    congr 1
    have : ∀ b' ∈ range x.cols, (∑ b ∈ range x.cols, KW' j b * KW b b') * x.get a' b' =
        if j = b' then x.get a' b' else 0 := by
      intro b' hb'
      rw [hW j hj' b' (mem_range.1 hb')]
      split_ifs <;> simp
    rw [sum_congr rfl this, sum_ite_eq, if_pos (mem_range.2 hj')]
  rw [sum_congr rfl e2]
  simp only [ite_mul, one_mul, zero_mul]
  rw [sum_ite_eq, if_pos (mem_range.2 hi')]

/-- One inverse 2D step after one forward 2D step is the identity. -/
theorem idwt2_dwt2 [Inhabited R] (h : List R) (t sh sw : ℕ) (x : Mat R) (hL : h.length = 2 * t)
    (ho : FB.Ortho t (fl h)) (_ht : 0 < t) (hsw : t ≤ sw) (hsh : t ≤ sh) (hr : x.rows = 2 * sh) (hc : x.cols = 2 * sw) :
    (dwt2 x (daubP h (qmf h) (2 * sw)) (daubP h (qmf h) (2 * sh)) >>= fun q =>
      idwt2 q (daubP h (qmf h) (2 * sw)).transpose (daubP h (qmf h) (2 * sh)).transpose) = .ok x := by
  have gw : (daubP h (qmf h) (2 * sw)).Good := daubP_good (by omega) (by simp; omega)
  have gh : (daubP h (qmf h) (2 * sh)).Good := daubP_good (by omega) (by simp; omega)
  have rw_ := daubP_rows h (qmf h) sw
  have rh_ := daubP_rows h (qmf h) sh
  have cw_ : (daubP h (qmf h) (2 * sw)).cols = 2 * sw := rfl
  have ch_ : (daubP h (qmf h) (2 * sh)).cols = 2 * sh := rfl
  rw [dwt2_ok gw gh cw_ rw_ ch_ rh_ hr hc, Outcome.bind_ok,
    idwt2_ok (SpMat.good_transpose _) (SpMat.good_transpose _) (by rw [SpMat.cols_transpose, rw_])
      (by rw [SpMat.rows_transpose, cw_]) (by rw [SpMat.cols_transpose, rh_]) (by rw [SpMat.rows_transpose, ch_])
      (quadP_sized _ _ _)]
  congr 1
  set y := colsP (rowsP x (daubP h (qmf h) (2 * sw))) (daubP h (qmf h) (2 * sh)) with hy
  have yr : y.rows = 2 * sh := hr
  have yc : y.cols = 2 * sw := hc
  rw [assemble_quadP y sh sw yr yc]
  rw [cols_rowsP_eq (KH := fun i k => trans sh t h k i) (KW := fun i k => trans sw t h k i)
    (SpMat.good_transpose _) (SpMat.good_transpose _) (by rw [SpMat.cols_transpose, rw_, yc])
      (by rw [SpMat.rows_transpose, cw_, yc]) (by rw [SpMat.cols_transpose, rh_, yr])
      (by rw [SpMat.rows_transpose, ch_, yr])]
  · have : y = sepOp (trans sh t h) (trans sw t h) x :=
      cols_rowsP_eq gw gh (by omega) (by omega) (by omega) (by omega)
        (fun i hi k _ => ker_daubP h t sw hL hsw (by omega) k) (fun i hi k _ => ker_daubP h t sh hL hsh (by omega) k)
    rw [this]
    apply sepOp_inv
    · intro i hi l hl
      rw [hr] at hi hl ⊢
      exact trans_ortho h t sh hL ho (by omega) i l hi hl
    · intro i hi l hl
      rw [hc] at hi hl ⊢
      exact trans_ortho h t sw hL ho (by omega) i l hi hl
  · intro i hi k hk
    rw [yc] at hi hk
    rw [ker_transpose _ (by omega) (by omega), ker_daubP h t sw hL hsw (by omega)]
  · intro i hi k hk
    rw [yr] at hi hk
    rw [ker_transpose _ (by omega) (by omega), ker_daubP h t sh hL hsh (by omega)]

end Ring

end WB
