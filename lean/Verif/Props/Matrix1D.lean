import Verif.Spec.Matrix1D
import Verif.Proof.Matrix1D
import Verif.Props.Linear

/-!
C73-C75: the 1D transforms of the public header with a matrix argument.
-/

namespace WB.Props

open Finset Spec

section Helpers

theorem map_swap_find {α : Type} (l : List α) (s j : ℕ) :
    ((l.zipIdx s).map (fun e => (e.2, e.1))).find? (fun e => e.1 = s + j) = l[j]?.map (fun v => (s + j, v)) := by
  induction l generalizing s j with
  | nil => simp
  | cons a l ih =>
    rw [List.zipIdx_cons, List.map_cons, List.find?_cons]
    cases j with
    | zero => simp
    | succ j =>
      have h1 : (decide ((s : ℕ) = s + (j + 1))) = false := by simp
      simp only [h1]
      have := ih (s + 1) j
      rw [show s + 1 + j = s + (j + 1) by omega] at this
      rw [this]; simp

theorem filterRow_zero {α : Type} [Zero α] (lo hi : List α) : (filterPair lo hi).filterRow 0 = lo := by
  apply List.ext_getElem
  · simp [SpMat.filterRow, filterPair]
  · intro j h1 h2
    have := map_swap_find lo 0 j
    rw [Nat.zero_add] at this
    simp [SpMat.filterRow, SpMat.entry, filterPair, this, h2]

theorem filterRow_one {α : Type} [Zero α] (lo hi : List α) (h : hi.length = lo.length) : (filterPair lo hi).filterRow 1 = hi := by
  apply List.ext_getElem
  · simp [SpMat.filterRow, filterPair, h]
  · intro j h1 h2
    have := map_swap_find hi 0 j
    rw [Nat.zero_add] at this
    simp [SpMat.filterRow, SpMat.entry, filterPair, this, h2]

variable {R : Type} [CommRing R]

theorem anaP_periodic (x f : List R) (g : ℕ → R) (hg : ∀ j < f.length, f.getD j 0 = g j) (i : ℕ) :
    anaP x f i = periodicAt g f.length x i := by
  rw [anaP_eq]
  unfold periodicAt
  refine sum_congr rfl (fun j hj => ?_)
  have : (2 * (i : ℤ) + j) = ((2 * i + j : ℕ) : ℤ) := by push_cast; ring
  rw [this, per_natCast, mul_comm]
  unfold fl
  rw [hg j (mem_range.1 hj)]

theorem qmf_mirrored (h : List R) (t : ℕ) (hl : h.length = 2 * t) {j : ℕ} (hj : j < 2 * t) : (qmf h).getD j 0 = mirrored h j := by
  rw [getD_qmf h t hl hj]
  unfold FB.hp mirrored
  rw [hl]

theorem daubP_appendOk (lo hi : List R) (n2 : ℕ) (h1 : lo.length ≤ 2 * n2) (h2 : hi.length ≤ 2 * n2) :
    ∀ r ∈ (daubP lo hi (2 * n2)).rowsE, appendOk (daubP lo hi (2 * n2)).cols r = true := by
  intro r hr
  change appendOk (2 * n2) r = true
  simp only [daubP, List.mem_append, List.mem_map, List.mem_range] at hr
  rcases hr with ⟨i, hi, rfl⟩ | ⟨i, hi, rfl⟩
  · exact rowP_appendOk (by omega) h1
  · exact rowP_appendOk (by omega) h2

theorem dwtMat_daubP (x h : List R) (t n2 : ℕ) (hl : h.length = 2 * t) (hn : t ≤ n2) (_ht : 0 < t) (hx : x.length = 2 * n2) :
    dwtMat x (daubP h (qmf h) (2 * n2)) = .ok ((List.range n2).map (anaP x h), (List.range n2).map (anaP x (qmf h))) := by
  rw [dwtMat_square (daubP_appendOk h (qmf h) n2 (by omega) (by simp; omega)) (by rw [daubP_rows, hx]) (by rw [hx]; rfl)]
  have hd : x.length / 2 = n2 := by omega
  rw [hd]
  congr 2
  · refine List.map_congr_left (fun i hi => ?_)
    rw [List.mem_range] at hi
    rw [ana_kern x h i (by omega), hx]
    refine sum_congr rfl (fun k _ => ?_)
    rw [ker_daubP h t n2 hl hn (by omega), trans_low h hi, hl]
  · refine List.map_congr_left (fun i hi => ?_)
    rw [List.mem_range] at hi
    rw [ana_kern x (qmf h) i (by omega), hx]
    refine sum_congr rfl (fun k _ => ?_)
    rw [ker_daubP h t n2 hl hn (by omega), trans_high h, length_qmf, hl]

theorem getD_append_halves (low high : List R) (n2 : ℕ) (h1 : low.length = n2) (g : ℕ → R) :
    ∑ i ∈ range (2 * n2), g i * (low ++ high).getD i 0 =
      ∑ i ∈ range n2, g i * low.getD i 0 + ∑ i ∈ range n2, g (n2 + i) * high.getD i 0 := by
  rw [sum_halves]
  congr 1
  · refine sum_congr rfl (fun i hi => ?_)
    rw [mem_range] at hi
    rw [List.getD_append _ _ _ _ (by omega)]
  · refine sum_congr rfl (fun i _ => ?_)
    rw [List.getD_append_right _ _ _ _ (by omega), h1, Nat.add_sub_cancel_left]

theorem idwtMat_daubP (low high h : List R) (t n2 : ℕ) (hl : h.length = 2 * t) (hn : t ≤ n2) (ht : 0 < t) (h2 : 2 ≤ n2)
    (hlo : low.length = n2) (hhi : high.length = n2) :
    idwtMat low high (daubP h (qmf h) (2 * n2)).transpose = idwt low high h.reverse (qmf h).reverse := by
  have hr := daubP_rows h (qmf h) n2
  have hc : (daubP h (qmf h) (2 * n2)).cols = 2 * n2 := rfl
  unfold idwtMat
  rw [if_neg (by rw [SpMat.rows_transpose, hc]; omega), idwt_ok (t := t) (by simpa using hl) ht (by simp) (by omega) (by omega),
    SpMat.mulVec_ok (SpMat.good_transpose _) (by rw [SpMat.cols_transpose, hr, List.length_append]; omega)]
  congr 1
  apply List.ext_getElem
  · rw [SpMat.length_mulP, SpMat.rows_transpose, hc]; simp; omega
  · intro k h1 h3
    have hk : k < 2 * n2 := by
      rw [SpMat.length_mulP, SpMat.rows_transpose, hc] at h1; exact h1
    have e1 : ((daubP h (qmf h) (2 * n2)).transpose.mulP (low ++ high))[k] =
        ((daubP h (qmf h) (2 * n2)).transpose.mulP (low ++ high)).getD k 0 := by
      simp only [List.getD, List.getElem?_eq_getElem h1, Option.getD_some]
    rw [e1, mulP_getD (SpMat.good_transpose _) _ (by rw [SpMat.rows_transpose, hc]; exact hk), SpMat.cols_transpose, hr]
    simp only [List.getElem_map, List.getElem_range]
    rw [synP_eq low high h t hl ht (by omega) (by omega) k, synth_trans low high h t n2 hlo hhi hl (by omega) k hk,
      ← getD_append_halves low high n2 hlo (fun i => trans n2 t h i k)]
    refine sum_congr rfl (fun i hi => ?_)
    rw [mem_range] at hi
    rw [ker_transpose _ (by omega) (by omega), ker_daubP h t n2 hl hn (by omega)]

end Helpers

/-! ### C73 -/

section C73
variable {R : Type} [CommRing R]

/-- C73, forward direction (no exception): the periodized matrix applies the scaling filter and its mirrored filter to the periodic signal,
and `dwt` with the matrix returns exactly what `dwt` with the two filters returns. -/
theorem C73_forward (k : Kit R) (t n2 : ℕ) (hk : (k.dbwavf t).length = 2 * t) (ht : 0 < t) (hn : t ≤ n2) (x : List R)
    (hx : x.length = 2 * n2) :
    let h := (k.dbwavf t).map k.mulSqrt2
    ∃ m, daubechiesMat k (2 * n2) (t * 2) = .ok m ∧
      dwtMat x m = .ok ((List.range n2).map (periodicAt (fun j => h.getD j 0) (2 * t) x),
        (List.range n2).map (periodicAt (mirrored h) (2 * t) x)) ∧
      dwtMat x (filterPair h ((List.range (2 * t)).map (mirrored h))) = dwtMat x m := by
  intro h
  have hl : h.length = 2 * t := by simp [h, hk]
  have e1 : ∀ i, anaP x h i = periodicAt (fun j => h.getD j 0) (2 * t) x i := fun i => by
    rw [← hl]; exact anaP_periodic x h _ (fun _ _ => rfl) i
  have hq : (List.range (2 * t)).map (mirrored h) = qmf h := by
    apply List.ext_getElem
    · simp [hl]
    · intro j h1 h2
      have hj : j < 2 * t := by simpa using h1
      simp only [List.getElem_map, List.getElem_range]
      rw [← qmf_mirrored h t hl hj]
      simp only [List.getD, List.getElem?_eq_getElem h2, Option.getD_some]
  have e2 : ∀ i, anaP x (qmf h) i = periodicAt (mirrored h) (2 * t) x i := fun i => by
    have := anaP_periodic x (qmf h) (mirrored h) (fun j hj => qmf_mirrored h t hl (by simpa [hl] using hj)) i
    rwa [length_qmf, hl] at this
  refine ⟨_, daubechiesMat_ok k (by rw [List.length_map]; omega), ?_, ?_⟩
  · rw [dwtMat_daubP x h t n2 hl hn ht hx]
    rw [List.map_congr_left (fun i _ => e1 i), List.map_congr_left (fun i _ => e2 i)]
  · rw [dwtMat_daubP x h t n2 hl hn ht hx, hq]
    unfold dwtMat
    rw [if_pos (show (filterPair h (qmf h)).rows = 2 from rfl), filterRow_zero, filterRow_one _ _ (by simp), dwt_ok (by omega) (by simp; omega)]
    have : x.length / 2 = n2 := by omega
    rw [this]

/-- C73, backward direction, for four or more samples: `idwt` with the transposed matrix returns what `idwt` with the reversed filters returns,
and undoes `dwt` when the filter is orthonormal. The full claim allows two samples as well; see `C73_two_samples_swapped`. -/
theorem C73_backward_partial (k : Kit R) (t n2 : ℕ) (hk : (k.dbwavf t).length = 2 * t) (ht : 0 < t) (hn : t ≤ n2) (h2 : 2 ≤ n2) :
    let h := (k.dbwavf t).map k.mulSqrt2
    ∃ m, daubechiesMat k (2 * n2) (t * 2) = .ok m ∧
      (∀ low high : List R, low.length = n2 → high.length = n2 →
        (∃ y, idwtMat low high m.transpose = .ok y ∧ y.length = 2 * n2) ∧
        idwtMat low high m.transpose =
          idwtMat low high (filterPair h.reverse ((List.range (2 * t)).map (mirrored h)).reverse)) ∧
      (EvenShiftOrthonormal h → ∀ x : List R, x.length = 2 * n2 →
        (dwtMat x m >>= fun r => idwtMat r.1 r.2 m.transpose) = .ok x) := by
  intro h
  have hl : h.length = 2 * t := by simp [h, hk]
  have hq : (List.range (2 * t)).map (mirrored h) = qmf h := by
    apply List.ext_getElem
    · simp [hl]
    · intro j h1 h2
      have hj : j < 2 * t := by simpa using h1
      simp only [List.getElem_map, List.getElem_range]
      rw [← qmf_mirrored h t hl hj]
      simp only [List.getD, List.getElem?_eq_getElem h2, Option.getD_some]
  refine ⟨_, daubechiesMat_ok k (by rw [List.length_map]; omega), ?_, ?_⟩
  · intro low high hlo hhi
    rw [idwtMat_daubP low high h t n2 hl hn ht h2 hlo hhi, hq]
    refine ⟨⟨_, idwt_ok (t := t) (by simpa using hl) ht (by simp) (by omega) (by omega), by simp; omega⟩, ?_⟩
    unfold idwtMat
    rw [if_pos (show (filterPair h.reverse (qmf h).reverse).rows = 2 from rfl), filterRow_zero, filterRow_one _ _ (by simp)]
  · intro ho x hx
    rw [dwtMat_daubP x h t n2 hl hn ht hx, Outcome.bind_ok,
      idwtMat_daubP _ _ h t n2 hl hn ht h2 (by simp) (by simp)]
    have hot : FB.Ortho t (fl h) := by
      intro s
      have := ho s
      rwa [hl] at this
    have := idwt_dwt x h t n2 hl ht hot hx hn
    rw [dwt_ok (by omega) (by simp; omega), Outcome.bind_ok, show x.length / 2 = n2 by omega] at this
    exact this

/-- C73 fails for two samples: the 2 × 2 matrix is taken for a pair of filters, and the two samples come back swapped. -/
theorem C73_two_samples_swapped (k : Kit R) (hk : (k.dbwavf 1).length = 2)
    (ho : EvenShiftOrthonormal ((k.dbwavf 1).map k.mulSqrt2)) (a b : R) :
    ∃ m, daubechiesMat k 2 2 = .ok m ∧ (dwtMat [a, b] m >>= fun r => idwtMat r.1 r.2 m.transpose) = .ok [b, a] := by
  obtain ⟨c, d, hcd⟩ : ∃ c d, k.dbwavf 1 = [c, d] := List.length_eq_two.1 hk
  rw [hcd] at ho
  simp only [List.map_cons, List.map_nil] at ho
  generalize hp : k.mulSqrt2 c = p at ho
  generalize hq : k.mulSqrt2 d = q at ho
  have h1 : p * p + q * q = 1 := by
    have := ho 0
    simpa [sum_range_succ] using this
  have hm : daubechiesMat k 2 2 = .ok ⟨2, [[(0, p), (1, q)], [(0, q), (1, -p)]]⟩ := by
    simp [daubechiesMat, hcd, orthfilt, qmf, hp, hq, daubRow, rd, appendOk, List.mapIdx_cons, List.range_succ]
  refine ⟨_, hm, ?_⟩
  simp [dwtMat, SpMat.rows, SpMat.filterRow, SpMat.entry, dwt, dwtAt, rd, List.range_succ, idwtMat, SpMat.transpose, idwt, idwtAt]
  constructor
  · linear_combination b * h1
  · linear_combination a * h1

end C73

/-! ### C74 -/

section C74
variable {R : Type} [CommRing R]

/-- The zero-derivative matrix as built. -/
def zmat (lo hi : List R) (n : ℕ) : SpMat R :=
  { cols := n
    rowsE := (List.range (n / 2)).map (zrow lo n) ++ (List.range (n / 2)).map (zrow hi n) ++ List.replicate (n % 2) [] }

theorem zmat_appendOk (lo hi : List R) (n : ℕ) : ∀ r ∈ (zmat lo hi n).rowsE, appendOk (zmat lo hi n).cols r = true := by
  intro r hr
  change appendOk n r = true
  simp only [zmat, List.mem_append, List.mem_map, List.mem_range, List.mem_replicate] at hr
  rcases hr with (⟨i, hi, rfl⟩ | ⟨i, hi, rfl⟩) | ⟨_, rfl⟩
  · exact zrow_appendOk hi
  · exact zrow_appendOk hi
  · simp [appendOk]

theorem zeroDerivMat_ok (k : Kit R) (n t : ℕ) (hk : (k.dbwavf t).length = 2 * t) (ht : 0 < t) :
    zeroDerivMat k n (t * 2) = .ok (zmat ((k.dbwavf t).map k.mulSqrt2) (qmf ((k.dbwavf t).map k.mulSqrt2)) n) := by
  unfold zeroDerivMat
  rw [Nat.mul_div_cancel t (by omega : 0 < 2)]
  simp only [orthfilt, List.reverse_reverse]
  set h := (k.dbwavf t).map k.mulSqrt2 with hh
  have hl : h.length = 2 * t := by simp [h, hk]
  rw [Outcome.mapM_ok (g := zrow h n) (fun i hi => zeroDerivRow_ok (List.mem_range.1 hi) (by omega)), Outcome.bind_ok,
    Outcome.mapM_ok (g := zrow (qmf h) n) (fun i hi => zeroDerivRow_ok (List.mem_range.1 hi) (by rw [length_qmf]; omega)),
    Outcome.bind_ok, if_pos]
  · rfl
  · rw [List.all_eq_true]
    intro r hr
    exact zmat_appendOk h (qmf h) n r (by simp only [zmat, List.mem_append] at hr ⊢; exact .inl hr)

theorem zmat_rows (lo hi : List R) (n : ℕ) : (zmat lo hi n).rows = n := by
  simp [zmat, SpMat.rows]; omega

theorem zmat_row (lo hi : List R) (n i : ℕ) :
    (i < n / 2 → (zmat lo hi n).rowsE.getD i [] = zrow lo n i) ∧
    (i < n / 2 → (zmat lo hi n).rowsE.getD (n / 2 + i) [] = zrow hi n i) ∧
    (2 * (n / 2) ≤ i → (zmat lo hi n).rowsE.getD i [] = []) := by
  unfold zmat
  refine ⟨fun h => ?_, fun h => ?_, fun h => ?_⟩
  · rw [List.append_assoc, List.getD_append _ _ _ _ (by simpa using h), getD_map_range' _ _ _ h]
  · rw [List.getD_append _ _ _ _ (by simp; omega), List.getD_append_right _ _ _ _ (by simp)]
    simp only [List.length_map, List.length_range, Nat.add_sub_cancel_left]
    rw [getD_map_range' _ _ _ h]
  · rw [List.getD_append_right _ _ _ _ (by simp; omega)]
    simp only [List.getD, List.getElem?_replicate]
    split_ifs <;> rfl

theorem nearest_eq {n a p : ℕ} (hn : 0 < n) : nearest n ((a : ℤ) - (p : ℕ)) = min (a - p) (n - 1) := by
  unfold nearest; omega

/-- Row of a matrix times a vector, when the row is a zero-derivative row. -/
theorem ker_sum_zrow {m : SpMat R} (hg : m.Good) (x f : List R) (g : ℕ → R) (hgf : ∀ j < f.length, f.getD j 0 = g j) {i r : ℕ}
    (hr : r < m.rows) (hc : m.cols = x.length) (hi : i < x.length / 2) (hf : 0 < f.length)
    (hrow : m.rowsE.getD r [] = zrow f x.length i) :
    ∑ k ∈ range x.length, m.ker r k * x.getD k 0 = borderAt g f.length x i := by
  have hr' : r < m.rowsE.length := hr
  have hget : m.rowsE.getD r [] = m.rowsE[r] := by simp [List.getD, hr']
  have := sum_entries (m.rowsE.getD r []) x.length (fun k => x.getD k 0) (by
    rw [hget, ← hc]; exact hg _ (List.getElem_mem hr'))
  unfold SpMat.ker
  rw [← this, hrow, zrow_sum hi hf (fun k => x.getD k 0)]
  unfold borderAt
  refine sum_congr rfl (fun j hj => ?_)
  rw [mem_range] at hj
  have e : (2 * (i : ℤ) + (j : ℤ)) = ((2 * i + j : ℕ) : ℤ) := by push_cast; ring
  rw [e, nearest_eq (by omega), hgf j hj]

/-- C74. The zero-derivative matrix exists for every size (also smaller than the filter, also odd), is square, and `dwt` with it applies the
scaling filter and its mirrored filter, centred at every second sample, to the signal continued by its border samples. -/
theorem C74_zero_derivative (k : Kit R) (n t : ℕ) (hk : (k.dbwavf t).length = 2 * t) (ht : 0 < t) :
    let h := (k.dbwavf t).map k.mulSqrt2
    ∃ m, zeroDerivMat k n (t * 2) = .ok m ∧ m.rows = n ∧ m.cols = n ∧
      (∀ x : List R, x.length = n →
        dwtMat x m = .ok ((List.range (n / 2)).map (borderAt (fun j => h.getD j 0) (2 * t) x),
          (List.range (n / 2)).map (borderAt (mirrored h) (2 * t) x))) ∧
      (n % 2 = 1 → ∀ j, m.entry (n - 1) j = 0) := by
  intro h
  have hl : h.length = 2 * t := by simp [h, hk]
  refine ⟨_, zeroDerivMat_ok k n t hk ht, zmat_rows _ _ _, rfl, ?_, ?_⟩
  · intro x hx
    have hg := good_of_appendOk (zmat_appendOk h (qmf h) n)
    rw [dwtMat_square (zmat_appendOk _ _ _) (by rw [zmat_rows, hx]) (by rw [hx]; rfl), hx]
    congr 2
    · refine List.map_congr_left (fun i hi => ?_)
      rw [List.mem_range] at hi
      have := ker_sum_zrow hg x h (fun j => h.getD j 0) (fun _ _ => rfl) (i := i) (r := i) (by rw [zmat_rows]; omega) (by rw [hx]; rfl)
        (by omega) (by omega) (by rw [hx]; exact (zmat_row h (qmf h) n i).1 hi)
      rw [hx, hl] at this
      exact this
    · refine List.map_congr_left (fun i hi => ?_)
      rw [List.mem_range] at hi
      have := ker_sum_zrow hg x (qmf h) (mirrored h) (fun j hj => qmf_mirrored h t hl (by rw [length_qmf] at hj; omega)) (i := i)
        (r := n / 2 + i) (by rw [zmat_rows]; omega) (by rw [hx]; rfl)
        (by omega) (by rw [length_qmf]; omega) (by rw [hx]; exact (zmat_row h (qmf h) n i).2.1 hi)
      rw [hx, length_qmf, hl] at this
      exact this
  · intro ho j
    unfold SpMat.entry
    rw [(zmat_row _ _ n (n - 1)).2.2 (by omega)]
    rfl

/-- C74, consequence for constants: a constant signal has constant low-pass and constant high-pass output, up to and including the borders. With
a filter whose even and odd coefficients have equal sums the high-pass output is zero. -/
theorem C74_constants (k : Kit R) (n t : ℕ) (hk : (k.dbwavf t).length = 2 * t) (ht : 0 < t) (c : R) :
    let h := (k.dbwavf t).map k.mulSqrt2
    ∃ m, zeroDerivMat k n (t * 2) = .ok m ∧
      dwtMat (List.replicate n c) m = .ok (List.replicate (n / 2) (c * ∑ j ∈ range (2 * t), h.getD j 0),
        List.replicate (n / 2) (c * ∑ j ∈ range t, (h.getD (2 * j + 1) 0 - h.getD (2 * j) 0))) := by
  intro h
  have hl : h.length = 2 * t := by simp [h, hk]
  obtain ⟨m, hm, _, _, hd, _⟩ := C74_zero_derivative k n t hk ht
  refine ⟨m, hm, ?_⟩
  rw [hd _ (by simp)]
  have key : ∀ (g : ℕ → R), ∀ i < n / 2, borderAt g (2 * t) (List.replicate n c) i = c * ∑ j ∈ range (2 * t), g j := by
    intro g i hi
    unfold borderAt
    rw [mul_sum]
    refine sum_congr rfl (fun j _ => ?_)
    have : nearest n (2 * (i : ℤ) + (j : ℤ) - (((2 * t - 1) / 2 : ℕ) : ℤ)) < n := by unfold nearest; omega
    rw [List.length_replicate, mul_comm]
    simp only [List.getD, List.getElem?_replicate, this, if_true, Option.getD_some]
  have alt : ∑ j ∈ range (2 * t), mirrored h j = ∑ j ∈ range t, (h.getD (2 * j + 1) 0 - h.getD (2 * j) 0) := by
    rw [← sum_range_reflect (fun j => h.getD (2 * j + 1) 0 - h.getD (2 * j) 0)]
    have : ∀ s ≤ t, ∑ j ∈ range (2 * s), mirrored h j = ∑ j ∈ range s, (h.getD (2 * (t - 1 - j) + 1) 0 - h.getD (2 * (t - 1 - j)) 0) := by
      intro s
      induction s with
      | zero => simp
      | succ s ih =>
        intro hs
        rw [show 2 * (s + 1) = 2 * s + 1 + 1 by ring, sum_range_succ, sum_range_succ, sum_range_succ, ih (by omega)]
        unfold mirrored
        rw [hl, pow_succ, pow_mul]
        rw [show 2 * t - 1 - 2 * s = 2 * (t - 1 - s) + 1 by omega, show 2 * t - 1 - (2 * s + 1) = 2 * (t - 1 - s) by omega]
        simp only [even_two, Even.neg_pow, one_pow]
        ring
    exact this t le_rfl
  congr 2
  · apply List.ext_getElem
    · simp
    · intro i h1 _
      have hi : i < n / 2 := by simpa using h1
      simp only [List.getElem_map, List.getElem_range, List.getElem_replicate]
      exact key _ i hi
  · apply List.ext_getElem
    · simp
    · intro i h1 _
      have hi : i < n / 2 := by simpa using h1
      simp only [List.getElem_map, List.getElem_range, List.getElem_replicate]
      rw [key _ i hi, alt]

end C74

/-! ### C75 -/

section C75
variable {α : Type} [Zero α] [Add α] [Mul α]

/-- C75, matrices that are not a pair of filters: `dwt` returns two empty vectors when the number of columns is not the number of samples, `idwt`
throws when it is not the number of coefficients. -/
theorem C75_matrix_size_partial (m : SpMat α) (hm : m.rows ≠ 2) :
    (∀ x : List α, m.cols ≠ x.length → dwtMat x m = .ok ([], [])) ∧
    (∀ low high : List α, m.cols ≠ low.length + high.length → idwtMat low high m = .throw) := by
  refine ⟨fun x hx => ?_, fun low high hx => ?_⟩
  · unfold dwtMat
    rw [if_neg hm, if_neg (fun h => hx h.symm)]
  · unfold idwtMat SpMat.mulVec
    rw [if_neg hm, if_pos (by rw [List.length_append]; exact hx)]

/-- C75 fails for pairs of filters: `dwt` returns normally exactly for filters up to two coefficients longer than an even signal (three for an odd
one), and reads outside the signal for all longer ones. -/
theorem C75_long_filter (x lo hi : List α) (h : hi.length = lo.length) :
    ((∃ r, dwtMat x (filterPair lo hi) = .ok r) ↔ x.length < 2 ∨ lo.length ≤ x.length + 2 + x.length % 2) ∧
    (¬ (x.length < 2 ∨ lo.length ≤ x.length + 2 + x.length % 2) → dwtMat x (filterPair lo hi) = .ub) := by
  have e : dwtMat x (filterPair lo hi) = dwt x lo hi := by
    unfold dwtMat
    rw [if_pos (show (filterPair lo hi).rows = 2 from rfl), filterRow_zero, filterRow_one _ _ h]
  rw [e]
  have hub : ¬ (x.length < 2 ∨ lo.length ≤ x.length + 2 + x.length % 2) → dwt x lo hi = .ub := by
    intro hn
    unfold dwt
    rw [Outcome.mapM_ub (fun i _ => dwtAt_ne_throw x lo i)
      ⟨x.length / 2 - 1, List.mem_range.2 (by omega), dwtAt_ub (by omega) (by omega)⟩]
    rfl
  refine ⟨⟨?_, ?_⟩, hub⟩
  · rintro ⟨r, hr⟩
    by_contra hn
    rw [hub hn] at hr
    cases hr
  · intro hn
    unfold dwt
    rw [Outcome.mapM_ok (g := anaP x lo) (fun i hi' => by
      rw [List.mem_range] at hi'; exact dwtAt_ok' hi' (by omega)), Outcome.bind_ok,
      Outcome.mapM_ok (g := anaP x hi) (fun i hi' => by
      rw [List.mem_range] at hi'; exact dwtAt_ok' hi' (by omega))]
    exact ⟨_, rfl⟩

/-- C75 fails for `idwt` likewise: with `2 t` filter coefficients and two subbands of `n > 0` coefficients the call returns normally exactly for
`t ≤ n + 1`, otherwise it reads outside the subbands. -/
theorem C75_long_filter_inverse (low high lo hi : List α) (t : ℕ) (ht : 0 < t) (hl : lo.length = 2 * t) (h : hi.length = lo.length)
    (hlow : 0 < low.length) (hlh : high.length = low.length) :
    ((∃ r, idwtMat low high (filterPair lo hi) = .ok r) ↔ t ≤ low.length + 1) ∧
    (low.length + 1 < t → idwtMat low high (filterPair lo hi) = .ub) := by
  have e : idwtMat low high (filterPair lo hi) = idwt low high lo hi := by
    unfold idwtMat
    rw [if_pos (show (filterPair lo hi).rows = 2 from rfl), filterRow_zero, filterRow_one _ _ h]
  rw [e]
  have hub : low.length + 1 < t → idwt low high lo hi = .ub := by
    intro hn
    have : ∀ i, idwtAt low high lo hi i = .ub := by
      intro i
      unfold idwtAt
      obtain ⟨q, hq⟩ : ∃ q, (lo.length + 1) / 2 = q + 1 := ⟨t - 1, by omega⟩
      rw [hq, List.range_succ_eq_map, List.foldlM_cons, if_pos (by omega)]
      rfl
    unfold idwt
    exact Outcome.mapM_ub (fun i _ => by rw [this]; simp) ⟨0, List.mem_range.2 (by omega), this 0⟩
  refine ⟨⟨?_, fun hn => ⟨_, idwt_ok hl ht h hlh hn⟩⟩, hub⟩
  rintro ⟨r, hr⟩
  by_contra hn
  rw [hub (by omega)] at hr
  cases hr

end C75

/-! ### examples -/

/-- C73 with the filters of the code: the DB2 filter on eight samples, the Haar filter (exactly orthonormal) on four. -/
example : (codeKit.dbwavf 2).length = 2 * 2 ∧ (codeKit.dbwavf 1).length = 2 * 1 ∧
    EvenShiftOrthonormal ((codeKit.dbwavf 1).map codeKit.mulSqrt2) ∧ ([1, 2, 3, 4] : List ℝ).length = 2 * 2 :=
  ⟨by simp [codeKit, dbCoeffs], by simp [codeKit, dbCoeffs], haar_ortho ⟨[4], 1, 1, 1⟩ rfl, rfl⟩

/-- Two samples transformed with the Haar matrix of the code and back: swapped. -/
theorem C73_code_two_samples : ∃ m, daubechiesMat codeKit 2 2 = .ok m ∧
    (dwtMat [1, 2] m >>= fun r => idwtMat r.1 r.2 m.transpose) = .ok [2, 1] ∧
    (dwtMat [1, 2] m >>= fun r => idwtMat r.1 r.2 m.transpose) ≠ .ok [1, 2] := by
  obtain ⟨m, h1, h2⟩ := C73_two_samples_swapped codeKit (by simp [codeKit, dbCoeffs]) (haar_ortho ⟨[4], 1, 1, 1⟩ rfl) 1 2
  refine ⟨m, h1, h2, ?_⟩
  rw [h2]
  intro h
  simp at h

/-- C74: three samples, filter with four integer coefficients; the product computed by hand. -/
example : let k : Kit ℤ := ⟨fun _ => [1, 2, 3, 4], id, fun _ _ x => x⟩
    ∃ m, zeroDerivMat k 3 (2 * 2) = .ok m ∧ dwtMat [10, 20, 50] m = .ok ([10 + 20 + 60 + 200], [40 - 30 + 40 - 50]) := by
  intro k
  obtain ⟨m, hm, _, _, hd, _⟩ := C74_zero_derivative k 3 2 rfl (by omega)
  refine ⟨m, hm, ?_⟩
  rw [hd _ rfl]
  decide

/-- C75: a filter with eight coefficients on four samples. -/
example : dwtMat ([1, 2, 3, 4] : List ℤ) (filterPair [1, 1, 1, 1, 1, 1, 1, 1] [1, 1, 1, 1, 1, 1, 1, 1]) = .ub :=
  (C75_long_filter _ _ _ rfl).2 (by simp)

/-- C75: a 4 × 4 matrix on six samples. -/
example : dwtMat ([1, 2, 3, 4, 5, 6] : List ℤ) ⟨4, [[], [], [], []]⟩ = .ok ([], []) :=
  (C75_matrix_size_partial _ (by simp [SpMat.rows])).1 _ (by simp)

end WB.Props
