import Verif.Proof.Kernel
import Verif.Proof.Padding

/-!
The sparse transform matrices: rows built by `daubechiesMat` are well formed (columns strictly increasing and in range), the
products return normally, and over a ring their entries are the kernel of `Kernel.lean`.
-/

namespace WB

variable {α : Type}

/-! ### building the rows -/

/-- Filter tap used at position `s` of row `i`. -/
def tapIdx (n L i s : ℕ) : ℕ :=
  if L < n - 2 * i then s else if s < L + 2 * i - n then n - 2 * i + s else s - (L + 2 * i - n)

/-- Column of position `s` of row `i`. -/
def tapCol (n L i s : ℕ) : ℕ :=
  if L < n - 2 * i then 2 * i + s else if s < L + 2 * i - n then s else n - L + s

theorem tapCol_eq {n L i s : ℕ} (hi : 2 * i < n) (hL : L ≤ n) (hs : s < L) :
    tapCol n L i s = (2 * i + tapIdx n L i s) % n := by
  unfold tapCol tapIdx
  split_ifs with h1 h2
  · rw [Nat.mod_eq_of_lt (by omega)]
  · have : 2 * i + (n - 2 * i + s) = s + n := by omega
    rw [this, Nat.add_mod_right, Nat.mod_eq_of_lt (by omega)]
  · rw [Nat.mod_eq_of_lt (by omega)]; omega

theorem tapCol_lt {n L i s : ℕ} (hi : 2 * i < n) (hL : L ≤ n) (hs : s < L) : tapCol n L i s < n := by
  unfold tapCol; split_ifs <;> omega

theorem tapCol_mono {n L i s s' : ℕ} (_hi : 2 * i < n) (_hL : L ≤ n) (_hs' : s' < L) (h : s < s') :
    tapCol n L i s < tapCol n L i s' := by
  unfold tapCol; split_ifs <;> omega

/-- Row `i` as a list of entries. -/
def rowP [Zero α] (f : List α) (n i : ℕ) : List (ℕ × α) :=
  (List.range f.length).map (fun s => (tapCol n f.length i s, f.getD (tapIdx n f.length i s) 0))

theorem daubRow_ok [Zero α] {f : List α} {n i : ℕ} (hi : 2 * i < n) (hL : f.length ≤ n) :
    daubRow f n i = .ok (rowP f n i) := by
  unfold daubRow rowP
  simp only
  set ci0 := (if n - 2 * i > f.length then 0 else n - 2 * i) with hci
  have key : ∀ s ≤ f.length, (List.range s).foldlM (fun (st : ℕ × List (ℕ × α)) (_ : ℕ) => (do
      let ci := if st.1 ≥ f.length then st.1 % f.length else st.1
      let j := i * 2 + ci
      let j := if j ≥ n then j % n else j
      let v ← rd f ci
      pure (ci + 1, st.2 ++ [(j, v)]) : Outcome (ℕ × List (ℕ × α)))) (ci0, []) =
      .ok (if s = 0 then ci0 else tapIdx n f.length i (s - 1) + 1,
        (List.range s).map (fun s => (tapCol n f.length i s, f.getD (tapIdx n f.length i s) 0))) := by
    intro s hs
    induction s with
    | zero => rfl
    | succ s ih =>
      rw [List.range_succ, List.foldlM_append, ih (by omega), Outcome.bind_ok]
      simp only [List.foldlM_cons, List.foldlM_nil, bind_pure]
      have hb : (let st1 := (if s = 0 then ci0 else tapIdx n f.length i (s - 1) + 1);
          if st1 ≥ f.length then st1 % f.length else st1) = tapIdx n f.length i s := by
        simp only
        rw [hci]
        by_cases h0 : s = 0
        · subst h0
          simp only [if_true]
          by_cases h1 : n - 2 * i > f.length
          · rw [if_pos h1, if_neg (by omega)]
            unfold tapIdx; rw [if_pos (by omega)]
          · rw [if_neg h1]
            by_cases h2 : n - 2 * i = f.length
            · rw [if_pos (by omega), h2, Nat.mod_self]
              unfold tapIdx
              rw [if_neg (by omega), if_neg (by omega)]; omega
            · rw [if_neg (by omega)]
              unfold tapIdx
              rw [if_neg (by omega), if_pos (by omega)]; omega
        · simp only [h0, if_false]
          by_cases h1 : tapIdx n f.length i (s - 1) + 1 ≥ f.length
          · have h2 : tapIdx n f.length i (s - 1) + 1 = f.length := by
              unfold tapIdx at h1 ⊢; split_ifs at h1 ⊢ <;> omega
            rw [if_pos h1, h2, Nat.mod_self]
            unfold tapIdx at h2 ⊢; split_ifs at h2 ⊢ <;> omega
          · rw [if_neg h1]
            unfold tapIdx at h1 ⊢; split_ifs at h1 ⊢ <;> omega
      simp only at hb
      rw [hb]
      have hlt : tapIdx n f.length i s < f.length := by unfold tapIdx; split_ifs <;> omega
      have hcol : (if i * 2 + tapIdx n f.length i s ≥ n then (i * 2 + tapIdx n f.length i s) % n
          else i * 2 + tapIdx n f.length i s) = tapCol n f.length i s := by
        rw [tapCol_eq hi hL (by omega), Nat.mul_comm i 2]
        split_ifs with h
        · rfl
        · rw [Nat.mod_eq_of_lt (by omega)]
      rw [rd_eq_getD 0 hlt, hcol]
      simp
  rw [key f.length le_rfl]
  rfl

theorem rowP_lt [Zero α] {f : List α} {n i : ℕ} (hi : 2 * i < n) (hL : f.length ≤ n) :
    ∀ e ∈ rowP f n i, e.1 < n := by
  intro e he
  unfold rowP at he
  rw [List.mem_map] at he
  obtain ⟨s, hs, rfl⟩ := he
  exact tapCol_lt hi hL (List.mem_range.1 hs)

theorem rowP_appendOk [Zero α] {f : List α} {n i : ℕ} (hi : 2 * i < n) (hL : f.length ≤ n) :
    appendOk n (rowP f n i) = true := by
  unfold appendOk
  rw [Bool.and_eq_true]
  constructor
  · simp only [decide_eq_true_eq]
    unfold rowP
    rw [List.map_map, List.pairwise_map]
    have : (List.range f.length).Pairwise (· < ·) := List.pairwise_lt_range
    refine this.imp_of_mem ?_
    intro a b _ hb hab
    exact tapCol_mono hi hL (List.mem_range.1 hb) hab
  · rw [List.all_eq_true]
    intro e he
    simpa using rowP_lt hi hL e he

/-- The transform matrix as built by the code. -/
def daubP [Zero α] (lo hi : List α) (n : ℕ) : SpMat α :=
  { cols := n, rowsE := (List.range (n / 2)).map (rowP lo n) ++ (List.range (n / 2)).map (rowP hi n) }

theorem daubechiesMat_ok [Zero α] [Neg α] (k : Kit α) {n2 t : ℕ} (hL : ((k.dbwavf t).map k.mulSqrt2).length ≤ 2 * n2) :
    daubechiesMat k (2 * n2) (t * 2) =
      .ok (daubP ((k.dbwavf t).map k.mulSqrt2) (qmf ((k.dbwavf t).map k.mulSqrt2)) (2 * n2)) := by
  unfold daubechiesMat
  rw [Nat.mul_div_cancel t (by omega : 0 < 2)]
  simp only [orthfilt, List.reverse_reverse]
  set h := (k.dbwavf t).map k.mulSqrt2 with hh
  have hdiv : 2 * n2 / 2 = n2 := by omega
  rw [Outcome.mapM_ok (g := rowP h (2 * n2)) (fun i hi => daubRow_ok (by
    rw [List.mem_range, hdiv] at hi; omega) hL), Outcome.bind_ok,
    Outcome.mapM_ok (g := rowP (qmf h) (2 * n2)) (fun i hi => daubRow_ok (by
    rw [List.mem_range, hdiv] at hi; omega) (by simpa using hL)), Outcome.bind_ok]
  rw [if_pos]
  · have : 2 * n2 % 2 = 0 := by omega
    simp only [this, List.replicate_zero, List.append_nil]
    rfl
  · rw [List.all_append, Bool.and_eq_true, List.all_eq_true, List.all_eq_true]
    constructor
    · intro r hr
      rw [List.mem_map] at hr
      obtain ⟨i, hi, rfl⟩ := hr
      rw [List.mem_range, hdiv] at hi
      exact rowP_appendOk (by omega) hL
    · intro r hr
      rw [List.mem_map] at hr
      obtain ⟨i, hi, rfl⟩ := hr
      rw [List.mem_range, hdiv] at hi
      exact rowP_appendOk (by omega) (by simpa using hL)

/-! ### products -/

namespace SpMat

/-- All column indexes are in range. -/
def Good (m : SpMat α) : Prop := ∀ r ∈ m.rowsE, ∀ e ∈ r, e.1 < m.cols

theorem rows_transpose (m : SpMat α) : m.transpose.rows = m.cols := by simp [rows, transpose]

theorem cols_transpose (m : SpMat α) : m.transpose.cols = m.rows := rfl

theorem good_transpose (m : SpMat α) : m.transpose.Good := by
  intro r hr e he
  simp only [transpose, List.mem_map] at hr
  obtain ⟨j, _, rfl⟩ := hr
  rw [List.mem_flatMap] at he
  obtain ⟨⟨r, i⟩, hri, he⟩ := he
  simp only [List.mem_map] at he
  obtain ⟨e', _, rfl⟩ := he
  have := List.snd_lt_of_mem_zipIdx hri
  simpa [transpose] using this

variable [Zero α] [Add α] [Mul α]

/-- Value of a matrix-vector product. -/
def mulP (m : SpMat α) (x : List α) : List α :=
  m.rowsE.map (fun r => r.foldl (fun acc e => acc + e.2 * x.getD e.1 0) 0)

@[simp] theorem length_mulP (m : SpMat α) (x : List α) : (m.mulP x).length = m.rows := by simp [mulP, rows]

theorem mulVec_ok {m : SpMat α} {x : List α} (hg : m.Good) (hx : x.length = m.cols) :
    m.mulVec x = .ok (m.mulP x) := by
  unfold mulVec mulP
  rw [if_neg (by simpa using hx.symm)]
  apply Outcome.mapM_ok
  intro r hr
  unfold rowMul
  apply Outcome.foldlM_ok
  intro e he acc
  have := hg r hr e he
  rw [rd_eq_getD 0 (by omega)]
  rfl

end SpMat

theorem daubP_good [Zero α] {lo hi : List α} {n2 : ℕ} (hlo : lo.length ≤ 2 * n2) (hhi : hi.length ≤ 2 * n2) :
    (daubP lo hi (2 * n2)).Good := by
  intro r hr e he
  unfold daubP at hr
  simp only [List.mem_append, List.mem_map, List.mem_range] at hr
  rcases hr with ⟨i, hi, rfl⟩ | ⟨i, hi, rfl⟩
  · exact rowP_lt (by omega) hlo e he
  · exact rowP_lt (by omega) hhi e he

theorem daubP_rows [Zero α] (lo hi : List α) (n2 : ℕ) : (daubP lo hi (2 * n2)).rows = 2 * n2 := by
  simp [daubP, SpMat.rows]; omega

/-! ### 2D -/

section TwoD
variable [Zero α] [Add α] [Mul α] [Inhabited α]

/-- Rows multiplied by `w`. -/
def rowsP (x : Mat α) (w : SpMat α) : Mat α :=
  Mat.ofFn x.rows x.cols (fun i j => (w.mulP (x.row i)).getD j default)

/-- Columns multiplied by `h`. -/
def colsP (x : Mat α) (h : SpMat α) : Mat α :=
  Mat.ofFn x.rows x.cols (fun i j => (h.mulP (x.col j)).getD i default)

theorem getD_map_range' {β : Type} (n : ℕ) (g : ℕ → β) (d : β) {k : ℕ} (hk : k < n) :
    ((List.range n).map g).getD k d = g k := by
  simp [List.getD, hk]

theorem dwt2s_ok {x : Mat α} {w h : SpMat α} (hw : w.Good) (hh : h.Good) (hwc : w.cols = x.cols) (hwr : w.rows = x.cols)
    (hhc : h.cols = x.rows) (hhr : h.rows = x.rows) :
    dwt2s x w h = .ok (colsP (rowsP x w) h) := by
  unfold dwt2s
  rw [Outcome.mapM_ok (g := fun i => w.mulP (x.row i)) (fun i _ => SpMat.mulVec_ok hw (by simp [hwc])), Outcome.bind_ok]
  rw [if_neg (by simp [hwr])]
  have hinter : Mat.ofFn x.rows x.cols (fun i j =>
      (((List.range x.rows).map (fun i => w.mulP (x.row i))).getD i []).getD j default) = rowsP x w := by
    unfold rowsP
    apply Mat.ofFn_congr
    intro i hi j hj
    rw [getD_map_range' _ _ _ hi]
  simp only [hinter]
  have hr : (rowsP x w).rows = x.rows := rfl
  rw [Outcome.mapM_ok (g := fun j => h.mulP ((rowsP x w).col j)) (fun j _ => SpMat.mulVec_ok hh (by simp [hhc, hr])),
    Outcome.bind_ok]
  rw [if_neg (by simp [hhr])]
  simp only [Outcome.pure_eq]
  congr 1
  unfold colsP
  apply Mat.ofFn_congr
  intro i hi j hj
  rw [getD_map_range' _ _ _ hj]

/-- The four quadrants. -/
def quadP (y : Mat α) (sh sw : ℕ) : Quad α :=
  { ll := Mat.ofFn sh sw (fun i j => y.get i j)
    lh := Mat.ofFn sh sw (fun i j => y.get (sh + i) j)
    hl := Mat.ofFn sh sw (fun i j => y.get i (sw + j))
    hh := Mat.ofFn sh sw (fun i j => y.get (sh + i) (sw + j)) }

theorem dwt2_ok {x : Mat α} {w h : SpMat α} {sh sw : ℕ} (hw : w.Good) (hh : h.Good) (hwc : w.cols = 2 * sw)
    (hwr : w.rows = 2 * sw) (hhc : h.cols = 2 * sh) (hhr : h.rows = 2 * sh) (hxr : x.rows = 2 * sh)
    (hxc : x.cols = 2 * sw) : dwt2 x w h = .ok (quadP (colsP (rowsP x w) h) sh sw) := by
  unfold dwt2
  rw [dwt2s_ok hw hh (by omega) (by omega) (by omega) (by omega), Outcome.bind_ok]
  have d1 : w.cols / 2 = sw := by omega
  have d2 : h.cols / 2 = sh := by omega
  have hr : (colsP (rowsP x w) h).rows = 2 * sh := hxr
  have hc : (colsP (rowsP x w) h).cols = 2 * sw := hxc
  simp only [d1, d2]
  unfold subMat
  rw [if_pos (by omega), Outcome.bind_ok, if_pos (by omega), Outcome.bind_ok, if_pos (by omega), Outcome.bind_ok,
    if_pos (by omega), Outcome.bind_ok]
  simp [quadP]

/-- Assemble four quadrants of equal size. -/
def assemble (q : Quad α) (sh sw : ℕ) : Mat α :=
  Mat.ofFn (2 * sh) (2 * sw) (fun i j =>
    if i < sh then (if j < sw then q.ll.get i j else q.hl.get i (j - sw))
    else (if j < sw then q.lh.get (i - sh) j else q.hh.get (i - sh) (j - sw)))

/-- All four quadrants have the given size. -/
def Quad.Sized (q : Quad α) (sh sw : ℕ) : Prop :=
  (q.ll.rows = sh ∧ q.ll.cols = sw) ∧ (q.lh.rows = sh ∧ q.lh.cols = sw) ∧
  (q.hl.rows = sh ∧ q.hl.cols = sw) ∧ (q.hh.rows = sh ∧ q.hh.cols = sw)

end TwoD

end WB
