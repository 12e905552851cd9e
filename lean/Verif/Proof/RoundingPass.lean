import Verif.Proof.RoundingNorm
import Mathlib.Algebra.Order.BigOperators.Ring.Finset

/-!
One pass of the transform along the columns or the rows: local errors, and how the pass carries on the errors in the Euclidean norm.
-/

namespace WB

open Finset Spec

/-! ### kernels with nonnegative entries -/

/-- Schur's test. -/
theorem schur {n : ℕ} {A : ℕ → ℕ → ℝ} {S : ℝ} (hS : 0 ≤ S) (h0 : ∀ i < n, ∀ k < n, 0 ≤ A i k)
    (hr : ∀ i < n, ∑ k ∈ range n, A i k ≤ S) (hc : ∀ k < n, ∑ i ∈ range n, A i k ≤ S) : Bd n A S := by
  refine ⟨hS, fun v => len_le_of_sq hS ?_⟩
  have h1 : ∀ i ∈ range n, app n A v i * app n A v i ≤ S * ∑ a ∈ range n, A i a * (v a * v a) := by
    intro i hi
    have hi := mem_range.1 hi
    have k := sum_sq_le_sum_mul_sum_of_sq_le_mul (range n) (r := fun a => A i a * v a) (f := fun a => A i a)
      (g := fun a => A i a * (v a * v a)) (fun a ha => h0 i hi a (mem_range.1 ha))
      (fun a ha => mul_nonneg (h0 i hi a (mem_range.1 ha)) (mul_self_nonneg _)) (fun a _ => le_of_eq (by ring))
    unfold app
    rw [← pow_two]
    refine k.trans (mul_le_mul_of_nonneg_right (hr i hi) ?_)
    exact sum_nonneg fun a ha => mul_nonneg (h0 i hi a (mem_range.1 ha)) (mul_self_nonneg _)
  calc _ ≤ ∑ i ∈ range n, S * ∑ a ∈ range n, A i a * (v a * v a) := sum_le_sum h1
    _ = S * ∑ a ∈ range n, (∑ i ∈ range n, A i a) * (v a * v a) := by
        rw [← mul_sum, sum_comm]
        simp_rw [sum_mul]
    _ ≤ S * ∑ a ∈ range n, S * (v a * v a) :=
        mul_le_mul_of_nonneg_left (sum_le_sum fun a ha => mul_le_mul_of_nonneg_right (hc a (mem_range.1 ha)) (mul_self_nonneg _)) hS
    _ = _ := by rw [← mul_sum]; ring

/-- The transform kernel with the absolute values of the coefficients. -/
def absK (n2 t : ℕ) (F : List ℝ) (i k : ℕ) : ℝ :=
  if i < n2 then kern (2 * n2) (fl (F.map fun c => |c|)) (2 * t) i k else kern (2 * n2) (fl ((qmf F).map fun c => |c|)) (2 * t) (i - n2) k

theorem kern_nonneg (n : ℕ) (G : List ℝ) (L i k : ℕ) : 0 ≤ kern n (fl (G.map fun c => |c|)) L i k := by
  unfold kern
  refine sum_nonneg fun j _ => ?_
  split_ifs
  · change 0 ≤ (G.map fun c => |c|).getD j 0
    rw [fl_map_abs]; exact abs_nonneg _
  · exact le_rfl

theorem abs_taps (F : List ℝ) {t : ℕ} (hl : F.length = 2 * t) {e : ℕ} (he : e < 2) :
    taps (F.map fun c => |c|) t e + taps ((qmf F).map fun c => |c|) t e = ∑ j ∈ range (2 * t), |F.getD j 0| := by
  have h : ∀ l : List ℝ, taps (l.map fun c => |c|) t e = ∑ j ∈ range t, |l.getD (2 * j + e) 0| := by
    intro l
    unfold taps
    exact sum_congr rfl fun j _ => fl_map_abs l _
  have hqm : ∀ j ∈ range t, |(qmf F).getD (2 * j + e) 0| = |F.getD (2 * t - 1 - (2 * j + e)) 0| :=
    fun j hj => abs_qmf hl (by have := mem_range.1 hj; omega)
  rw [h, h, sum_congr rfl hqm, ← sum_range_reflect (fun j => |F.getD (2 * t - 1 - (2 * j + e)) 0|)]
  have hidx : ∀ j ∈ range t, |F.getD (2 * t - 1 - (2 * (t - 1 - j) + e)) 0| = |F.getD (2 * j + (1 - e)) 0| := by
    intro j hj
    rw [mem_range] at hj
    congr 2
    omega
  rw [sum_congr rfl hidx, FB.sum_even_odd, sum_add_distrib]
  rcases (by omega : e = 0 ∨ e = 1) with h | h
  · rw [h]; rfl
  · rw [h, add_comm]; rfl

theorem bd_absK {F : List ℝ} {t n2 : ℕ} (hl : F.length = 2 * t) (h0 : 0 < n2) {S : ℝ} (hS : ∑ j ∈ range (2 * t), |F.getD j 0| ≤ S) :
    Bd (2 * n2) (absK n2 t F) S := by
  have abs_sum : ∀ l : List ℝ, ∑ j ∈ range (2 * t), fl (l.map fun c => |c|) j = ∑ j ∈ range (2 * t), |l.getD j 0| := by
    intro l
    exact sum_congr rfl fun j _ => fl_map_abs l _
  refine schur ((sum_nonneg fun _ _ => abs_nonneg _).trans hS) ?_ ?_ ?_
  · intro i _ k _
    unfold absK
    split_ifs <;> exact kern_nonneg _ _ _ _ _
  · intro i _
    unfold absK
    by_cases h : i < n2
    · simp only [if_pos h]
      rw [kern_row_sum _ (by omega), abs_sum]
      exact hS
    · simp only [if_neg h]
      rw [kern_row_sum _ (by omega), abs_sum, sum_abs_qmf hl]
      exact hS
  · intro k hk
    rw [sum_halves]
    have e1 : ∑ i ∈ range n2, absK n2 t F i k = taps (F.map fun c => |c|) t (k % 2) := by
      rw [← kern_col_sum (F.map fun c => |c|) t n2 h0 k hk]
      exact sum_congr rfl fun i hi => if_pos (mem_range.1 hi)
    have e2 : ∑ i ∈ range n2, absK n2 t F (n2 + i) k = taps ((qmf F).map fun c => |c|) t (k % 2) := by
      rw [← kern_col_sum ((qmf F).map fun c => |c|) t n2 h0 k hk]
      exact sum_congr rfl fun i _ => by unfold absK; rw [if_neg (by omega), Nat.add_sub_cancel_left]
    rw [e1, e2, abs_taps F hl (Nat.mod_lt _ (by norm_num))]
    exact hS

/-! ### matrices near matrices -/

/-- `X` has a distance of at most `q - π` from `Y`, whose norm is at most `π`. -/
def NAp (X Y : Mat ℝ) (π q : ℝ) : Prop := X.rows = Y.rows ∧ X.cols = Y.cols ∧ nrm Y ≤ π ∧ nrm (msub X Y) + π ≤ q

theorem comb_msub {X Y : Mat ℝ} (h1 : X.rows = Y.rows) (h2 : X.cols = Y.cols) : Comb 1 1 (msub X Y) Y X := by
  refine ⟨rfl, rfl, h1.symm, h2.symm, ?_⟩
  intro i hi j hj
  rw [msub_get hi hj]; ring

theorem NAp.nonneg {X Y : Mat ℝ} {π q : ℝ} (h : NAp X Y π q) : 0 ≤ π ∧ π ≤ q :=
  ⟨(nrm_nonneg _).trans h.2.2.1, by have := nrm_nonneg (msub X Y); linarith [h.2.2.2]⟩

theorem NAp.nrm_le {X Y : Mat ℝ} {π q : ℝ} (h : NAp X Y π q) : nrm X ≤ q := by
  have := nrm_comb (comb_msub h.1 h.2.1)
  linarith [h.2.2.1, h.2.2.2]

/-- Entries of `Z` next to those of a separable operator applied to `X`. -/
def Loc (κ w : ℝ) (KH KW AH AW : ℕ → ℕ → ℝ) (X Z : Mat ℝ) : Prop :=
  Z.rows = X.rows ∧ Z.cols = X.cols ∧ ∀ i < X.rows, ∀ j < X.cols,
    |Z.get i j - (sepOp KH KW X).get i j| ≤ κ * (sepOp AH AW (X.map fun c => |c|)).get i j + w

theorem get_map_abs (X : Mat ℝ) {i j : ℕ} (hi : i < X.rows) (hj : j < X.cols) : (X.map fun c => |c|).get i j = |X.get i j| := by
  have hlt : i * X.cols + j < X.data.length := by rw [X.wf]; exact Mat.idx_lt hi hj
  unfold Mat.get Mat.map
  simp only [List.getD, List.getElem?_map, List.getElem?_eq_getElem hlt, Option.map_some, Option.getD_some]

theorem nrm_map_abs (X : Mat ℝ) : nrm (X.map fun c => |c|) = nrm X := by
  unfold nrm energy
  congr 1
  refine sum_congr rfl fun i hi => sum_congr rfl fun j hj => ?_
  rw [get_map_abs X (mem_range.1 hi) (mem_range.1 hj), abs_mul_abs_self]

theorem len_const (r c : ℕ) {w : ℝ} (hw : 0 ≤ w) : len (range r ×ˢ range c) (fun _ => w) = w * Real.sqrt (r * c) := by
  unfold len
  rw [sum_const, card_product, card_range, card_range, nsmul_eq_mul]
  push_cast
  rw [mul_comm, Real.sqrt_mul (mul_self_nonneg w), Real.sqrt_mul_self hw]

theorem len_mono {ι : Type} {S : Finset ι} {f g : ι → ℝ} (h : ∀ i ∈ S, |f i| ≤ g i) : len S f ≤ len S g := by
  unfold len
  refine Real.sqrt_le_sqrt (sum_le_sum fun i hi => ?_)
  have := h i hi
  rw [← abs_mul_abs_self]
  exact mul_self_le_mul_self (abs_nonneg _) this

/-- One pass. -/
theorem pass_norm {κ w : ℝ} (hκ : 0 ≤ κ) (hw : 0 ≤ w) {KH KW AH AW : ℕ → ℕ → ℝ} {X Y Z : Mat ℝ} (hl : Loc κ w KH KW AH AW X Z) {a S τ c1 c2 d1 d2 : ℝ}
    (k1 : Bd X.rows KH c1) (k2 : Bd X.cols KW c2) (ka : c1 * c2 ≤ a) (a1 : Bd X.rows AH d1) (a2 : Bd X.cols AW d2) (da : d1 * d2 ≤ S)
    (hτ : w * Real.sqrt (X.rows * X.cols) ≤ τ) {π q : ℝ} (h : NAp X Y π q) :
    NAp Z (sepOp KH KW Y) (a * π) ((a + κ * S) * q + τ) := by
  obtain ⟨l1, l2, l3⟩ := hl
  have hq := h.nrm_le
  obtain ⟨n1, n2⟩ := h.nonneg
  obtain ⟨h1, h2, h3, h4⟩ := h
  have c0 : 0 ≤ c1 * c2 := mul_nonneg k1.1 k2.1
  have d0 : 0 ≤ d1 * d2 := mul_nonneg a1.1 a2.1
  have sY : nrm (sepOp KH KW Y) ≤ a * π := by
    have := nrm_sepOp (x := Y) (KH := KH) (KW := KW) (by rw [← h1]; exact k1) (by rw [← h2]; exact k2)
    calc _ ≤ _ := this
      _ ≤ a * nrm Y := mul_le_mul_of_nonneg_right ka (nrm_nonneg _)
      _ ≤ a * π := mul_le_mul_of_nonneg_left h3 (c0.trans ka)
  refine ⟨by rw [l1, h1]; rfl, by rw [l2, h2]; rfl, sY, ?_⟩
  -- error of this pass
  have loc : nrm (msub Z (sepOp KH KW X)) ≤ κ * S * nrm X + τ := by
    have e1 : nrm (msub Z (sepOp KH KW X)) ≤ len (range X.rows ×ˢ range X.cols)
        (fun q => κ * (sepOp AH AW (X.map fun c => |c|)).get q.1 q.2 + w) := by
      rw [nrm_len]
      change len (range Z.rows ×ˢ range Z.cols) _ ≤ _
      rw [l1, l2]
      refine len_mono ?_
      intro q hq
      rw [mem_product, mem_range, mem_range] at hq
      rw [msub_get (by rw [l1]; exact hq.1) (by rw [l2]; exact hq.2)]
      exact l3 _ hq.1 _ hq.2
    refine e1.trans ((len_add _ _ _).trans ?_)
    rw [len_smul, len_const _ _ hw, abs_of_nonneg hκ]
    have e2 : len (range X.rows ×ˢ range X.cols) (fun q => (sepOp AH AW (X.map fun c => |c|)).get q.1 q.2) ≤ S * nrm X := by
      have := nrm_sepOp (x := X.map fun c => |c|) (KH := AH) (KW := AW) a1 a2
      rw [nrm_map_abs, nrm_len] at this
      exact this.trans (mul_le_mul_of_nonneg_right da (nrm_nonneg _))
    nlinarith
  have prop : nrm (sepOp KH KW (msub X Y)) ≤ a * nrm (msub X Y) :=
    (nrm_sepOp (x := msub X Y) k1 k2).trans (mul_le_mul_of_nonneg_right ka (nrm_nonneg _))
  have hc := comb_sepOp (KH := KH) (KW := KW) (comb_msub h1 h2)
  have tri : nrm (msub Z (sepOp KH KW Y)) ≤ nrm (msub Z (sepOp KH KW X)) + nrm (sepOp KH KW (msub X Y)) := by
    refine nrm_comb ⟨rfl, rfl, l1.symm, l2.symm, ?_⟩
    intro i hi j hj
    have hi' : i < Z.rows := hi
    have hj' : j < Z.cols := hj
    rw [msub_get hi' hj', msub_get hi' hj', hc.2.2.2.2 i (l1 ▸ hi') j (l2 ▸ hj')]
    ring
  have t1 : κ * S * nrm X ≤ κ * S * q := mul_le_mul_of_nonneg_left hq (mul_nonneg hκ (d0.trans da))
  have t2 : a * (nrm (msub X Y) + π) ≤ a * q := mul_le_mul_of_nonneg_left h4 (c0.trans ka)
  nlinarith

theorem sepOp_delta_left {KW : ℕ → ℕ → ℝ} {X : Mat ℝ} {i j : ℕ} (hi : i < X.rows) (hj : j < X.cols) :
    (sepOp delta KW X).get i j = ∑ b ∈ range X.cols, KW j b * X.get i b := by
  rw [sepOp_get' hi hj, app_delta _ _ hi]; rfl

theorem sepOp_delta_right {KH : ℕ → ℕ → ℝ} {X : Mat ℝ} {i j : ℕ} (hi : i < X.rows) (hj : j < X.cols) :
    (sepOp KH delta X).get i j = ∑ a ∈ range X.rows, KH i a * X.get a j := by
  rw [sepOp_get' hi hj]
  unfold app
  refine sum_congr rfl fun a ha => ?_
  congr 1
  exact app_delta _ _ hj

theorem sepOp_two (KH KW : ℕ → ℕ → ℝ) (X : Mat ℝ) : sepOp KH delta (sepOp delta KW X) = sepOp KH KW X := by
  refine Mat.ext' rfl rfl ?_
  intro i hi j hj
  have hi' : i < X.rows := hi
  have hj' : j < X.cols := hj
  rw [sepOp_delta_right (X := sepOp delta KW X) hi' hj', sepOp_get hi' hj']
  refine sum_congr rfl fun a ha => ?_
  rw [sepOp_delta_left (show a < X.rows from mem_range.1 ha) hj']

section Values
variable {α : Type} [Zero α] [Add α] [Mul α] [Neg α] [Inhabited α] {u ω Ω η S : ℝ} {sc : Scalars α u ω Ω}

/-- All entries are finite. -/
def FinV (sc : Scalars α u ω Ω) (m : Mat α) : Prop := ∀ i < m.rows, ∀ j < m.cols, sc.fin (m.get i j)

theorem get_V (sc : Scalars α u ω Ω) (m : Mat α) {i j : ℕ} (hi : i < m.rows) (hj : j < m.cols) : (m.map sc.val).get i j = sc.val (m.get i j) := by
  have hlt : i * m.cols + j < m.data.length := by rw [m.wf]; exact Mat.idx_lt hi hj
  unfold Mat.get Mat.map
  simp only [List.getD, List.getElem?_map, List.getElem?_eq_getElem hlt, Option.map_some, Option.getD_some]

theorem finL_row {m : Mat α} (h : FinV sc m) {B : ℝ} (hB : nrm (m.map sc.val) ≤ B) {i : ℕ} (hi : i < m.rows) :
    FinL sc B (m.row i) (fun k => if k < m.cols then (m.map sc.val).get i k else 0) := by
  have hB0 := (nrm_nonneg _).trans hB
  intro k
  by_cases hk : k < m.cols
  · have e : (m.row i).getD k 0 = m.get i k := by simp [Mat.row, List.getD, hk]
    beta_reduce
    rw [e, if_pos hk, get_V sc m hi hk]
    refine ⟨h i hi k hk, ?_, rfl⟩
    have := abs_le_nrm (m := m.map sc.val) hi hk
    rw [get_V sc m hi hk] at this
    exact this.trans hB
  · have e : (m.row i).getD k 0 = 0 := by simp [Mat.row, List.getD, hk]
    beta_reduce
    rw [e, if_neg hk, sc.zero.2]
    exact ⟨sc.zero.1, by simpa using hB0, rfl⟩

theorem finL_col {m : Mat α} (h : FinV sc m) {B : ℝ} (hB : nrm (m.map sc.val) ≤ B) {j : ℕ} (hj : j < m.cols) :
    FinL sc B (m.col j) (fun k => if k < m.rows then (m.map sc.val).get k j else 0) := by
  have hB0 := (nrm_nonneg _).trans hB
  intro k
  by_cases hk : k < m.rows
  · have e : (m.col j).getD k 0 = m.get k j := by simp [Mat.col, List.getD, hk]
    beta_reduce
    rw [e, if_pos hk, get_V sc m hk hj]
    refine ⟨h k hk j hj, ?_, rfl⟩
    have := abs_le_nrm (m := m.map sc.val) hk hj
    rw [get_V sc m hk hj] at this
    exact this.trans hB
  · have e : (m.col j).getD k 0 = 0 := by simp [Mat.col, List.getD, hk]
    beta_reduce
    rw [e, if_neg hk, sc.zero.2]
    exact ⟨sc.zero.1, by simpa using hB0, rfl⟩

/-- A sparse matrix whose coefficients are near those of the kernel `K`; `A` holds their absolute values. -/
def SpOk (sc : Scalars α u ω Ω) (η S : ℝ) (t n : ℕ) (m : SpMat α) (K A : ℕ → ℕ → ℝ) : Prop :=
  ∃ P : SpMat (α × ℝ), m = P.mapV Prod.fst ∧ P.cols = n ∧ P.rowsE.length = n ∧ (P.mapV fun _ => (0 : ℝ)).Good ∧
    (∀ r ∈ P.rowsE, (∀ e ∈ r, sc.Ap e.2.1 e.2.2 |e.2.2| ((1 + η) * |e.2.2|)) ∧ r.length ≤ 2 * t ∧ (r.map fun e => |e.2.2|).sum ≤ S) ∧
    ∀ i < n, ∀ k < n, (P.mapV Prod.snd).ker i k = K i k ∧ (P.mapV fun v => |v.2|).ker i k = A i k

theorem loc_mulP (hu : 0 ≤ u) (hω : 0 ≤ ω) (hη : 0 ≤ η) {t n : ℕ} (ht : 0 < t) {B : ℝ} {x : List α} {X : ℕ → ℝ} (hx : FinL sc B x X) {m : SpMat α}
    {K A : ℕ → ℕ → ℝ} (hm : SpOk sc η S t n m K A) (hΩ : gr u ω η S t B ≤ Ω) {i : ℕ} (hi : i < n) :
    sc.fin ((m.mulP x).getD i default) ∧ |sc.val ((m.mulP x).getD i default) - ∑ k ∈ range n, K i k * X k| ≤
      lk u η t * ∑ k ∈ range n, A i k * |X k| + lw u ω t := by
  obtain ⟨P, rfl, hc, hr, hg, hP, hk⟩ := hm
  have hi' : i < P.rowsE.length := by omega
  have hmem : P.rowsE[i] ∈ P.rowsE := List.getElem_mem hi'
  obtain ⟨p1, p2, p3⟩ := hP _ hmem
  have cols : ∀ e ∈ P.rowsE[i], e.1 < n := by
    intro e he
    have := hg (P.rowsE[i].map fun e => (e.1, (0 : ℝ))) (by
      unfold SpMat.mapV
      exact List.mem_map.2 ⟨_, hmem, rfl⟩) (e.1, 0) (List.mem_map.2 ⟨e, he, rfl⟩)
    rw [← hc]
    exact this
  have ent : ∀ (g : α × ℝ → ℝ) (Y : ℕ → ℝ), (P.rowsE[i].map fun e => g e.2 * Y e.1).sum = ∑ k ∈ range n, (P.mapV g).ker i k * Y k := by
    intro g Y
    have := sum_entries (P.rowsE[i].map fun e => (e.1, g e.2)) n Y (by
      intro e he
      rw [List.mem_map] at he
      obtain ⟨e', he', rfl⟩ := he
      exact cols e' he')
    rw [List.map_map] at this
    rw [show (P.rowsE[i].map fun e => g e.2 * Y e.1) = P.rowsE[i].map ((fun e => e.2 * Y e.1) ∘ fun e => (e.1, g e.2)) from rfl, this]
    refine sum_congr rfl fun k _ => ?_
    unfold SpMat.ker SpMat.mapV
    simp [List.getD, hi']
  have := loc_row (S := S) hu hω hη ht hx p1 p2 p3 hΩ
  rw [ent (fun v => v.2) X, ent (fun v => |v.2|) (fun k => |X k|)] at this
  rw [sum_congr rfl fun k hk' => show K i k * X k = (P.mapV Prod.snd).ker i k * X k by rw [(hk i hi k (mem_range.1 hk')).1],
    sum_congr rfl fun k hk' => show A i k * |X k| = (P.mapV fun v => |v.2|).ker i k * |X k| by rw [(hk i hi k (mem_range.1 hk')).2]]
  have e1 : ((P.mapV Prod.fst).mulP x).getD i default =
      (P.rowsE[i].map fun e => (e.1, e.2.1)).foldl (fun acc e => acc + e.2 * x.getD e.1 0) (0 : α) := by
    simp [SpMat.mulP, SpMat.mapV, List.getD, hi']
  rw [e1]
  exact this

theorem good_mapV {β γ δ : Type} {g : β → γ} {g' : β → δ} {P : SpMat β} (h : (P.mapV g).Good) : (P.mapV g').Good := by
  intro r hr e he
  unfold SpMat.mapV at hr
  simp only [List.mem_map] at hr
  obtain ⟨r', hr', rfl⟩ := hr
  rw [List.mem_map] at he
  obtain ⟨e', he', rfl⟩ := he
  exact h (r'.map fun e => (e.1, g e.2)) (by unfold SpMat.mapV; exact List.mem_map.2 ⟨_, hr', rfl⟩) (e'.1, g e'.2) (List.mem_map.2 ⟨e', he', rfl⟩)

theorem spOk_daubP {f : List α} {F : List ℝ} (hf : ApF sc η f F) {t n2 : ℕ} (hl : F.length = 2 * t) (hn : t ≤ n2) (h0 : 0 < n2)
    (hS : ∑ j ∈ range (2 * t), |F.getD j 0| ≤ S) :
    SpOk sc η S t (2 * n2) (daubP f (qmf f) (2 * n2)) (trans n2 t F) (absK n2 t F) ∧
    SpOk sc η S t (2 * n2) (daubP f (qmf f) (2 * n2)).transpose (tr (trans n2 t F)) (tr (absK n2 t F)) := by
  obtain ⟨P, m1, m2, m3, h1, h2⟩ := pairs_daubP hf hl hn h0 hS
  have hq : (qmf F).length = 2 * t := by simp [hl]
  have rows : P.rowsE.length = 2 * n2 := by
    have := daubP_rows F (qmf F) n2
    rw [m2] at this
    simpa [SpMat.rows, SpMat.mapV] using this
  have cols : P.cols = 2 * n2 := by
    have : (daubP F (qmf F) (2 * n2)).cols = 2 * n2 := rfl
    rw [m2] at this
    exact this
  have good : (P.mapV Prod.snd).Good := by
    rw [← m2]
    exact daubP_good (by omega) (by omega)
  have ker : ∀ i < 2 * n2, ∀ k < 2 * n2, (P.mapV Prod.snd).ker i k = trans n2 t F i k ∧ (P.mapV fun v => |v.2|).ker i k = absK n2 t F i k := by
    intro i hi k _
    rw [← m2, m3, ker_daubP' _ _ t n2 hl hq hn hi, ker_daubP' _ _ t n2 (by simp [hl]) (by simp [hl]) hn hi]
    exact ⟨rfl, rfl⟩
  refine ⟨⟨P, m1, cols, rows, good_mapV good, h1, ker⟩, ⟨P.transpose, by rw [m1, SpMat.mapV_transpose], rows, ?_, ?_, h2, ?_⟩⟩
  · have := SpMat.rows_transpose P
    unfold SpMat.rows at this
    omega
  · rw [← SpMat.mapV_transpose]; exact SpMat.good_transpose _
  · intro i hi k hk
    rw [← SpMat.mapV_transpose, ← SpMat.mapV_transpose,
      ker_transpose _ (by simpa [SpMat.rows, SpMat.mapV, rows] using hk) (by simpa [SpMat.mapV, cols] using hi),
      ker_transpose _ (by simpa [SpMat.rows, SpMat.mapV, rows] using hk) (by simpa [SpMat.mapV, cols] using hi)]
    exact ker k hk i hi

theorem loc_rowsP (hu : 0 ≤ u) (hω : 0 ≤ ω) (hη : 0 ≤ η) {t : ℕ} (ht : 0 < t) {B : ℝ} {x : Mat α} (hx : FinV sc x) (hB : nrm (x.map sc.val) ≤ B)
    {m : SpMat α} {K A : ℕ → ℕ → ℝ} (hm : SpOk sc η S t x.cols m K A) (hΩ : gr u ω η S t B ≤ Ω) :
    FinV sc (rowsP x m) ∧ Loc (lk u η t) (lw u ω t) delta K delta A (x.map sc.val) ((rowsP x m).map sc.val) := by
  have key : ∀ i < x.rows, ∀ j < x.cols, sc.fin ((rowsP x m).get i j) ∧
      |sc.val ((rowsP x m).get i j) - (sepOp delta K (x.map sc.val)).get i j| ≤
        lk u η t * (sepOp delta A ((x.map sc.val).map fun c => |c|)).get i j + lw u ω t := by
    intro i hi j hj
    have := loc_mulP hu hω hη ht (finL_row hx hB hi) hm hΩ hj
    unfold rowsP
    rw [Mat.get_ofFn hi hj, sepOp_delta_left (X := x.map sc.val) hi hj, sepOp_delta_left (X := (x.map sc.val).map fun c => |c|) hi hj]
    convert this using 3
    · congr 1
      exact sum_congr rfl fun k hk => by rw [if_pos (show k < x.cols from mem_range.1 hk)]
    · congr 1
      refine sum_congr rfl fun k hk => ?_
      rw [if_pos (show k < x.cols from mem_range.1 hk), get_map_abs (x.map sc.val) hi (mem_range.1 hk)]
  refine ⟨fun i hi j hj => (key i hi j hj).1, rfl, rfl, ?_⟩
  intro i hi j hj
  rw [get_V sc (rowsP x m) hi hj]
  exact (key i hi j hj).2

theorem loc_colsP (hu : 0 ≤ u) (hω : 0 ≤ ω) (hη : 0 ≤ η) {t : ℕ} (ht : 0 < t) {B : ℝ} {x : Mat α} (hx : FinV sc x) (hB : nrm (x.map sc.val) ≤ B)
    {m : SpMat α} {K A : ℕ → ℕ → ℝ} (hm : SpOk sc η S t x.rows m K A) (hΩ : gr u ω η S t B ≤ Ω) :
    FinV sc (colsP x m) ∧ Loc (lk u η t) (lw u ω t) K delta A delta (x.map sc.val) ((colsP x m).map sc.val) := by
  have key : ∀ i < x.rows, ∀ j < x.cols, sc.fin ((colsP x m).get i j) ∧
      |sc.val ((colsP x m).get i j) - (sepOp K delta (x.map sc.val)).get i j| ≤
        lk u η t * (sepOp A delta ((x.map sc.val).map fun c => |c|)).get i j + lw u ω t := by
    intro i hi j hj
    have := loc_mulP hu hω hη ht (finL_col hx hB hj) hm hΩ hi
    unfold colsP
    rw [Mat.get_ofFn hi hj, sepOp_delta_right (X := x.map sc.val) hi hj, sepOp_delta_right (X := (x.map sc.val).map fun c => |c|) hi hj]
    convert this using 3
    · congr 1
      exact sum_congr rfl fun k hk => by rw [if_pos (show k < x.rows from mem_range.1 hk)]
    · congr 1
      refine sum_congr rfl fun k hk => ?_
      rw [if_pos (show k < x.rows from mem_range.1 hk), get_map_abs (x.map sc.val) (mem_range.1 hk) hj]
  refine ⟨fun i hi j hj => (key i hi j hj).1, rfl, rfl, ?_⟩
  intro i hi j hj
  rw [get_V sc (colsP x m) hi hj]
  exact (key i hi j hj).2

end Values

end WB
