import Verif.Proof.Rounding
import Verif.Proof.Const

/-!
Rounding errors of the 2D transform: products with the sparse matrices and with their transposes.
-/

namespace WB

open Finset Spec

section Entries

/-- All stored values replaced. -/
def SpMat.mapV {α β : Type} (g : α → β) (m : SpMat α) : SpMat β :=
  { cols := m.cols, rowsE := m.rowsE.map fun r => r.map fun e => (e.1, g e.2) }

theorem SpMat.mapV_transpose {α β : Type} (g : α → β) (m : SpMat α) : (m.mapV g).transpose = m.transpose.mapV g := by
  have key : ∀ (l : List (List (ℕ × α))) (s j : ℕ),
      ((l.map fun r => r.map fun e => (e.1, g e.2)).zipIdx s).flatMap (fun (r, i) => (r.filter (fun e => e.1 = j)).map (fun e => (i, e.2))) =
      ((l.zipIdx s).flatMap (fun (r, i) => (r.filter (fun e => e.1 = j)).map (fun e => (i, e.2)))).map fun e => (e.1, g e.2) := by
    intro l
    induction l with
    | nil => intro s j; rfl
    | cons r l ih =>
      intro s j
      rw [List.map_cons, List.zipIdx_cons, List.zipIdx_cons, List.flatMap_cons, List.flatMap_cons, List.map_append, ih]
      congr 1
      simp [List.filter_map, List.map_map, Function.comp_def]
  unfold SpMat.transpose SpMat.mapV
  simp only [List.length_map, List.map_map, SpMat.mk.injEq, true_and]
  refine List.map_congr_left fun j _ => ?_
  exact key m.rowsE 0 j

theorem tapIdx_lt {n L i s : ℕ} (hi : 2 * i < n) (hs : s < L) : tapIdx n L i s < L := by
  unfold tapIdx; split_ifs <;> omega

theorem rowP_map {α β : Type} [Zero α] [Zero β] (g : α → β) (f : List α) {n i : ℕ} (hi : 2 * i < n) :
    rowP (f.map g) n i = (rowP f n i).map fun e => (e.1, g e.2) := by
  unfold rowP
  rw [List.map_map, List.length_map]
  refine List.map_congr_left fun s hs => ?_
  have h := tapIdx_lt hi (List.mem_range.1 hs)
  simp only [Function.comp_apply, List.getD, List.getElem?_map, List.getElem?_eq_getElem h, Option.map_some, Option.getD_some]

theorem daubP_map {α β : Type} [Zero α] [Zero β] (g : α → β) (lo hi : List α) {n2 : ℕ} :
    daubP (lo.map g) (hi.map g) (2 * n2) = (daubP lo hi (2 * n2)).mapV g := by
  unfold daubP SpMat.mapV
  simp only [List.map_append, List.map_map, SpMat.mk.injEq, true_and]
  congr 1 <;> refine List.map_congr_left fun i hi => ?_
  · exact rowP_map g lo (by have := List.mem_range.1 hi; omega)
  · exact rowP_map g _ (by have := List.mem_range.1 hi; omega)

/-- The sum of a row. -/
theorem row_total {m : SpMat ℝ} (hg : m.Good) {r : List (ℕ × ℝ)} {i : ℕ} (hr : m.rowsE[i]? = some r) :
    (r.map Prod.snd).sum = ∑ k ∈ range m.cols, m.ker i k := by
  have := sum_entries r m.cols (fun _ => 1) (hg r (List.mem_of_getElem? hr))
  simp only [mul_one] at this
  rw [show r.map Prod.snd = r.map (fun e => e.2) from rfl, this]
  unfold SpMat.ker
  rw [List.getD_eq_getElem?_getD, hr]
  rfl

theorem ker_daubP' (lo hi : List ℝ) (t n2 : ℕ) (h1 : lo.length = 2 * t) (h2 : hi.length = 2 * t) (hn : t ≤ n2) {i : ℕ} (hi' : i < 2 * n2)
    (k : ℕ) : (daubP lo hi (2 * n2)).ker i k =
      if i < n2 then kern (2 * n2) (fl lo) (2 * t) i k else kern (2 * n2) (fl hi) (2 * t) (i - n2) k := by
  unfold SpMat.ker daubP
  have hdiv : 2 * n2 / 2 = n2 := by omega
  simp only [hdiv]
  by_cases h : i < n2
  · rw [if_pos h, List.getD_append _ _ _ _ (by simpa using h), getD_map_range' _ _ _ h, ker_rowP _ _ _ _ (by omega) (by omega), h1]
  · rw [if_neg h, List.getD_append_right _ _ _ _ (by simpa using h)]
    simp only [List.length_map, List.length_range]
    rw [getD_map_range' _ _ _ (by omega), ker_rowP _ _ _ _ (by omega) (by omega), h2]

theorem total_row (lo hi : List ℝ) (t n2 : ℕ) (h1 : lo.length = 2 * t) (h2 : hi.length = 2 * t) (hn : t ≤ n2) (h0 : 0 < n2) {r : List (ℕ × ℝ)}
    {i : ℕ} (hr : (daubP lo hi (2 * n2)).rowsE[i]? = some r) :
    (r.map Prod.snd).sum = ∑ j ∈ range (2 * t), fl lo j ∨ (r.map Prod.snd).sum = ∑ j ∈ range (2 * t), fl hi j := by
  have hi' : i < 2 * n2 := by
    have := (List.getElem?_eq_some_iff.1 hr).1
    have e : (daubP lo hi (2 * n2)).rowsE.length = 2 * n2 := daubP_rows lo hi n2
    omega
  rw [row_total (daubP_good (by omega) (by omega)) hr]
  have hc : (daubP lo hi (2 * n2)).cols = 2 * n2 := rfl
  rw [hc, sum_congr rfl fun k _ => ker_daubP' lo hi t n2 h1 h2 hn hi' k]
  by_cases h : i < n2
  · left; simp only [if_pos h]; exact kern_row_sum _ (by omega) _ _ _
  · right; simp only [if_neg h]; exact kern_row_sum _ (by omega) _ _ _

theorem total_col (lo hi : List ℝ) (t n2 : ℕ) (h1 : lo.length = 2 * t) (h2 : hi.length = 2 * t) (hn : t ≤ n2) (h0 : 0 < n2) {r : List (ℕ × ℝ)}
    {k : ℕ} (hr : (daubP lo hi (2 * n2)).transpose.rowsE[k]? = some r) :
    (r.map Prod.snd).sum = taps lo t (k % 2) + taps hi t (k % 2) := by
  have hk : k < 2 * n2 := by
    have := (List.getElem?_eq_some_iff.1 hr).1
    have e : (daubP lo hi (2 * n2)).transpose.rowsE.length = 2 * n2 := SpMat.rows_transpose _
    omega
  have hrows : (daubP lo hi (2 * n2)).rows = 2 * n2 := daubP_rows lo hi n2
  rw [row_total (SpMat.good_transpose _) hr, SpMat.cols_transpose, hrows]
  have : ∀ i ∈ range (2 * n2), (daubP lo hi (2 * n2)).transpose.ker k i =
      if i < n2 then kern (2 * n2) (fl lo) (2 * t) i k else kern (2 * n2) (fl hi) (2 * t) (i - n2) k := by
    intro i hi'
    rw [mem_range] at hi'
    rw [ker_transpose _ (by omega) hk, ker_daubP' lo hi t n2 h1 h2 hn hi' k]
  rw [sum_congr rfl this, sum_halves]
  congr 1
  · rw [← kern_col_sum lo t n2 h0 k hk]
    exact sum_congr rfl fun i hi' => if_pos (mem_range.1 hi')
  · rw [← kern_col_sum hi t n2 h0 k hk]
    exact sum_congr rfl fun i _ => by rw [if_neg (by omega), Nat.add_sub_cancel_left]

end Entries

section Products
variable {α : Type} [Zero α] [Add α] [Mul α] [Neg α] [Inhabited α] {u ω Ω η S : ℝ} {sc : Scalars α u ω Ω}

/-- A matrix in use and the exact one: same pattern, at most `2 t` entries in a row, sums of absolute values at most `S`. -/
def ApS (sc : Scalars α u ω Ω) (η S : ℝ) (t : ℕ) (m : SpMat α) (M : SpMat ℝ) : Prop :=
  ∃ P : SpMat (α × ℝ), m = P.mapV Prod.fst ∧ M = P.mapV Prod.snd ∧
    ∀ r ∈ P.rowsE, (∀ e ∈ r, sc.Ap e.2.1 e.2.2 |e.2.2| ((1 + η) * |e.2.2|)) ∧ r.length ≤ 2 * t ∧ (r.map fun e => |e.2.2|).sum ≤ S

theorem list_getD_self {γ : Type} (l : List γ) (d : γ) : l = (List.range l.length).map fun j => l.getD j d := by
  refine List.ext_getElem (by simp) fun i h1 h2 => ?_
  simp [List.getD, h1]

theorem foldl_eq_range {β γ : Type} (l : List γ) (d : γ) (f : β → γ → β) (b : β) :
    l.foldl f b = (List.range l.length).foldl (fun acc j => f acc (l.getD j d)) b := by
  conv_lhs => rw [list_getD_self l d, List.foldl_map]

theorem sum_getD_map {γ : Type} (l : List γ) (d : γ) (g : γ → ℝ) : ∑ j ∈ range l.length, g (l.getD j d) = (l.map g).sum := by
  induction l with
  | nil => simp
  | cons c l ih =>
    rw [List.length_cons, sum_range_succ', List.map_cons, List.sum_cons, ← ih, add_comm]
    simp

theorem ap_row (hu : 0 ≤ u) (hω : 0 ≤ ω) (hη : 0 ≤ η) {π q : ℝ} {x : List α} {X : List ℝ} (hx : ApL sc π q x X)
    {r : List (ℕ × α × ℝ)} {t : ℕ} (hr : ∀ e ∈ r, sc.Ap e.2.1 e.2.2 |e.2.2| ((1 + η) * |e.2.2|)) (hl : r.length ≤ 2 * t)
    (hS : (r.map fun e => |e.2.2|).sum ≤ S) (_ht : 0 < t) (hΩ : gr u ω η S t q ≤ Ω) :
    sc.Ap ((r.map fun e => (e.1, e.2.1)).foldl (fun acc e => acc + e.2 * x.getD e.1 0) (0 : α))
      ((r.map fun e => (e.1, e.2.2)).foldl (fun acc e => acc + e.2 * X.getD e.1 0) (0 : ℝ)) (S * π) (gr u ω η S t q) := by
  obtain ⟨n1, n2⟩ := (hx.2 0).nonneg
  rw [List.foldl_map, List.foldl_map, foldl_eq_range r (0, 0, 0), foldl_eq_range r (0, 0, 0)]
  have hσ0 : 0 ≤ (r.map fun e => |e.2.2|).sum := by
    refine List.sum_nonneg ?_
    intro y hy
    rw [List.mem_map] at hy
    obtain ⟨e, _, rfl⟩ := hy
    exact abs_nonneg _
  have r1 : ∑ j ∈ range r.length, |(r.getD j (0, 0, 0)).2.2| * π = (r.map fun e => |e.2.2|).sum * π := by
    rw [← sum_mul, sum_getD_map r (0, 0, 0) (fun e => |e.2.2|)]
  have r2 : ∑ j ∈ range r.length, ((1 + u) * ((1 + η) * |(r.getD j (0, 0, 0)).2.2| * q) + ω) =
      (1 + u) * ((1 + η) * (r.map fun e => |e.2.2|).sum * q) + r.length * ω := by
    rw [sum_add_distrib, sum_const, card_range, nsmul_eq_mul, ← sum_getD_map r (0, 0, 0) (fun e => |e.2.2|), mul_sum, sum_mul, mul_sum]
  have small : ∀ j < r.length, |(r.getD j (0, 0, 0)).2.2| ≤ S := by
    intro j hj
    have := single_le_sum (f := fun j => |(r.getD j (0, 0, 0)).2.2|) (fun _ _ => abs_nonneg _) (mem_range.2 hj)
    rw [sum_getD_map r (0, 0, 0) (fun e => |e.2.2|)] at this
    exact this.trans hS
  have f0 : 0 ≤ q := n1.trans n2
  have hu1 : 1 ≤ 1 + u := by linarith
  have hP : (1 + u) ^ r.length ≤ (1 + u) ^ (2 * t) := pow_le_pow_right₀ hu1 hl
  have hlR : (r.length : ℝ) ≤ 2 * t := by exact_mod_cast hl
  have hB0 : 0 ≤ (1 + u) * ((1 + η) * (r.map fun e => |e.2.2|).sum * q) + r.length * ω + r.length * ω := by positivity
  have s1 : (1 + u) ^ r.length * ((1 + u) * ((1 + η) * (r.map fun e => |e.2.2|).sum * q) + r.length * ω + r.length * ω) ≤
      (1 + u) ^ (2 * t) * ((1 + u) * ((1 + η) * (r.map fun e => |e.2.2|).sum * q) + 4 * t * ω) := by
    refine mul_le_mul hP ?_ hB0 (by positivity)
    nlinarith
  have cov := gr_covers (ω := ω) hu hη n1 n2 hS t
  have this := ap_fold1 (sc := sc) hu (fun j => (r.getD j (0, 0, 0)).2.1 * x.getD (r.getD j (0, 0, 0)).1 0)
    (fun j => (r.getD j (0, 0, 0)).2.2 * X.getD (r.getD j (0, 0, 0)).1 0)
    (fun j => |(r.getD j (0, 0, 0)).2.2| * π) (fun j => (1 + u) * ((1 + η) * |(r.getD j (0, 0, 0)).2.2| * q) + ω) r.length
    (fun j hj => by
      have hmem : r.getD j (0, 0, 0) ∈ r := by simp [List.getD, hj]
      exact Scalars.Ap.mul (hr _ hmem) (hx.2 _))
    (by rw [r2]; nlinarith)
  rw [r1, r2] at this
  exact this.weaken (mul_le_mul_of_nonneg_right hS n1) (by linarith)

theorem ap_mulP (hu : 0 ≤ u) (hω : 0 ≤ ω) (hη : 0 ≤ η) {π q : ℝ} {x : List α} {X : List ℝ} (hx : ApL sc π q x X)
    {t : ℕ} {m : SpMat α} {M : SpMat ℝ} (hm : ApS sc η S t m M) (ht : 0 < t) (hΩ : gr u ω η S t q ≤ Ω) {i : ℕ} (hi : i < M.rows) :
    sc.Ap ((m.mulP x).getD i default) ((M.mulP X).getD i default) (S * π) (gr u ω η S t q) := by
  obtain ⟨P, rfl, rfl, hP⟩ := hm
  have hi' : i < P.rowsE.length := by simpa [SpMat.rows, SpMat.mapV] using hi
  have hmem : P.rowsE[i] ∈ P.rowsE := List.getElem_mem hi'
  obtain ⟨p1, p2, p3⟩ := hP _ hmem
  have := ap_row (S := S) hu hω hη hx p1 p2 p3 ht hΩ
  have e1 : ((P.mapV Prod.fst).mulP x).getD i default =
      (P.rowsE[i].map fun e => (e.1, e.2.1)).foldl (fun acc e => acc + e.2 * x.getD e.1 0) (0 : α) := by
    simp [SpMat.mulP, SpMat.mapV, List.getD, hi']
  have e2 : ((P.mapV Prod.snd).mulP X).getD i default =
      (P.rowsE[i].map fun e => (e.1, e.2.2)).foldl (fun acc e => acc + e.2 * X.getD e.1 0) (0 : ℝ) := by
    simp [SpMat.mulP, SpMat.mapV, List.getD, hi']
  rw [e1, e2]
  exact this

theorem mem_rowP {α : Type} [Zero α] {f : List α} {n i : ℕ} (hi : 2 * i < n) {e : ℕ × α} (he : e ∈ rowP f n i) : e.2 ∈ f := by
  unfold rowP at he
  rw [List.mem_map] at he
  obtain ⟨s, hs, rfl⟩ := he
  have h := tapIdx_lt hi (List.mem_range.1 hs)
  simp [List.getD, h]

theorem mem_daubP {α : Type} [Zero α] {lo hi : List α} {n2 : ℕ} {r : List (ℕ × α)}
    (hr : r ∈ (daubP lo hi (2 * n2)).rowsE) {e : ℕ × α} (he : e ∈ r) : e.2 ∈ lo ∨ e.2 ∈ hi := by
  unfold daubP at hr
  simp only [List.mem_append, List.mem_map, List.mem_range] at hr
  rcases hr with ⟨i, hi', rfl⟩ | ⟨i, hi', rfl⟩
  · exact .inl (mem_rowP (by omega) he)
  · exact .inr (mem_rowP (by omega) he)

theorem mem_transpose {α : Type} {m : SpMat α} {r : List (ℕ × α)} (hr : r ∈ m.transpose.rowsE) {e : ℕ × α} (he : e ∈ r) :
    ∃ r' ∈ m.rowsE, ∃ e' ∈ r', e'.2 = e.2 := by
  unfold SpMat.transpose at hr
  simp only [List.mem_map] at hr
  obtain ⟨j, _, rfl⟩ := hr
  rw [List.mem_flatMap] at he
  obtain ⟨⟨r', i⟩, h1, h2⟩ := he
  simp only [List.mem_map, List.mem_filter] at h2
  obtain ⟨e', ⟨h3, _⟩, rfl⟩ := h2
  exact ⟨r', (List.mem_zipIdx' h1).2 ▸ List.getElem_mem _, e', h3, rfl⟩

/-- The pairs of coefficients. -/
theorem pairs {f : List α} {F : List ℝ} (hf : ApF sc η f F) : (f.zip F).map Prod.fst = f ∧ (f.zip F).map Prod.snd = F ∧
    ∀ e ∈ f.zip F, sc.Ap e.1 e.2 |e.2| ((1 + η) * |e.2|) := by
  refine ⟨List.map_fst_zip (by rw [hf.1]), List.map_snd_zip (by rw [hf.1]), ?_⟩
  intro e he
  obtain ⟨j, hj, rfl⟩ := List.getElem_of_mem he
  have hj1 : j < f.length := by rw [List.length_zip] at hj; omega
  have hj2 : j < F.length := by rw [List.length_zip] at hj; omega
  have := hf.2 j
  simpa [List.getD, hj1, hj2] using this

theorem fl_map_abs (l : List ℝ) (j : ℕ) : (l.map fun c => |c|).getD j 0 = |l.getD j 0| := by
  by_cases h : j < l.length
  · simp [List.getD, h]
  · simp [List.getD, h]

theorem fl_map_one {γ : Type} (l : List γ) {j : ℕ} (h : j < l.length) : (l.map fun _ => (1 : ℝ)).getD j 0 = 1 := by
  simp [List.getD, h]

/-- The matrix of pairs behind the transform matrix and its transpose. -/
theorem pairs_daubP {f : List α} {F : List ℝ} (hf : ApF sc η f F) {t n2 : ℕ} (hl : F.length = 2 * t) (hn : t ≤ n2) (h0 : 0 < n2)
    (hS : ∑ j ∈ range (2 * t), |F.getD j 0| ≤ S) :
    ∃ P : SpMat (α × ℝ), daubP f (qmf f) (2 * n2) = P.mapV Prod.fst ∧ daubP F (qmf F) (2 * n2) = P.mapV Prod.snd ∧
      P.mapV (fun v => |v.2|) = daubP (F.map fun c => |c|) ((qmf F).map fun c => |c|) (2 * n2) ∧
      (∀ r ∈ P.rowsE, (∀ e ∈ r, sc.Ap e.2.1 e.2.2 |e.2.2| ((1 + η) * |e.2.2|)) ∧ r.length ≤ 2 * t ∧ (r.map fun e => |e.2.2|).sum ≤ S) ∧
      ∀ r ∈ P.transpose.rowsE, (∀ e ∈ r, sc.Ap e.2.1 e.2.2 |e.2.2| ((1 + η) * |e.2.2|)) ∧ r.length ≤ 2 * t ∧
        (r.map fun e => |e.2.2|).sum ≤ S := by
  have hq := apF_qmf hf hl
  have hlq : (qmf F).length = 2 * t := by simp [hl]
  obtain ⟨a1, a2, a3⟩ := pairs hf
  obtain ⟨b1, b2, b3⟩ := pairs hq
  have l1 : (f.zip F).length = 2 * t := by rw [List.length_zip, hf.1, hl, min_self]
  have l2 : ((qmf f).zip (qmf F)).length = 2 * t := by rw [List.length_zip, hq.1, hlq, min_self]
  set lo := f.zip F with hlo
  set hi := (qmf f).zip (qmf F) with hhi
  have m1 : daubP f (qmf f) (2 * n2) = (daubP lo hi (2 * n2)).mapV Prod.fst := by rw [← daubP_map, a1, b1]
  have m2 : daubP F (qmf F) (2 * n2) = (daubP lo hi (2 * n2)).mapV Prod.snd := by rw [← daubP_map, a2, b2]
  -- absolute values
  have hA : (daubP lo hi (2 * n2)).mapV (fun v => |v.2|) = daubP (F.map fun c => |c|) ((qmf F).map fun c => |c|) (2 * n2) := by
    rw [← daubP_map]
    congr 1
    · rw [← a2, List.map_map]; rfl
    · rw [← b2, List.map_map]; rfl
  have hB : (daubP lo hi (2 * n2)).mapV (fun _ => (1 : ℝ)) = daubP (lo.map fun _ => 1) (hi.map fun _ => 1) (2 * n2) := by
    rw [← daubP_map]
  have vals : ∀ v, v ∈ lo ∨ v ∈ hi → sc.Ap v.1 v.2 |v.2| ((1 + η) * |v.2|) := fun v hv => hv.elim (a3 v) (b3 v)
  have sq : ∑ j ∈ range (2 * t), |(qmf F).getD j 0| ≤ S := by rw [sum_abs_qmf hl]; exact hS
  have rowlen : ∀ r : List (ℕ × α × ℝ), ((r.map fun e => (e.1, (1 : ℝ))).map Prod.snd).sum = r.length := by
    intro r; simp [List.map_map, Function.comp_def]
  have rowabs : ∀ r : List (ℕ × α × ℝ), ((r.map fun e => (e.1, |e.2.2|)).map Prod.snd).sum = (r.map fun e => |e.2.2|).sum := by
    intro r; rw [List.map_map]; rfl
  have one_sum : ∀ l : List (α × ℝ), l.length = 2 * t → ∑ j ∈ range (2 * t), fl (l.map fun _ => (1 : ℝ)) j = (2 * t : ℕ) := by
    intro l hl'
    rw [sum_congr rfl fun j hj => show fl (l.map fun _ => (1 : ℝ)) j = 1 from fl_map_one l (by rw [hl']; exact mem_range.1 hj)]
    simp
  have one_taps : ∀ (l : List (α × ℝ)) (e : ℕ), l.length = 2 * t → e < 2 → taps (l.map fun _ => (1 : ℝ)) t e = t := by
    intro l e hl' he
    unfold taps
    rw [sum_congr rfl fun j hj => fl_map_one l (show 2 * j + e < l.length by rw [hl']; have := mem_range.1 hj; omega)]
    simp
  have abs_taps : ∀ (l : List ℝ) (e : ℕ), taps (l.map fun c => |c|) t e = ∑ j ∈ range t, |l.getD (2 * j + e) 0| := by
    intro l e
    unfold taps
    exact sum_congr rfl fun j _ => fl_map_abs l _
  have abs_sum : ∀ l : List ℝ, ∑ j ∈ range (2 * t), fl (l.map fun c => |c|) j = ∑ j ∈ range (2 * t), |l.getD j 0| := by
    intro l
    exact sum_congr rfl fun j _ => fl_map_abs l _
  refine ⟨_, m1, m2, hA, ?_, ?_⟩
  · intro r hr
    refine ⟨fun e he => vals _ (mem_daubP hr he), ?_⟩
    obtain ⟨i, hi', rfl⟩ := List.getElem_of_mem hr
    constructor
    · have hrow : ((daubP lo hi (2 * n2)).mapV (fun _ => (1 : ℝ))).rowsE[i]? = some ((daubP lo hi (2 * n2)).rowsE[i].map fun e => (e.1, (1 : ℝ))) := by
        simp [SpMat.mapV, hi']
      rw [hB] at hrow
      have := total_row _ _ t n2 (by simp [l1]) (by simp [l2]) hn h0 hrow
      rw [rowlen, one_sum _ l1, one_sum _ l2] at this
      rcases this with h | h <;> exact le_of_eq (by exact_mod_cast h)
    · have hrow : ((daubP lo hi (2 * n2)).mapV (fun v => |v.2|)).rowsE[i]? = some ((daubP lo hi (2 * n2)).rowsE[i].map fun e => (e.1, |e.2.2|)) := by
        simp [SpMat.mapV, hi']
      rw [hA] at hrow
      have := total_row _ _ t n2 (by simp [hl]) (by simp [hl]) hn h0 hrow
      rw [rowabs, abs_sum, abs_sum] at this
      rcases this with h | h <;> rw [h] <;> assumption
  · intro r hr
    refine ⟨fun e he => ?_, ?_⟩
    · obtain ⟨r', h1, e', h2, h3⟩ := mem_transpose hr he
      rw [← h3]
      exact vals _ (mem_daubP h1 h2)
    obtain ⟨i, hi', rfl⟩ := List.getElem_of_mem hr
    have hlt : i % 2 < 2 := Nat.mod_lt _ (by norm_num)
    constructor
    · have hrow : ((daubP lo hi (2 * n2)).transpose.mapV (fun _ => (1 : ℝ))).rowsE[i]? =
          some ((daubP lo hi (2 * n2)).transpose.rowsE[i].map fun e => (e.1, (1 : ℝ))) := by
        simp [SpMat.mapV, hi']
      rw [← SpMat.mapV_transpose, hB] at hrow
      have := total_col _ _ t n2 (by simp [l1]) (by simp [l2]) hn h0 hrow
      rw [rowlen, one_taps _ _ l1 hlt, one_taps _ _ l2 hlt, ← two_mul] at this
      exact le_of_eq (by exact_mod_cast this)
    · have hrow : ((daubP lo hi (2 * n2)).transpose.mapV (fun v => |v.2|)).rowsE[i]? =
          some ((daubP lo hi (2 * n2)).transpose.rowsE[i].map fun e => (e.1, |e.2.2|)) := by
        simp [SpMat.mapV, hi']
      rw [← SpMat.mapV_transpose, hA] at hrow
      have := total_col _ _ t n2 (by simp [hl]) (by simp [hl]) hn h0 hrow
      rw [rowabs, abs_taps, abs_taps] at this
      rw [this]
      refine le_trans (le_of_eq ?_) hS
      have hqm : ∀ j ∈ range t, |(qmf F).getD (2 * j + i % 2) 0| = |F.getD (2 * t - 1 - (2 * j + i % 2)) 0| :=
        fun j hj => abs_qmf hl (by have := mem_range.1 hj; omega)
      rw [sum_congr rfl hqm, ← sum_range_reflect (fun j => |F.getD (2 * t - 1 - (2 * j + i % 2)) 0|)]
      have hidx : ∀ j ∈ range t, |F.getD (2 * t - 1 - (2 * (t - 1 - j) + i % 2)) 0| = |F.getD (2 * j + (1 - i % 2)) 0| := by
        intro j hj
        rw [mem_range] at hj
        congr 2
        omega
      rw [sum_congr rfl hidx, FB.sum_even_odd, sum_add_distrib]
      rcases (by omega : i % 2 = 0 ∨ i % 2 = 1) with h | h
      · rw [h]; rfl
      · rw [h, add_comm]; rfl

theorem apS_daubP {f : List α} {F : List ℝ} (hf : ApF sc η f F) {t n2 : ℕ} (hl : F.length = 2 * t) (hn : t ≤ n2) (h0 : 0 < n2)
    (hS : ∑ j ∈ range (2 * t), |F.getD j 0| ≤ S) :
    ApS sc η S t (daubP f (qmf f) (2 * n2)) (daubP F (qmf F) (2 * n2)) ∧
    ApS sc η S t (daubP f (qmf f) (2 * n2)).transpose (daubP F (qmf F) (2 * n2)).transpose := by
  obtain ⟨P, m1, m2, _, h1, h2⟩ := pairs_daubP hf hl hn h0 hS
  exact ⟨⟨P, m1, m2, h1⟩, ⟨P.transpose, by rw [m1, SpMat.mapV_transpose], by rw [m2, SpMat.mapV_transpose], h2⟩⟩

/-- All samples of a matrix. -/
def ApM2 (sc : Scalars α u ω Ω) (π q : ℝ) (m : Mat α) (M : Mat ℝ) : Prop :=
  m.rows = M.rows ∧ m.cols = M.cols ∧ 0 ≤ π ∧ π ≤ q ∧ ∀ i < M.rows, ∀ j < M.cols, sc.Ap (m.get i j) (M.get i j) π q

theorem ApM2.weaken {π q π' q' : ℝ} {m : Mat α} {M : Mat ℝ} (h : ApM2 sc π q m M) (h1 : π ≤ π') (h2 : q - π ≤ q' - π') : ApM2 sc π' q' m M :=
  ⟨h.1, h.2.1, h.2.2.1.trans h1, by linarith [h.2.2.2.1], fun i hi j hj => (h.2.2.2.2 i hi j hj).weaken h1 h2⟩

theorem apM2_ofFn {π q : ℝ} (n1 : 0 ≤ π) (n2 : π ≤ q) (r c : ℕ) (g : ℕ → ℕ → α) (G : ℕ → ℕ → ℝ)
    (h : ∀ i < r, ∀ j < c, sc.Ap (g i j) (G i j) π q) : ApM2 sc π q (Mat.ofFn r c g) (Mat.ofFn r c G) := by
  refine ⟨by simp, by simp, n1, n2, ?_⟩
  intro i hi j hj
  simp only [Mat.rows_ofFn, Mat.cols_ofFn] at hi hj
  rw [Mat.get_ofFn hi hj, Mat.get_ofFn hi hj]
  exact h i hi j hj

theorem ApM2.row {π q : ℝ} {m : Mat α} {M : Mat ℝ} (h : ApM2 sc π q m M) {i : ℕ} (hi : i < M.rows) : ApL sc π q (m.row i) (M.row i) := by
  obtain ⟨h1, h3, n1, n2, h2⟩ := h
  refine ⟨by simp [h3], fun j => ?_⟩
  by_cases hj : j < M.cols
  · have e1 : (m.row i).getD j 0 = m.get i j := by simp [Mat.row, List.getD, h3, hj]
    have e2 : (M.row i).getD j 0 = M.get i j := by simp [Mat.row, List.getD, hj]
    rw [e1, e2]; exact h2 i hi j hj
  · have e1 : (m.row i).getD j 0 = 0 := by simp [Mat.row, List.getD, h3, hj]
    have e2 : (M.row i).getD j 0 = 0 := by simp [Mat.row, List.getD, hj]
    rw [e1, e2]; exact Scalars.Ap.zero n1 n2

theorem ApM2.col {π q : ℝ} {m : Mat α} {M : Mat ℝ} (h : ApM2 sc π q m M) {j : ℕ} (hj : j < M.cols) : ApL sc π q (m.col j) (M.col j) := by
  obtain ⟨h1, h3, n1, n2, h2⟩ := h
  refine ⟨by simp [h1], fun i => ?_⟩
  by_cases hi : i < M.rows
  · have e1 : (m.col j).getD i 0 = m.get i j := by simp [Mat.col, List.getD, h1, hi]
    have e2 : (M.col j).getD i 0 = M.get i j := by simp [Mat.col, List.getD, hi]
    rw [e1, e2]; exact h2 i hi j hj
  · have e1 : (m.col j).getD i 0 = 0 := by simp [Mat.col, List.getD, h1, hi]
    have e2 : (M.col j).getD i 0 = 0 := by simp [Mat.col, List.getD, hi]
    rw [e1, e2]; exact Scalars.Ap.zero n1 n2

theorem ap_rowsP (hu : 0 ≤ u) (hω : 0 ≤ ω) (hη : 0 ≤ η) (hS1 : 1 ≤ S) {π q : ℝ} {x : Mat α} {X : Mat ℝ}
    (hx : ApM2 sc π q x X) {t : ℕ} {w : SpMat α} {W : SpMat ℝ} (hw : ApS sc η S t w W) (hr : W.rows = X.cols) (ht : 0 < t)
    (hΩ : gr u ω η S t q ≤ Ω) :
    ApM2 sc (S * π) (gr u ω η S t q) (rowsP x w) (rowsP X W) := by
  obtain ⟨h1, h3, n1, n2, h2⟩ := id hx
  have n3 : 0 ≤ S * π := by nlinarith
  have n4 : S * π ≤ gr u ω η S t q :=
    le_trans (mul_le_mul_of_nonneg_left n2 (by linarith)) (gr_ge hu hω hη (by linarith) t (n1.trans n2))
  unfold rowsP
  rw [h1, h3]
  exact apM2_ofFn n3 n4 _ _ _ _ fun i hi j hj => ap_mulP hu hω hη (hx.row hi) hw ht hΩ (by omega)

theorem ap_colsP (hu : 0 ≤ u) (hω : 0 ≤ ω) (hη : 0 ≤ η) (hS1 : 1 ≤ S) {π q : ℝ} {x : Mat α} {X : Mat ℝ}
    (hx : ApM2 sc π q x X) {t : ℕ} {w : SpMat α} {W : SpMat ℝ} (hw : ApS sc η S t w W) (hr : W.rows = X.rows) (ht : 0 < t)
    (hΩ : gr u ω η S t q ≤ Ω) :
    ApM2 sc (S * π) (gr u ω η S t q) (colsP x w) (colsP X W) := by
  obtain ⟨h1, h3, n1, n2, h2⟩ := id hx
  have n3 : 0 ≤ S * π := by nlinarith
  have n4 : S * π ≤ gr u ω η S t q :=
    le_trans (mul_le_mul_of_nonneg_left n2 (by linarith)) (gr_ge hu hω hη (by linarith) t (n1.trans n2))
  unfold colsP
  rw [h1, h3]
  exact apM2_ofFn n3 n4 _ _ _ _ fun i hi j hj => ap_mulP hu hω hη (hx.col hj) hw ht hΩ (by omega)

end Products

/-! ### levels -/

section Levels
variable {α : Type} [Zero α] [Add α] [Mul α] [Neg α] [Inhabited α] {u ω Ω η S : ℝ} {sc : Scalars α u ω Ω} {t : ℕ} {M : ℝ}

variable {p : Params} {f : List α} {F : List ℝ}

/-- Four quadrants. -/
def ApQ (sc : Scalars α u ω Ω) (π q : ℝ) (c : Quad α) (C : Quad ℝ) : Prop :=
  ApM2 sc π q c.ll C.ll ∧ ApM2 sc π q c.lh C.lh ∧ ApM2 sc π q c.hl C.hl ∧ ApM2 sc π q c.hh C.hh

theorem ap_quad (hu : 0 ≤ u) (hω : 0 ≤ ω) (hη : 0 ≤ η) (hS1 : 1 ≤ S) (hf : ApF sc η f F)
    (hl : F.length = 2 * t) (hS : ∑ j ∈ range (2 * t), |F.getD j 0| ≤ S) {r : ℕ} {x : Mat α} {X : Mat ℝ}
    (hx : ApM2 sc (S ^ r * M) (gr_iter u ω η S t M r) x X) {sh sw : ℕ} (hr : X.rows = 2 * sh) (hc : X.cols = 2 * sw) (h1 : t ≤ sh) (h2 : t ≤ sw)
    (h0 : 0 < t) (hM : 0 ≤ M) (hΩ : gr_iter u ω η S t M (r + 2) ≤ Ω) :
    ApQ sc (S ^ (r + 2) * M) (gr_iter u ω η S t M (r + 2)) (quadOf f x) (quadOf F X) := by
  have k1 := ap_rowsP hu hω hη hS1 hx (apS_daubP hf hl h2 (by omega) hS).1 (by rw [daubP_rows, hc]) h0
    ((gr_iter_mono hu hω hη hS1 hM (Nat.le_succ (r + 1))).trans hΩ)
  have k2 := ap_colsP hu hω hη hS1 k1 (apS_daubP hf hl h1 (by omega) hS).1 (by rw [daubP_rows]; exact hr.symm) h0 hΩ
  rw [show S * (S * (S ^ r * M)) = S ^ (r + 2) * M by ring,
    show gr u ω η S t (gr u ω η S t (gr_iter u ω η S t M r)) = gr_iter u ω η S t M (r + 2) from rfl] at k2
  obtain ⟨q1, q2, n1, n2, q3⟩ := k2
  have hR : (colsP (rowsP X (daubP F (qmf F) (2 * sw))) (daubP F (qmf F) (2 * sh))).rows = 2 * sh := hr
  have hC : (colsP (rowsP X (daubP F (qmf F) (2 * sw))) (daubP F (qmf F) (2 * sh))).cols = 2 * sw := hc
  rw [hR, hC] at q3
  unfold quadOf
  rw [hx.1, hx.2.1, hr, hc, show 2 * sh / 2 = sh by omega, show 2 * sw / 2 = sw by omega]
  unfold quadP
  refine ⟨apM2_ofFn n1 n2 _ _ _ _ ?_, apM2_ofFn n1 n2 _ _ _ _ ?_, apM2_ofFn n1 n2 _ _ _ _ ?_, apM2_ofFn n1 n2 _ _ _ _ ?_⟩ <;>
    exact fun i hi j hj => q3 _ (by omega) _ (by omega)

theorem ap_sig2 (hu : 0 ≤ u) (hω : 0 ≤ ω) (hη : 0 ≤ η) (hS1 : 1 ≤ S) (hv : ValidParams p) (hd : p.dimension = 2)
    {kF : Kit α} {kR : Kit ℝ} (hkR : FilterLen kR p) (hf : ApF sc η (scaling kF p) (scaling kR p))
    (hS : ∑ j ∈ range (2 * p.wtype), |(scaling kR p).getD j 0| ≤ S) {x : Mat α} {X : Mat ℝ} (hx : ApM2 sc M M x X) (hX : Fits p 0 X)
    (hM : 0 ≤ M) (hΩ : gr_iter u ω η S p.wtype M (2 * p.steps) ≤ Ω) (s : ℕ) (hsp : s ≤ p.steps) :
    ApM2 sc (S ^ (2 * s) * M) (gr_iter u ω η S p.wtype M (2 * s)) (sig p (scaling kF p) x s) (sig p (scaling kR p) X s) ∧
    (s < p.steps → ApQ sc (S ^ (2 * s + 2) * M) (gr_iter u ω η S p.wtype M (2 * s + 2)) (quadOf (scaling kF p) (sig p (scaling kF p) x s))
      (quadOf (scaling kR p) (sig p (scaling kR p) X s))) := by
  have quad : ∀ s < p.steps,
      ApM2 sc (S ^ (2 * s) * M) (gr_iter u ω η S p.wtype M (2 * s)) (sig p (scaling kF p) x s) (sig p (scaling kR p) X s) →
      ApQ sc (S ^ (2 * s + 2) * M) (gr_iter u ω η S p.wtype M (2 * s + 2)) (quadOf (scaling kF p) (sig p (scaling kF p) x s))
      (quadOf (scaling kR p) (sig p (scaling kR p) X s)) := by
    intro s hs' h
    have ht := wavelet_of_steps hv hs'
    rcases fits_halves hv ht hs' (fits_sig (k := kR) hv hX hs'.le) with ⟨hd1, _⟩ | ⟨_, sh, sw, h1, h2, h3, h4, _⟩
    · omega
    · exact ap_quad hu hω hη hS1 hf (length_scaling hkR ht) hS h h1 h2 h3 h4 (by omega) hM
        ((gr_iter_mono hu hω hη hS1 hM (by omega)).trans hΩ)
  have main : ApM2 sc (S ^ (2 * s) * M) (gr_iter u ω η S p.wtype M (2 * s)) (sig p (scaling kF p) x s) (sig p (scaling kR p) X s) := by
    induction s with
    | zero => simpa [gr_iter, sig] using hx
    | succ s ih =>
      have := (quad s (by omega) (ih (by omega))).1
      simp only [sig]
      unfold approxStep
      rw [if_neg (by omega), if_neg (by omega)]
      exact this
  exact ⟨main, fun h => quad s h main⟩

theorem ap_synth2 (hu : 0 ≤ u) (hω : 0 ≤ ω) (hη : 0 ≤ η) (hS1 : 1 ≤ S) (hd : p.dimension = 2) (hf : ApF sc η f F)
    (hl : F.length = 2 * t) (hS : ∑ j ∈ range (2 * t), |F.getD j 0| ≤ S) {r : ℕ} {x : Mat α} {X : Mat ℝ} {ds : List (Mat α)}
    {Ds : List (Mat ℝ)} (hx : ApM2 sc (S ^ r * M) (gr_iter u ω η S t M r) x X)
    (hds : ∀ q < 3, ApM2 sc (S ^ r * M) (gr_iter u ω η S t M r) (ds.getD q default) (Ds.getD q default) ∧
      (Ds.getD q default).rows = X.rows ∧ (Ds.getD q default).cols = X.cols) (h1 : t ≤ X.rows) (h2 : t ≤ X.cols) (h0 : 0 < t)
    (hM : 0 ≤ M) (hΩ : gr_iter u ω η S t M (r + 2) ≤ Ω) :
    ApM2 sc (S ^ (r + 2) * M) (gr_iter u ω η S t M (r + 2)) (synthStep p f x ds) (synthStep p F X Ds) := by
  obtain ⟨d0, r0, c0⟩ := hds 0 (by omega)
  obtain ⟨d1, r1, c1⟩ := hds 1 (by omega)
  obtain ⟨d2, r2, c2⟩ := hds 2 (by omega)
  have hasm : ApM2 sc (S ^ r * M) (gr_iter u ω η S t M r)
      (assemble ⟨x, ds.getD 0 default, ds.getD 1 default, ds.getD 2 default⟩ X.rows X.cols)
      (assemble ⟨X, Ds.getD 0 default, Ds.getD 1 default, Ds.getD 2 default⟩ X.rows X.cols) := by
    unfold assemble
    refine apM2_ofFn hx.2.2.1 hx.2.2.2.1 _ _ _ _ ?_
    intro i hi j hj
    simp only
    split_ifs
    · exact hx.2.2.2.2 _ (by omega) _ (by omega)
    · exact d1.2.2.2.2 _ (by omega) _ (by omega)
    · exact d0.2.2.2.2 _ (by omega) _ (by omega)
    · exact d2.2.2.2.2 _ (by omega) _ (by omega)
  have k1 := ap_rowsP hu hω hη hS1 hasm (apS_daubP hf hl h2 (by omega) hS).2 (by rw [SpMat.rows_transpose]; rfl) h0
    ((gr_iter_mono hu hω hη hS1 hM (Nat.le_succ (r + 1))).trans hΩ)
  have k2 := ap_colsP hu hω hη hS1 k1 (apS_daubP hf hl h1 (by omega) hS).2 (by rw [SpMat.rows_transpose]; rfl) h0 hΩ
  rw [show S * (S * (S ^ r * M)) = S ^ (r + 2) * M by ring,
    show gr u ω η S t (gr u ω η S t (gr_iter u ω η S t M r)) = gr_iter u ω η S t M (r + 2) from rfl] at k2
  unfold synthStep
  rw [if_neg (by omega), if_neg (by omega), hx.1, hx.2.1]
  exact k2

theorem ap_recon2 (hu : 0 ≤ u) (hω : 0 ≤ ω) (hη : 0 ≤ η) (hS1 : 1 ≤ S) (hM : 0 ≤ M) (hv : ValidParams p) (hd : p.dimension = 2)
    (hf : ApF sc η f F) (hl : F.length = 2 * p.wtype) (hS : ∑ j ∈ range (2 * p.wtype), |F.getD j 0| ≤ S) {c : Channel α} {C : Channel ℝ}
    (hc : ∀ s < p.steps, ∀ q < 3, ApM2 sc (S ^ (2 * s + 2) * M) (gr_iter u ω η S p.wtype M (2 * s + 2)) ((detailsAt p c s).getD q default)
      ((detailsAt p C s).getD q default) ∧ Fits p (s + 1) ((detailsAt p C s).getD q default))
    (n i r : ℕ) (hn : n ≤ i) (hi : i ≤ p.steps) (hr : 2 * p.steps ≤ r) {m : Mat α} {X : Mat ℝ}
    (hx : ApM2 sc (S ^ r * M) (gr_iter u ω η S p.wtype M r) m X) (hX : Fits p i X)
    (hΩ : gr_iter u ω η S p.wtype M (r + 2 * n) ≤ Ω) :
    ApM2 sc (S ^ (r + 2 * n) * M) (gr_iter u ω η S p.wtype M (r + 2 * n)) (reconFrom p f c n i m) (reconFrom p F C n i X) := by
  induction n generalizing i r m X with
  | zero => exact hx
  | succ n ih =>
    simp only [reconFrom]
    rw [show r + 2 * (n + 1) = r + 2 + 2 * n by omega] at hΩ ⊢
    have hX' : Fits p (i - 1 + 1) X := by rwa [show i - 1 + 1 = i by omega]
    have hlt : i - 1 < p.steps := by omega
    refine ih (i - 1) (r + 2) (by omega) (by omega) (by omega) ?_ (fits_synth hv F hlt hX' _) hΩ
    have ht := wavelet_of_steps hv hlt
    rcases fits_up hv hlt hX' with ⟨hd1, _⟩ | ⟨_, h1, h2, _⟩
    · omega
    · refine ap_synth2 hu hω hη hS1 hd hf hl hS hx ?_ h1 h2 (by omega) hM
        ((gr_iter_mono hu hω hη hS1 hM (Nat.le_add_right (r + 2) (2 * n))).trans hΩ)
      intro q hq
      obtain ⟨k1, k2⟩ := hc (i - 1) hlt q hq
      obtain ⟨m1, m2⟩ := level_mono (t := p.wtype) hu hω hη hS1 hM (show 2 * (i - 1) + 2 ≤ r by omega)
      refine ⟨k1.weaken m1 m2, by rw [k2.1, hX'.1], ?_⟩
      rw [k2.2, hX'.2]

theorem apM2_padOf (hv : ValidParams p) (hd : p.dimension = 2) {x : Mat α} (hx : Shaped p x) (hM : 0 ≤ M)
    (hb : ∀ i < x.rows, ∀ j < x.cols, sc.fin (x.get i j) ∧ |sc.val (x.get i j)| ≤ M) : ApM2 sc M M (padOf p x) (padOf p (x.map sc.val)) := by
  have self : ∀ z : α, sc.fin z ∧ |sc.val z| ≤ M → sc.Ap z (sc.val z) M M := fun z hz => ⟨hz.1, hz.2, by simp⟩
  have hget : ∀ i < x.rows, ∀ j < x.cols, (x.map sc.val).get i j = sc.val (x.get i j) := by
    intro i hi j hj
    have hlt : i * x.cols + j < x.data.length := by rw [x.wf]; exact Mat.idx_lt hi hj
    unfold Mat.get Mat.map
    simp only [List.getD, List.getElem?_map, List.getElem?_eq_getElem hlt, Option.map_some, Option.getD_some]
  unfold padOf
  by_cases ht : p.wtype = 0
  · rw [if_pos ht, if_pos ht]
    refine ⟨rfl, rfl, hM, le_rfl, ?_⟩
    intro i hi j hj
    rw [hget i hi j hj]
    exact self _ (hb i hi j hj)
  · rw [if_neg ht, if_neg ht]
    have hpos : 0 < x.rows ∧ 0 < x.cols := by
      obtain ⟨_, _, h1⟩ | ⟨w, h, hsh, _⟩ := shape_cases hv
      · omega
      · have h1 := (valid_side hv ht (n := w) (by simp [hsh])).1
        have h2 := (valid_side hv ht (n := h) (by simp [hsh])).1
        have := of_shaped hv hx
        rw [hsh] at this
        have h3 := this.1
        have h4 := this.2
        omega
    refine apM2_ofFn hM le_rfl _ _ _ _ ?_
    intro i hi j hj
    simp only [Mat.rows_map, Mat.cols_map]
    have hcl : ∀ n o i, 0 < n → clampIdx o n i < n := by intro n o i hn; unfold clampIdx; omega
    rw [hget _ (hcl _ _ _ hpos.1) _ (hcl _ _ _ hpos.2)]
    exact self _ (hb _ (hcl _ _ _ hpos.1) _ (hcl _ _ _ hpos.2))

/-- The whole round trip of one channel. -/
theorem ap_out2 (hu : 0 ≤ u) (hω : 0 ≤ ω) (hη : 0 ≤ η) (hS1 : 1 ≤ S) (hM : 0 ≤ M) (hv : ValidParams p) (hd : p.dimension = 2)
    {kF : Kit α} {kR : Kit ℝ} (hkF : FilterLen kF p) (hkR : FilterLen kR p)
    (hf : p.steps ≠ 0 → ApF sc η (scaling kF p) (scaling kR p))
    (hS : p.steps ≠ 0 → ∑ j ∈ range (2 * p.wtype), |(scaling kR p).getD j 0| ≤ S)
    (hΩ : gr_iter u ω η S p.wtype M (4 * p.steps) ≤ Ω) {x : Mat α} (hx : Shaped p x)
    (hb : ∀ i < x.rows, ∀ j < x.cols, sc.fin (x.get i j) ∧ |sc.val (x.get i j)| ≤ M) :
    (outP kF p 0 (chanP p (scaling kF p) nullDenoiser x)).rows = x.rows ∧
    (outP kF p 0 (chanP p (scaling kF p) nullDenoiser x)).cols = x.cols ∧
    (outP kR p 0 (chanP p (scaling kR p) nullDenoiser (x.map sc.val))).rows = x.rows ∧
    (outP kR p 0 (chanP p (scaling kR p) nullDenoiser (x.map sc.val))).cols = x.cols ∧
    ∀ i < x.rows, ∀ j < x.cols, sc.fin ((outP kF p 0 (chanP p (scaling kF p) nullDenoiser x)).get i j) ∧
      |sc.val ((outP kF p 0 (chanP p (scaling kF p) nullDenoiser x)).get i j) -
      (outP kR p 0 (chanP p (scaling kR p) nullDenoiser (x.map sc.val))).get i j| ≤
      gr_iter u ω η S p.wtype M (4 * p.steps) - S ^ (4 * p.steps) * M := by
  have hx' : Shaped p (x.map sc.val) := hx
  have hpad := apM2_padOf hv hd hx hM hb
  have hk3 : subbandsPerWT p = 3 := by simp [subbandsPerWT, hd]
  have hX := fits_padOf hv hx'
  have main : ApM2 sc (S ^ (4 * p.steps) * M) (gr_iter u ω η S p.wtype M (4 * p.steps))
      (reconP p (scaling kF p) 0 (chanP p (scaling kF p) nullDenoiser x))
      (reconP p (scaling kR p) 0 (chanP p (scaling kR p) nullDenoiser (x.map sc.val))) := by
    unfold reconP
    rw [chanP_last, chanP_last]
    by_cases h0 : p.steps = 0
    · rw [h0]
      simpa [reconFrom, sig, gr_iter] using hpad
    · have ht := wavelet_of_steps hv (show 0 < p.steps by omega)
      have hl := length_scaling hkR ht
      have low : ∀ m ≤ 4 * p.steps, gr_iter u ω η S p.wtype M m ≤ Ω := fun m hm => (gr_iter_mono hu hω hη hS1 hM hm).trans hΩ
      rw [show 4 * p.steps = 2 * p.steps + 2 * (p.steps - 0) by omega]
      refine ap_recon2 hu hω hη hS1 hM hv hd (hf h0) hl (hS h0) ?_ _ _ _ (by omega) le_rfl le_rfl
        (ap_sig2 hu hω hη hS1 hv hd hkR (hf h0) (hS h0) hpad hX hM (low _ (by omega)) _ le_rfl).1 (fits_sig (k := kR) hv hX le_rfl)
        (low _ (by omega))
      intro s hs' q hq
      rw [detailsAt_chanP _ _ _ _ hs', detailsAt_chanP _ _ _ _ hs']
      refine ⟨?_, detailStep_fits (k := kR) hv nullDenoiser_sized hs' (fits_sig (k := kR) hv hX hs'.le) (by omega)⟩
      have hq4 := (ap_sig2 hu hω hη hS1 hv hd hkR (hf h0) (hS h0) hpad hX hM (low _ (by omega)) s hs'.le).2 hs'
      unfold detailStep
      rw [if_neg (by omega), if_neg (by omega)]
      rcases (by omega : q = 0 ∨ q = 1 ∨ q = 2) with rfl | rfl | rfl
      · exact hq4.2.1
      · exact hq4.2.2.1
      · exact hq4.2.2.2
  obtain ⟨m1, m2, _, m4, m6⟩ := main
  have fit := (composeChannel_ok hv hkF (d := [chanP p (scaling kF p) nullDenoiser x]) (ch := 0) (Nat.zero_le p.steps)
    (by simp) (chanP_sized (k := kF) hv nullDenoiser_sized hx)).2
  have fit' := (composeChannel_ok hv hkR (d := [chanP p (scaling kR p) nullDenoiser (x.map sc.val)]) (ch := 0) (Nat.zero_le p.steps)
    (by simp) (chanP_sized (k := kR) hv nullDenoiser_sized hx')).2
  simp only [List.getD, List.getElem?_cons_zero, Option.getD_some] at fit fit'
  have sz := finishP_size (k := kF) hv (Nat.zero_le _) fit
  have sz' := finishP_size (k := kR) hv (Nat.zero_le _) fit'
  have hmap : p.shape.map (· / 2 ^ 0) = p.shape := by simp
  rw [hmap] at sz sz'
  have hrc : matRows p.shape = x.rows ∧ matCols p.shape = x.cols := by
    obtain ⟨_, _, h1⟩ | ⟨w, h, hsh, _⟩ := shape_cases hv
    · omega
    · have := of_shaped hv hx
      rw [hsh] at this ⊢
      exact ⟨this.1.symm, this.2.symm⟩
  rw [hrc.1, hrc.2] at sz sz'
  refine ⟨sz.1, sz.2, sz'.1, sz'.2, ?_⟩
  intro i hi j hj
  unfold outP finishP
  rw [if_neg (by omega), if_neg (by omega)]
  unfold cropOf
  simp only [hmap, hrc.1, hrc.2]
  have fin : ∀ {c : α} {C π q : ℝ}, sc.Ap c C π q → sc.fin c ∧ |sc.val c - C| ≤ q - π := fun h => ⟨h.1, by linarith [h.2.2]⟩
  have hne : x.rows * x.cols ≠ 0 := Nat.mul_ne_zero (by omega) (by omega)
  rw [if_neg hne, if_neg hne, Mat.get_ofFn hi hj, Mat.get_ofFn hi hj, m1, m2]
  obtain ⟨l1, l2⟩ := scaled_le hv fit'
  rw [hmap, hrc.1] at l1
  rw [hmap, hrc.2] at l2
  have o1 := padOffset_add_le .both l1
  have o2 := padOffset_add_le .both l2
  exact fin (m6 _ (by omega) _ (by omega))

end Levels

end WB
