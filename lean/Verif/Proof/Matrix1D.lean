import Verif.Model.Matrix1D
import Verif.Proof.Dwt2

/-!
The 1D transforms with a full matrix and the zero-derivative matrix.
-/

set_option linter.unusedSectionVars false

namespace WB

open Finset

/-! ### failing loops -/

namespace Outcome

/-- A loop that never throws and one of whose steps is undefined, is undefined. -/
theorem foldlM_ub {α β : Type u} {l : List α} {f : β → α → Outcome β} (b : β) (h : ∀ a ∈ l, ∀ b, f b a ≠ .throw)
    (hu : ∃ a ∈ l, ∀ b, f b a = .ub) : l.foldlM f b = .ub := by
  induction l generalizing b with
  | nil => obtain ⟨a, ha, _⟩ := hu; simp at ha
  | cons c l ih =>
    rw [List.foldlM_cons]
    have h0 := h c (by simp) b
    cases hc : f b c with
    | ub => rfl
    | throw => exact absurd hc h0
    | ok b' =>
      rw [bind_ok]
      obtain ⟨a, ha, hab⟩ := hu
      rcases List.mem_cons.1 ha with rfl | ha
      · rw [hab b] at hc; cases hc
      · exact ih b' (fun a ha b => h a (by simp [ha]) b) ⟨a, ha, hab⟩

theorem mapM_ub {α β : Type u} {l : List α} {f : α → Outcome β} (h : ∀ a ∈ l, f a ≠ .throw)
    (hu : ∃ a ∈ l, f a = .ub) : l.mapM f = .ub := by
  induction l with
  | nil => obtain ⟨a, ha, _⟩ := hu; simp at ha
  | cons c l ih =>
    rw [List.mapM_cons]
    have h0 := h c (by simp)
    cases hc : f c with
    | ub => rfl
    | throw => exact absurd hc h0
    | ok b' =>
      rw [bind_ok]
      obtain ⟨a, ha, hab⟩ := hu
      rcases List.mem_cons.1 ha with rfl | ha
      · rw [hab] at hc; cases hc
      · rw [ih (fun a ha => h a (by simp [ha])) ⟨a, ha, hab⟩]; rfl

theorem foldlM_ne_throw {α β : Type u} {l : List α} {f : β → α → Outcome β} (b : β) (h : ∀ a ∈ l, ∀ b, f b a ≠ .throw) :
    l.foldlM f b ≠ .throw := by
  induction l generalizing b with
  | nil => simp
  | cons c l ih =>
    rw [List.foldlM_cons]
    have h0 := h c (by simp) b
    cases hc : f b c with
    | ub => simp
    | throw => exact absurd hc h0
    | ok b' => rw [bind_ok]; exact ih b' (fun a ha b => h a (by simp [ha]) b)

end Outcome

variable {α : Type}

theorem rd_ne_throw (l : List α) (i : ℕ) : rd l i ≠ .throw := by
  unfold rd; split <;> simp

section Poly
variable [Zero α] [Add α] [Mul α]

theorem dwtAt_ne_throw (x f : List α) (i : ℕ) : dwtAt x f i ≠ .throw := by
  unfold dwtAt
  apply Outcome.foldlM_ne_throw
  intro j _ b
  dsimp only
  generalize (if i * 2 + j ≥ x.length then i * 2 + j - x.length else i * 2 + j) = q
  have h1 := rd_ne_throw x q
  have h2 := rd_ne_throw f j
  revert h1 h2
  cases rd x q <;> cases rd f j <;> simp

theorem dwtAt_ok' {x f : List α} {i : ℕ} (hi : i < x.length / 2) (hf : 2 * i + f.length ≤ 2 * x.length) :
    dwtAt x f i = .ok (anaP x f i) := by
  unfold dwtAt anaP
  apply Outcome.foldlM_ok
  intro j hj acc
  rw [List.mem_range] at hj
  have hn : 0 < x.length := by omega
  simp only [wrap_eq_mod hn (show i * 2 + j < 2 * x.length by omega)]
  rw [rd_eq_getD 0 (Nat.mod_lt _ hn), Outcome.bind_ok, rd_eq_getD 0 hj]
  rfl

theorem dwtAt_ub {x f : List α} {i : ℕ} (hf : 2 * x.length < 2 * i + f.length) (hf0 : 0 < f.length) : dwtAt x f i = .ub := by
  unfold dwtAt
  apply Outcome.foldlM_ub
  · intro j _ b
    dsimp only
    generalize (if i * 2 + j ≥ x.length then i * 2 + j - x.length else i * 2 + j) = q
    have h1 := rd_ne_throw x q
    have h2 := rd_ne_throw f j
    revert h1 h2
    cases rd x q <;> cases rd f j <;> simp
  · refine ⟨f.length - 1, List.mem_range.2 (by omega), fun b => ?_⟩
    dsimp only
    rw [if_pos (by omega), rd_ub (by omega)]
    rfl

end Poly

/-! ### entries of a sparse matrix -/

theorem length_filterRow [Zero α] (m : SpMat α) (i : ℕ) : (m.filterRow i).length = m.cols := by simp [SpMat.filterRow]

theorem appendOk_iff {n : ℕ} {r : List (ℕ × α)} :
    appendOk n r = true ↔ (r.map Prod.fst).Pairwise (· < ·) ∧ ∀ e ∈ r, e.1 < n := by
  simp [appendOk]

section Ring
variable {R : Type} [CommRing R]

theorem find_sum (r : List (ℕ × R)) (h : (r.map Prod.fst).Pairwise (· < ·)) (j : ℕ) :
    ((r.find? (fun e => e.1 = j)).map Prod.snd).getD 0 = ((r.filter (fun e => e.1 = j)).map Prod.snd).sum := by
  induction r with
  | nil => simp
  | cons e r ih =>
    rw [List.map_cons, List.pairwise_cons] at h
    by_cases he : e.1 = j
    · have : r.filter (fun e => e.1 = j) = [] := by
        rw [List.filter_eq_nil_iff]
        intro q hq
        have := h.1 q.1 (List.mem_map_of_mem hq)
        simp only [decide_eq_true_eq]
        omega
      simp [he, this]
    · simp only [List.find?_cons, List.filter_cons, he, decide_false]
      exact ih h.2

theorem entry_eq_ker (m : SpMat R) (hm : ∀ r ∈ m.rowsE, appendOk m.cols r = true) (i j : ℕ) : m.entry i j = m.ker i j := by
  unfold SpMat.entry SpMat.ker
  apply find_sum
  by_cases hi : i < m.rowsE.length
  · have : m.rowsE.getD i [] = m.rowsE[i] := by simp [List.getD, hi]
    rw [this]
    exact (appendOk_iff.1 (hm _ (List.getElem_mem hi))).1
  · have : m.rowsE.getD i [] = [] := by simp [List.getD, Nat.le_of_not_lt hi]
    rw [this]; simp

theorem good_of_appendOk {m : SpMat R} (hm : ∀ r ∈ m.rowsE, appendOk m.cols r = true) : m.Good :=
  fun r hr => (appendOk_iff.1 (hm r hr)).2

/-- `dwt` with a square matrix splits the product in the middle; also with two rows, when the matrix is taken for a pair of filters. -/
theorem dwtMat_square {m : SpMat R} {x : List R} (hm : ∀ r ∈ m.rowsE, appendOk m.cols r = true) (hr : m.rows = x.length)
    (hc : m.cols = x.length) :
    dwtMat x m = .ok ((List.range (x.length / 2)).map (fun i => ∑ k ∈ range x.length, m.ker i k * x.getD k 0),
      (List.range (x.length / 2)).map (fun i => ∑ k ∈ range x.length, m.ker (x.length / 2 + i) k * x.getD k 0)) := by
  have hg := good_of_appendOk hm
  unfold dwtMat
  by_cases h2 : m.rows = 2
  · rw [if_pos h2, dwt_ok (by rw [length_filterRow]; omega) (by rw [length_filterRow]; omega)]
    have hx : x.length = 2 := by omega
    have e : ∀ i, anaP x (m.filterRow i) 0 = ∑ k ∈ range x.length, m.ker i k * x.getD k 0 := by
      intro i
      rw [anaP_eq, length_filterRow, hc]
      refine sum_congr rfl (fun j hj => ?_)
      rw [mem_range] at hj
      have h0 : (2 * ((0 : ℕ) : ℤ) + (j : ℤ)) = (j : ℤ) := by simp
      rw [h0, per_lt x hj, mul_comm]
      congr 1
      unfold fl SpMat.filterRow
      rw [getD_map_range _ _ (by omega), entry_eq_ker m hm]
    have hd : x.length / 2 = 1 := by omega
    simp only [hd, List.range_one, List.map_cons, List.map_nil, e]
  · rw [if_neg h2, if_pos hc.symm, SpMat.mulVec_ok hg hc.symm, Outcome.bind_ok]
    unfold subVec
    rw [if_pos (by rw [SpMat.length_mulP]; omega), Outcome.bind_ok, if_pos (by rw [SpMat.length_mulP]; omega), Outcome.bind_ok,
      Outcome.pure_eq]
    congr 1
    have key : ∀ i < x.length, (m.mulP x).getD i 0 = ∑ k ∈ range x.length, m.ker i k * x.getD k 0 := by
      intro i hi
      rw [mulP_getD hg x (by omega), hc]
    have hl : (m.mulP x).length = x.length := by rw [SpMat.length_mulP, hr]
    refine Prod.ext ?_ ?_
    · apply List.ext_getElem
      · simp [hr]; omega
      · intro i h1 h3
        have hi : i < x.length / 2 := by simpa using h3
        simp only [List.drop_zero, List.getElem_take, List.getElem_map, List.getElem_range]
        rw [← key i (by omega)]
        simp [List.getD, show i < m.rows by omega]
    · apply List.ext_getElem
      · simp [hr]; omega
      · intro i h1 h3
        have hi : i < x.length / 2 := by simpa using h3
        simp only [List.getElem_take, List.getElem_drop, List.getElem_map, List.getElem_range]
        rw [← key _ (by omega)]
        simp [List.getD, show x.length / 2 + i < m.rows by omega]

/-! ### zero-derivative rows -/

/-- Row of the zero-derivative matrix. -/
def zrow (f : List R) (n i : ℕ) : List (ℕ × R) :=
  (List.range f.length).filterMap (fun (k : ℕ) =>
    let j : ℤ := -(((f.length : ℤ) - 1) / 2) + 2 * i + k
    if j = 0 then some (j.toNat, ∑ q ∈ range (-(-(((f.length : ℤ) - 1) / 2) + 2 * (i : ℤ))).toNat, f.getD q 0 + f.getD k 0)
    else if j = n - 1 then
      some (j.toNat, ∑ q ∈ range (-(((f.length : ℤ) - 1) / 2) + 2 * (i : ℤ) + f.length - n).toNat, f.getD (f.length - 1 - q) 0 + f.getD k 0)
    else if 0 < j ∧ j < n - 1 then some (j.toNat, f.getD k 0)
    else none)

theorem zeroDerivRow_ok {f : List R} {n i : ℕ} (hi : i < n / 2) (hf : 0 < f.length) :
    zeroDerivRow f n i = .ok (zrow f n i) := by
  unfold zeroDerivRow
  dsimp only
  rw [Outcome.foldlM_ok (g := fun acc k => acc + f.getD k 0) 0 (by
    intro k hk b
    rw [List.mem_range] at hk
    rw [rd_eq_getD 0 (by omega)]; rfl), Outcome.bind_ok,
    Outcome.foldlM_ok (g := fun acc k => acc + f.getD (f.length - 1 - k) 0) 0 (by
    intro k hk b
    rw [List.mem_range] at hk
    rw [if_neg (by omega), rd_eq_getD 0 (by omega)]; rfl), Outcome.bind_ok, Outcome.pure_eq,
    foldl_sum, foldl_sum, zero_add, zero_add]
  rfl

theorem zrow_appendOk {f : List R} {n i : ℕ} (hi : i < n / 2) : appendOk n (zrow f n i) = true := by
  rw [appendOk_iff]
  constructor
  · unfold zrow
    rw [List.pairwise_map]
    refine List.Pairwise.filterMap _ (R := (· < ·)) ?_ List.pairwise_lt_range
    intro a a' haa b hb b' hb'
    simp only at hb hb'
    split_ifs at hb <;> split_ifs at hb' <;> simp only [Option.some.injEq] at hb hb' <;> subst hb <;> subst hb' <;>
      simp only <;> omega
  · intro e he
    unfold zrow at he
    rw [List.mem_filterMap] at he
    obtain ⟨k, _, hk⟩ := he
    simp only at hk
    split_ifs at hk <;> simp only [Option.some.injEq] at hk <;> subst hk <;> simp only <;> omega

theorem sum_filterMap (l : List ℕ) (g : ℕ → Option (ℕ × R)) (F : ℕ × R → R) :
    ((l.filterMap g).map F).sum = (l.map (fun k => (g k).elim 0 F)).sum := by
  induction l with
  | nil => simp
  | cons a l ih =>
    rw [List.filterMap_cons, List.map_cons, List.sum_cons, ← ih]
    cases g a <;> simp

theorem zsum_range (n : ℕ) (g : ℕ → R) : ((List.range n).map g).sum = ∑ k ∈ range n, g k := by
  induction n with
  | zero => simp
  | succ n ih => rw [List.range_succ, List.map_append, List.sum_append, ih, sum_range_succ]; simp

/-- Product of a zero-derivative row with a signal: the filter on the signal continued by its border samples. -/
theorem zrow_sum {f : List R} {n i : ℕ} (hi : i < n / 2) (hf : 0 < f.length) (x : ℕ → R) :
    ((zrow f n i).map (fun e => e.2 * x e.1)).sum =
      ∑ k ∈ range f.length, f.getD k 0 * x (min (2 * i + k - (f.length - 1) / 2) (n - 1)) := by
  unfold zrow
  rw [sum_filterMap, zsum_range]
  set L := f.length with hL
  set p := (L - 1) / 2 with hp
  have hpz : (((L : ℤ) - 1) / 2) = (p : ℤ) := by omega
  rw [hpz]
  set m := (-(-(p : ℤ) + 2 * (i : ℤ))).toNat with hm
  set l := (-(p : ℤ) + 2 * (i : ℤ) + L - n).toNat with hl
  set lp := ∑ q ∈ range m, f.getD q 0 with hlp
  set rp := ∑ q ∈ range l, f.getD (L - 1 - q) 0 with hrp
  have hterm : ∀ k ∈ range L, ((if -(p : ℤ) + 2 * (i : ℤ) + (k : ℤ) = 0 then
        some ((-(p : ℤ) + 2 * (i : ℤ) + (k : ℤ)).toNat, lp + f.getD k 0)
      else if -(p : ℤ) + 2 * (i : ℤ) + (k : ℤ) = n - 1 then
        some ((-(p : ℤ) + 2 * (i : ℤ) + (k : ℤ)).toNat, rp + f.getD k 0)
      else if 0 < -(p : ℤ) + 2 * (i : ℤ) + (k : ℤ) ∧ -(p : ℤ) + 2 * (i : ℤ) + (k : ℤ) < n - 1 then
        some ((-(p : ℤ) + 2 * (i : ℤ) + (k : ℤ)).toNat, f.getD k 0)
      else none : Option (ℕ × R)).elim 0 (fun e => e.2 * x e.1)) =
      (f.getD k 0 * x (min (2 * i + k - p) (n - 1)) - (if 2 * i + k < p then f.getD k 0 else 0) * x 0
        - (if n + p ≤ 2 * i + k then f.getD k 0 else 0) * x (n - 1))
      + ((if 2 * i + k = p then lp else 0) * x 0 + (if 2 * i + k = n - 1 + p then rp else 0) * x (n - 1)) := by
    intro k _
    by_cases h1 : 2 * i + k < p
    · rw [if_neg (by omega), if_neg (by omega), if_neg (by omega), if_pos h1, if_neg (by omega), if_neg (by omega), if_neg (by omega)]
      rw [show min (2 * i + k - p) (n - 1) = 0 by omega]
      simp
    · by_cases h2 : 2 * i + k = p
      · rw [if_pos (by omega), if_neg h1, if_neg (by omega), if_pos h2, if_neg (by omega)]
        rw [show min (2 * i + k - p) (n - 1) = 0 by omega]
        simp only [Option.elim]
        rw [show (-(p : ℤ) + 2 * (i : ℤ) + (k : ℤ)).toNat = 0 by omega]
        ring
      · by_cases h3 : 2 * i + k = n - 1 + p
        · rw [if_neg (by omega), if_pos (by omega), if_neg h1, if_neg (by omega), if_neg h2, if_pos h3]
          rw [show min (2 * i + k - p) (n - 1) = n - 1 by omega]
          simp only [Option.elim]
          rw [show (-(p : ℤ) + 2 * (i : ℤ) + (k : ℤ)).toNat = n - 1 by omega]
          ring
        · by_cases h4 : n + p ≤ 2 * i + k
          · rw [if_neg (by omega), if_neg (by omega), if_neg (by omega), if_neg h1, if_pos h4, if_neg h2, if_neg h3]
            rw [show min (2 * i + k - p) (n - 1) = n - 1 by omega]
            simp
          · rw [if_neg (by omega), if_neg (by omega), if_pos (by omega), if_neg h1, if_neg h4, if_neg h2, if_neg h3]
            simp only [Option.elim]
            rw [show (-(p : ℤ) + 2 * (i : ℤ) + (k : ℤ)).toNat = min (2 * i + k - p) (n - 1) by omega]
            ring
  refine (sum_congr rfl hterm).trans ?_
  rw [sum_add_distrib, sum_sub_distrib, sum_sub_distrib, sum_add_distrib, ← sum_mul, ← sum_mul, ← sum_mul, ← sum_mul]
  have hleft : ∑ k ∈ range L, (if 2 * i + k = p then lp else 0) = ∑ k ∈ range L, (if 2 * i + k < p then f.getD k 0 else 0) := by
    by_cases h : 2 * i ≤ p
    · have hm' : m = p - 2 * i := by omega
      rw [sum_eq_single (p - 2 * i) (fun b _ hb => if_neg (by omega)) (fun hb => absurd (mem_range.2 (by omega)) hb), if_pos (by omega),
        hlp, ← sum_filter]
      refine sum_congr ?_ (fun _ _ => rfl)
      ext k
      simp only [mem_range, mem_filter]
      omega
    · rw [sum_eq_zero (fun k _ => if_neg (by omega)), sum_eq_zero (fun k _ => if_neg (by omega))]
  have hright : ∑ k ∈ range L, (if 2 * i + k = n - 1 + p then rp else 0) =
      ∑ k ∈ range L, (if n + p ≤ 2 * i + k then f.getD k 0 else 0) := by
    by_cases h : n + p < 2 * i + L
    · have hl' : l = 2 * i + L - (n + p) := by omega
      rw [sum_eq_single (n - 1 + p - 2 * i) (fun b _ hb => if_neg (by omega)) (fun hb => absurd (mem_range.2 (by omega)) hb),
        if_pos (by omega), hrp]
      have hs : L = (L - l) + l := by omega
      rw [show range L = range ((L - l) + l) by rw [← hs], sum_range_add, sum_eq_zero (s := range (L - l)) (fun k hk => if_neg (by
        rw [mem_range] at hk; omega)), zero_add, ← sum_range_reflect]
      refine sum_congr rfl (fun q hq => ?_)
      rw [mem_range] at hq
      rw [if_pos (by omega)]
      congr 1
      omega
    · have hl' : l = 0 := by omega
      rw [hrp, hl']
      simp only [range_zero, sum_empty, ite_self, sum_const_zero]
      rw [sum_eq_zero (fun k hk => if_neg (by rw [mem_range] at hk; omega))]
  rw [hleft, hright]
  ring

end Ring

end WB
