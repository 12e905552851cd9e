import Verif.Model.Metrics
import Verif.Spec.Metrics
import Verif.Proof.Error

/-!
Distance and energies: the loops of the code as sums.
-/

namespace WB

open Finset Spec

/-- A loop over the indices of one list that reads two lists. -/
theorem foldlM_rd2 {β : Type} {r : β → β → Prop} {g : β → β → Outcome ℝ} {h : β → β → ℝ} {a b : List β}
    (hr : List.Forall₂ r a b) (hg : ∀ x y, r x y → g x y = .ok (h x y)) :
    (List.range a.length).foldlM (fun acc i => do
      let x ← rd a i
      let y ← rd b i
      let d ← g x y
      pure (acc + d)) 0 = .ok (List.zipWith h a b).sum := by
  have key : ∀ k ≤ a.length, (List.range k).foldlM (fun acc i => do
      let x ← rd a i
      let y ← rd b i
      let d ← g x y
      pure (acc + d)) 0 = Outcome.ok ((List.zipWith h a b).take k).sum := by
    intro k
    induction k with
    | zero => intro _; rfl
    | succ k ih =>
      intro hk
      have hl := hr.length_eq
      have h1 : k < a.length := by omega
      have h2 : k < b.length := by omega
      have hz : k < (List.zipWith h a b).length := by simp; omega
      rw [List.range_succ, List.foldlM_append, ih (by omega), List.take_succ_eq_append_getElem hz]
      have hrk : r a[k] b[k] := List.Forall₂.get hr h1 h2
      simp [rd_ok h1, rd_ok h2, hg _ _ hrk]
  have := key a.length le_rfl
  rwa [List.take_of_length_le (by simp)] at this

theorem sum_range_mul (r c : ℕ) (f : ℕ → ℝ) :
    ∑ k ∈ range (r * c), f k = ∑ i ∈ range r, ∑ j ∈ range c, f (i * c + j) := by
  induction r with
  | zero => simp
  | succ r ih => rw [Nat.succ_mul, sum_range_add, ih, sum_range_succ]

/-- Sum over the stored allEntries of a matrix. -/
theorem data_sum (m : Mat ℝ) (f : ℝ → ℝ) : (m.data.map f).sum = ∑ i ∈ range m.rows, ∑ j ∈ range m.cols, f (m.get i j) := by
  unfold Mat.get
  rw [← sum_range_mul m.rows m.cols (fun k => f (m.data.getD k default)), ← m.wf]
  generalize m.data = l
  induction l using List.reverseRecOn with
  | nil => simp
  | append_singleton l a ih =>
    simp only [List.map_append, List.sum_append, List.map_cons, List.map_nil, List.sum_singleton, List.length_append,
      List.length_singleton, sum_range_succ]
    rw [ih]
    congr 1
    · refine sum_congr rfl (fun k hk => ?_)
      rw [List.getD_append _ _ _ _ (mem_range.1 hk)]
    · simp

theorem zip_sum (x y : Mat ℝ) (h : SameSize x y) (f : ℝ → ℝ → ℝ) :
    (List.zipWith f y.data x.data).sum = ∑ i ∈ range x.rows, ∑ j ∈ range x.cols, f (y.get i j) (x.get i j) := by
  have hc : y.cols = x.cols := h.2.symm
  unfold Mat.get
  rw [hc, ← sum_range_mul x.rows x.cols (fun k => f (y.data.getD k default) (x.data.getD k default)), ← x.wf]
  have hl : y.data.length = x.data.length := by rw [x.wf, y.wf, h.1, h.2]
  revert hl
  generalize x.data = l
  generalize y.data = l'
  intro hl
  induction l' generalizing l with
  | nil => cases l <;> simp_all
  | cons a l' ih =>
    cases l with
    | nil => simp at hl
    | cons b l =>
      simp only [List.length_cons, Nat.add_right_cancel_iff] at hl
      simp only [List.zipWith_cons_cons, List.sum_cons, List.length_cons]
      rw [sum_range_succ', ih l hl]
      simp [add_comm]

theorem subband_dist {x y : Mat ℝ} (h : SameSize x y) :
    (do let d ← matSub y x; pure (norm2 d ^ 2) : Outcome ℝ) = .ok (sqDist x y) := by
  unfold matSub
  rw [if_pos ⟨h.1.symm, h.2.symm⟩]
  simp only [Outcome.bind_ok, Outcome.pure_eq]
  unfold norm2
  have hnn : 0 ≤ ((List.zipWith (fun x1 x2 : ℝ => x1 - x2) y.data x.data).map (fun x => x * x)).sum := by
    apply List.sum_nonneg
    intro z hz
    rw [List.mem_map] at hz
    obtain ⟨w, -, rfl⟩ := hz
    exact mul_self_nonneg w
  rw [Real.sq_sqrt hnn, List.map_zipWith, zip_sum x y h]
  unfold sqDist
  congr 1
  refine sum_congr rfl (fun i _ => sum_congr rfl (fun j _ => by ring))

theorem channelDistance_ok {c d : Channel ℝ} (h : List.Forall₂ SameSize c d) :
    channelDistance c d = .ok (List.zipWith sqDist c d).sum := by
  rw [← foldlM_rd2 h (g := fun x y => do let d ← matSub y x; pure (norm2 d ^ 2)) (fun x y hxy => subband_dist hxy)]
  unfold channelDistance
  simp

theorem calcDistance_ok {a b : Decs ℝ} (h : List.Forall₂ (List.Forall₂ SameSize) a b) :
    calcDistance a b = .ok (sqDistAll a b) := by
  unfold calcDistance
  rw [foldlM_rd2 h (fun x y hxy => channelDistance_ok hxy)]
  rfl

theorem toInt32_id {x : ℤ} (h0 : 0 ≤ x) (h1 : x < 2 ^ 31) : toInt32 x = x := by
  unfold toInt32; omega

theorem signalSize_prod {shape : List ℕ} (hp : ∀ n ∈ shape, 0 < n) (h : shape.prod < 2 ^ 31) : signalSize shape = shape.prod := by
  have key : ∀ (l : List ℕ) (acc : ℕ), 0 < acc → (∀ n ∈ l, 0 < n) → acc * l.prod < 2 ^ 31 →
      l.foldl (fun (acc : ℤ) (n : ℕ) => toInt32 (((acc % 2 ^ 64) * n) % 2 ^ 64)) (acc : ℤ) = ((acc * l.prod : ℕ) : ℤ) := by
    intro l
    induction l with
    | nil => intro acc _ _ _; simp
    | cons n l ih =>
      intro acc ha hl hlt
      rw [List.prod_cons] at hlt
      have hn : 0 < n := hl n (by simp)
      have hlp : 0 < l.prod := List.prod_pos (fun m hm => hl m (by simp [hm]))
      have h1 : acc * n < 2 ^ 31 := by
        have : acc * n * 1 ≤ acc * n * l.prod := Nat.mul_le_mul_left _ hlp
        rw [← Nat.mul_assoc] at hlt; omega
      have h2 : acc < 2 ^ 31 := by
        have : acc * 1 ≤ acc * n := Nat.mul_le_mul_left _ hn
        omega
      have e1 : ((acc : ℤ) % 2 ^ 64) = acc := Int.emod_eq_of_lt (by omega) (by omega)
      have e2 : ((acc : ℤ) * n) = ((acc * n : ℕ) : ℤ) := by push_cast; ring
      have e3 : (((acc * n : ℕ) : ℤ) % 2 ^ 64) = ((acc * n : ℕ) : ℤ) := Int.emod_eq_of_lt (by omega) (by omega)
      rw [List.foldl_cons, e1, e2, e3, toInt32_id (by omega) (by omega),
        ih (acc * n) (Nat.mul_pos ha hn) (fun m hm => hl m (by simp [hm])) (by rw [Nat.mul_assoc]; exact hlt),
        List.prod_cons, Nat.mul_assoc]
  unfold signalSize
  have := key shape 1 one_pos hp (by omega)
  rw [Nat.cast_one] at this
  rw [this, Int.emod_eq_of_lt (by omega) (by omega), Int.toNat_natCast, one_mul]

/-- Distance of buffers of equal form and equal step counts. -/
theorem distance_ok {a b : Buffer ℝ} (h : SameForm a b) (hs : a.params.steps = b.params.steps) (hc : CountableSamples a.params) :
    distance a b = .ok (.val (sqDistAll a.decs b.decs / (a.params.signalNumber * a.params.shape.prod : ℕ))) := by
  obtain ⟨c1, c2, c3, c4⟩ := hc
  have hpp : 0 < a.params.shape.prod := List.prod_pos c2
  have hne : a.params.signalNumber * a.params.shape.prod ≠ 0 := Nat.mul_ne_zero (by omega) (by omega)
  unfold distance
  rw [if_pos hs, calcDistance_ok h.2.2]
  simp only [Outcome.bind_ok, Outcome.pure_eq]
  rw [signalSize_prod c2 c3, Nat.mod_eq_of_lt c4]
  unfold floatDiv
  rw [if_neg hne]

/-! ### the sum of squares as a distance -/

/-- All allEntries of all subbands. -/
def allEntries (a : Decs ℝ) : List ℝ := a.flatten.flatMap Mat.data

theorem sqDist_data {x y : Mat ℝ} (h : SameSize x y) :
    sqDist x y = (List.zipWith (fun u v => (u - v) ^ 2) x.data y.data).sum := by
  rw [zip_sum y x ⟨h.1.symm, h.2.symm⟩ (fun u v => (u - v) ^ 2)]
  unfold sqDist
  rw [h.1, h.2]

theorem chan_data {c d : Channel ℝ} (h : List.Forall₂ SameSize c d) :
    (c.flatMap Mat.data).length = (d.flatMap Mat.data).length ∧
    (List.zipWith sqDist c d).sum = (List.zipWith (fun u v => (u - v) ^ 2) (c.flatMap Mat.data) (d.flatMap Mat.data)).sum := by
  induction h with
  | nil => simp
  | cons hxy _ ih =>
    rename_i x y c d _
    have hl : x.data.length = y.data.length := by rw [x.wf, y.wf, hxy.1, hxy.2]
    simp only [List.flatMap_cons, List.zipWith_cons_cons, List.sum_cons, List.length_append]
    refine ⟨by rw [hl, ih.1], ?_⟩
    rw [List.zipWith_append hl, List.sum_append, ih.2, sqDist_data hxy]

theorem all_data {a b : Decs ℝ} (h : List.Forall₂ (List.Forall₂ SameSize) a b) :
    (allEntries a).length = (allEntries b).length ∧
    sqDistAll a b = (List.zipWith (fun u v => (u - v) ^ 2) (allEntries a) (allEntries b)).sum := by
  unfold allEntries sqDistAll
  induction h with
  | nil => simp
  | cons hxy _ ih =>
    rename_i x y c d _
    obtain ⟨hl, hs⟩ := chan_data hxy
    simp only [List.flatten_cons, List.flatMap_append, List.zipWith_cons_cons, List.sum_cons, List.length_append]
    refine ⟨by rw [hl, ih.1], ?_⟩
    rw [List.zipWith_append hl, List.sum_append, ih.2, hs]

theorem zip_len (u v : List ℝ) (h : u.length = v.length) :
    (List.zipWith (fun x y => (x - y) ^ 2) u v).sum =
      ∑ k ∈ range u.length, (u.getD k 0 - v.getD k 0) * (u.getD k 0 - v.getD k 0) := by
  induction u generalizing v with
  | nil => cases v <;> simp_all
  | cons a u ih =>
    cases v with
    | nil => simp at h
    | cons b v =>
      simp only [List.length_cons, Nat.add_right_cancel_iff] at h
      simp only [List.zipWith_cons_cons, List.sum_cons, List.length_cons]
      rw [sum_range_succ', ih v h]
      simp [add_comm, sq]

theorem all_len {a b : Decs ℝ} (h : List.Forall₂ (List.Forall₂ SameSize) a b) :
    sqDistAll a b = len (range (allEntries a).length) (fun k => (allEntries a).getD k 0 - (allEntries b).getD k 0) ^ 2 := by
  obtain ⟨h1, h2⟩ := all_data h
  rw [h2, zip_len _ _ h1, sq, len_sq]

theorem sqDistAll_nonneg {a b : Decs ℝ} (h : List.Forall₂ (List.Forall₂ SameSize) a b) : 0 ≤ sqDistAll a b := by
  rw [all_len h]; positivity

theorem forall2_symm {β : Type} {r : β → β → Prop} (hr : ∀ x y, r x y → r y x) {a b : List β} (h : List.Forall₂ r a b) :
    List.Forall₂ r b a := by
  induction h with
  | nil => exact .nil
  | cons h _ ih => exact .cons (hr _ _ h) ih

theorem forall2_trans {β : Type} {r : β → β → Prop} (hr : ∀ x y z, r x y → r y z → r x z) {a b c : List β}
    (h : List.Forall₂ r a b) (h' : List.Forall₂ r b c) : List.Forall₂ r a c := by
  induction h generalizing c with
  | nil => cases h'; exact .nil
  | cons h _ ih => cases h' with | cons h1 h2 => exact .cons (hr _ _ _ h h1) (ih h2)

theorem forall2_refl {β : Type} {r : β → β → Prop} (hr : ∀ x, r x x) (a : List β) : List.Forall₂ r a a := by
  induction a with
  | nil => exact .nil
  | cons x a ih => exact .cons (hr x) ih

theorem sameSize_symm (x y : Mat ℝ) (h : SameSize x y) : SameSize y x := ⟨h.1.symm, h.2.symm⟩
theorem sameSize_trans (x y z : Mat ℝ) (h : SameSize x y) (h' : SameSize y z) : SameSize x z := ⟨h.1.trans h'.1, h.2.trans h'.2⟩

theorem sameForm_symm {a b : Buffer ℝ} (h : SameForm a b) : SameForm b a :=
  ⟨h.1.symm, h.2.1.symm, forall2_symm (fun _ _ => forall2_symm sameSize_symm) h.2.2⟩

theorem sameForm_trans {a b c : Buffer ℝ} (h : SameForm a b) (h' : SameForm b c) : SameForm a c :=
  ⟨h.1.trans h'.1, h.2.1.trans h'.2.1, forall2_trans (r := List.Forall₂ SameSize) (fun _ _ _ h1 h2 => forall2_trans sameSize_trans h1 h2) h.2.2 h'.2.2⟩

theorem sameForm_refl (a : Buffer ℝ) : SameForm a a :=
  ⟨rfl, rfl, forall2_refl (fun _ => forall2_refl (fun _ => ⟨rfl, rfl⟩) _) _⟩

theorem sqDistAll_symm {a b : Decs ℝ} (h : List.Forall₂ (List.Forall₂ SameSize) a b) : sqDistAll b a = sqDistAll a b := by
  have h' := forall2_symm (fun _ _ => forall2_symm sameSize_symm) h
  rw [(all_data h).2, (all_data h').2, zip_len _ _ (all_data h).1, zip_len _ _ (all_data h').1, (all_data h).1]
  exact sum_congr rfl (fun k _ => by ring)

theorem sqDist_eq_zero {x y : Mat ℝ} (h : SameSize x y) : sqDist x y = 0 ↔ x = y := by
  constructor
  · intro h0
    unfold sqDist at h0
    rw [sum_eq_zero_iff_of_nonneg (fun i _ => sum_nonneg (fun j _ => sq_nonneg _))] at h0
    refine Mat.ext' h.1 h.2 (fun i hi j hj => ?_)
    have h1 := h0 i (mem_range.2 hi)
    rw [sum_eq_zero_iff_of_nonneg (fun j _ => sq_nonneg _)] at h1
    have := pow_eq_zero_iff (two_ne_zero) |>.1 (h1 j (mem_range.2 hj))
    linarith
  · rintro rfl; simp [sqDist]

theorem zipSum_eq_zero {β : Type} {r : β → β → Prop} {f : β → β → ℝ} (hf : ∀ x y, r x y → 0 ≤ f x y ∧ (f x y = 0 ↔ x = y))
    {a b : List β} (h : List.Forall₂ r a b) : 0 ≤ (List.zipWith f a b).sum ∧ ((List.zipWith f a b).sum = 0 ↔ a = b) := by
  induction h with
  | nil => simp
  | cons h _ ih =>
    rename_i x y c d _
    obtain ⟨h1, h2⟩ := hf _ _ h
    simp only [List.zipWith_cons_cons, List.sum_cons, List.cons.injEq]
    refine ⟨by linarith [ih.1], ?_⟩
    rw [← h2, ← ih.2]
    constructor
    · intro h0; constructor <;> linarith [ih.1]
    · rintro ⟨e1, e2⟩; rw [e1, e2, add_zero]

theorem sqDistAll_eq_zero {a b : Decs ℝ} (h : List.Forall₂ (List.Forall₂ SameSize) a b) : sqDistAll a b = 0 ↔ a = b := by
  refine (zipSum_eq_zero (r := List.Forall₂ SameSize) (fun c d hcd => zipSum_eq_zero (r := SameSize) (fun x y hxy =>
    ⟨?_, sqDist_eq_zero hxy⟩) hcd) h).2
  exact sum_nonneg (fun i _ => sum_nonneg (fun j _ => sq_nonneg _))

/-- Triangle inequality for the root. -/
theorem sqDistAll_triangle {a b c : Decs ℝ} (h : List.Forall₂ (List.Forall₂ SameSize) a b)
    (h' : List.Forall₂ (List.Forall₂ SameSize) b c) :
    Real.sqrt (sqDistAll a c) ≤ Real.sqrt (sqDistAll a b) + Real.sqrt (sqDistAll b c) := by
  have h'' := forall2_trans (r := List.Forall₂ SameSize) (fun _ _ _ h1 h2 => forall2_trans sameSize_trans h1 h2) h h'
  rw [all_len h, all_len h', all_len h'', ← (all_data h).1, Real.sqrt_sq (len_nonneg _ _), Real.sqrt_sq (len_nonneg _ _),
    Real.sqrt_sq (len_nonneg _ _)]
  refine le_trans (le_of_eq ?_) (len_add _ _ _)
  exact len_congr (fun k _ => by ring)

/-! ### energies -/

theorem energy_entry (m : Mat ℝ) :
    (open Classical in ((m.data.filter (fun x => x ≠ 0)).map (fun x => x * x)).sum) = energy m := by
  classical
  have : ∀ l : List ℝ, ((l.filter (fun x => decide (x ≠ 0))).map (fun x => x * x)).sum = (l.map (fun x => x * x)).sum := by
    intro l
    induction l with
    | nil => rfl
    | cons a l ih =>
      rw [List.filter_cons]
      by_cases h : a = 0
      · simp [h] at ih ⊢; exact ih
      · simp [h] at ih ⊢; exact ih
  unfold energy
  rw [← data_sum m (fun x => x * x)]
  exact this m.data

theorem energy_eq_zero (m : Mat ℝ) : energy m = 0 ↔ AllZero m := by
  rw [energy_prod, sum_eq_zero_iff_of_nonneg (fun q _ => mul_self_nonneg _)]
  constructor
  · intro h i hi j hj
    exact mul_self_eq_zero.1 (h (i, j) (by simp [hi, hj]))
  · intro h q hq
    rw [mem_product, mem_range, mem_range] at hq
    rw [h _ hq.1 _ hq.2, mul_zero]

end WB
