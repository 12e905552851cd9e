import Verif.Model.Serialize
import Verif.Spec.Serialize
import Verif.Proof.Params
import Verif.Proof.World
import Mathlib.Tactic.Ring
import Mathlib.Tactic.Linarith

/-!
Helper lemmas for serialisation: readers undo writers, and readers of cut input fail.
-/

namespace WB

open WB.Spec

/-! ### Integers as bytes -/

theorem le_succ (n x : ℕ) : le (n + 1) x = UInt8.ofNat x :: le n (x / 256) := by
  unfold le
  rw [List.range_succ_eq_map, List.map_cons, List.map_map]
  congr 1
  · simp
  · apply List.map_congr_left
    intro i _
    simp only [Function.comp]
    rw [Nat.div_div_eq_div_mul, Nat.succ_eq_add_one, pow_succ, Nat.mul_comm]

@[simp] theorem length_le (n x : ℕ) : (le n x).length = n := by simp [le]

theorem fromLE_le (n x : ℕ) : fromLE (le n x) = x % 256 ^ n := by
  induction n generalizing x with
  | zero => simp [le, fromLE, Nat.mod_one]
  | succ n ih =>
    rw [le_succ, fromLE, ih, pow_succ, Nat.mul_comm (256 ^ n) 256, Nat.mod_mul]
    simp

theorem fromLE_le_of_lt {n x : ℕ} (h : x < 256 ^ n) : fromLE (le n x) = x := by
  rw [fromLE_le, Nat.mod_eq_of_lt h]

/-! ### Readers -/

/-- The outcome of a reader that runs out of input: undefined in the header, an exception in the body. -/
def bad {β : Type} (u : Bool) : Outcome β := if u then .ub else .throw

@[simp] theorem bad_bind {β γ : Type} (u : Bool) (f : β → Outcome γ) : ((bad u : Outcome β) >>= f) = bad u := by
  cases u <;> rfl

/-- `r` reads exactly `s` as `x`, and fails on every proper prefix of `s`. -/
structure Reads {β : Type} (u : Bool) (r : Rd β) (s : Bytes) (x : β) : Prop where
  full : ∀ t, r (s ++ t) = .ok (x, t)
  cut : ∀ a b, s = a ++ b → b ≠ [] → r a = bad u

variable {β γ : Type} {u : Bool}

theorem Reads.bind {r : Rd β} {f : β → Rd γ} {s t : Bytes} {x : β} {y : γ} (hr : Reads u r s x)
    (hf : Reads u (f x) t y) : Reads u (Rd.bind r f) (s ++ t) y := by
  constructor
  · intro w
    unfold Rd.bind
    rw [List.append_assoc, hr.full, Outcome.bind_ok, hf.full]
  · intro a b h hb
    unfold Rd.bind
    rcases List.append_eq_append_iff.1 h with ⟨c, rfl, hc⟩ | ⟨c, rfl, hc⟩
    · rw [hr.full, Outcome.bind_ok]
      exact hf.cut c b hc hb
    · by_cases hcn : c = []
      · subst hcn
        have hfa := hf.cut [] t (by simp) (by intro h0; apply hb; simpa [h0] using hc)
        have := hr.full []
        simp only [List.append_nil] at this
        rw [this, Outcome.bind_ok, hfa]
      · rw [hr.cut a c rfl hcn, bad_bind]

theorem Reads.pure (x : β) : Reads u (Rd.pure x) [] x :=
  ⟨fun t => rfl, fun a b h hb => by simp_all⟩

theorem Reads.bind_pure {r : Rd β} {f : β → γ} {s : Bytes} {x : β} (hr : Reads u r s x) :
    Reads u (Rd.bind r fun y => Rd.pure (f y)) s (f x) := by
  simpa using hr.bind (f := fun y => Rd.pure (f y)) (Reads.pure (f x))

theorem Reads.lift {o : Outcome β} {x : β} (h : o = .ok x) : Reads u (Rd.lift o) [] x := by
  subst h
  exact ⟨fun t => rfl, fun a b h hb => by simp_all⟩

theorem Reads.bind_lift {o : Outcome β} {x : β} {f : β → Rd γ} {s : Bytes} {y : γ} (h : o = .ok x)
    (hf : Reads u (f x) s y) : Reads u (Rd.bind (Rd.lift o) f) s y := by
  simpa using (Reads.lift (u := u) h).bind hf

theorem Reads.of_eq {r r' : Rd β} {s s' : Bytes} {x x' : β} (h : Reads u r s x) (hr : r = r') (hs : s = s')
    (hx : x = x') : Reads u r' s' x' := by subst hr hs hx; exact h

theorem reads_field {n x : ℕ} (h : x < 256 ^ n) : Reads true (rdField n) (le n x) x := by
  constructor
  · intro t
    unfold rdField
    rw [if_neg (by simp), List.take_left' (by simp), List.drop_left' (by simp), fromLE_le_of_lt h]
  · intro a b hab hb
    unfold rdField
    have := congrArg List.length hab
    have : 0 < b.length := List.length_pos_iff.2 hb
    rw [if_pos (by simp at *; omega)]; rfl

theorem reads_checked {n x : ℕ} (h : x < 256 ^ n) : Reads false (rdChecked n) (le n x) x := by
  constructor
  · intro t
    unfold rdChecked
    rw [if_neg (by simp), List.take_left' (by simp), List.drop_left' (by simp), fromLE_le_of_lt h]
  · intro a b hab hb
    unfold rdChecked
    have := congrArg List.length hab
    have : 0 < b.length := List.length_pos_iff.2 hb
    rw [if_pos (by simp at *; omega)]; rfl

/-- A one-byte field. -/
theorem reads_checked1 (x : UInt8) : Reads false (rdChecked 1) [x] x.toNat := by
  have h : Reads false (rdChecked 1) (le 1 x.toNat) x.toNat := reads_checked (n := 1) (by have := x.toNat_lt; simpa using this)
  refine h.of_eq rfl ?_ rfl
  simp [le]

theorem reads_byte (x : UInt8) : Reads false rdByte [x] x := by
  constructor
  · intro t; rfl
  · intro a b hab hb
    cases a with
    | nil => rfl
    | cons y a =>
      simp at hab
      exact absurd hab.2.2 hb

theorem reads_many {r : Rd β} {enc : β → Bytes} : ∀ {xs : List β}, (∀ x ∈ xs, Reads u r (enc x) x) →
    Reads u (rdMany r xs.length) (xs.flatMap enc) xs
  | [], _ => Reads.pure []
  | x :: xs, h => by
    rw [List.flatMap_cons]
    exact (h x (by simp)).bind (Reads.bind_pure (f := fun ys => x :: ys)
      (reads_many (fun y hy => h y (by simp [hy]))))

/-! ### Archives -/

theorem reads_vector {e : Ext} {et es : UInt8} {r : Rd β} {other} {enc : β → Bytes} {xs : List β}
    (h : ∀ x ∈ xs, Reads false r (enc x) x) (hl : xs.length < 2 ^ 64) (ha : e.alloc 1 xs.length = .ok ()) :
    Reads false (rdVector e et.toNat es.toNat r other)
      ([1, 0, et, es] ++ le 8 xs.length ++ le 8 xs.length ++ xs.flatMap enc) xs := by
  have h8 : xs.length < 256 ^ 8 := by norm_num at hl ⊢; omega
  refine Reads.of_eq (s := [1] ++ ([0] ++ ([et] ++ ([es] ++ (le 8 xs.length ++ (le 8 xs.length ++ xs.flatMap enc))))))
    ?_ rfl (by simp) rfl
  refine (reads_checked1 1).bind ((reads_checked1 0).bind ((reads_checked1 et).bind ((reads_checked1 es).bind
    ((reads_checked h8).bind ((reads_checked h8).bind ?_)))))
  have h1 : (1 : UInt8).toNat = 1 := rfl
  have h0 : (0 : UInt8).toNat = 0 := rfl
  rw [h1, h0, if_neg (by simp)]
  refine Reads.bind_lift ha ?_
  rw [if_pos rfl]
  exact reads_many h

theorem reads_bytes {e : Ext} {v : Bytes} (hl : v.length < 2 ^ 64) (ha : e.alloc 1 v.length = .ok ()) :
    Reads false (rdBytes e) (serBytes v) v := by
  have := reads_vector (e := e) (et := 2) (es := 1) (r := rdByte) (other := e.otherBytes) (enc := fun b => [b]) (xs := v)
    (fun x _ => reads_byte x) hl ha
  refine this.of_eq rfl ?_ rfl
  simp [serBytes]

theorem matOf_data (m : Mat F32) : matOf m.rows m.cols m.data = m := Mat.ofFn_get m

theorem reads_mat {e : Ext} {m : Mat F32} (hr : m.rows < 2 ^ 64) (hc : m.cols < 2 ^ 64)
    (ha : e.alloc m.rows m.cols = .ok ()) : Reads false (rdMat e) (serMat m) m := by
  have hr8 : m.rows < 256 ^ 8 := by norm_num at hr ⊢; omega
  have hc8 : m.cols < 256 ^ 8 := by norm_num at hc ⊢; omega
  have hn8 : m.rows * m.cols % 2 ^ 64 < 256 ^ 8 := by
    have := Nat.mod_lt (m.rows * m.cols) (y := 2 ^ 64) (by norm_num)
    norm_num at this ⊢; omega
  have hle : le 8 (m.rows * m.cols) = le 8 (m.rows * m.cols % 2 ^ 64) := by
    unfold le
    apply List.map_congr_left
    intro i hi
    apply UInt8.toNat_inj.1
    simp only [UInt8.toNat_ofNat']
    have hi8 : i < 8 := by simpa using hi
    have h64 : (2 : ℕ) ^ 64 = 256 ^ i * (256 * 256 ^ (7 - i)) := by
      rw [← mul_assoc, ← pow_succ, ← pow_add, show i + 1 + (7 - i) = 8 by omega]; norm_num
    rw [h64, Nat.mod_mul_right_div_self, show (2 : ℕ) ^ 8 = 256 by norm_num, Nat.mod_mul_right_mod]
  refine Reads.of_eq (s := [1] ++ ([1] ++ ([3] ++ ([4] ++ (le 8 m.rows ++ (le 8 m.cols ++
    (le 8 (m.rows * m.cols % 2 ^ 64) ++ m.data.flatMap (fun x => le 4 x.toNat))))))))
    ?_ rfl (by simp [serMat, hle]) rfl
  refine (reads_checked1 1).bind ((reads_checked1 1).bind ((reads_checked1 3).bind ((reads_checked1 4).bind
    ((reads_checked hr8).bind ((reads_checked hc8).bind ((reads_checked hn8).bind ?_))))))
  have h1 : (1 : UInt8).toNat = 1 := rfl
  have h3 : (3 : UInt8).toNat = 3 := rfl
  have h4 : (4 : UInt8).toNat = 4 := rfl
  rw [h1, h3, h4, if_neg (by simp)]
  refine Reads.bind_lift ha ?_
  rw [if_pos rfl]
  have hm : Reads false (rdMany (rdChecked 4) (m.data.map BitVec.toNat).length)
      ((m.data.map BitVec.toNat).flatMap (le 4)) (m.data.map BitVec.toNat) := by
    apply reads_many
    intro x hx
    obtain ⟨y, _, rfl⟩ := List.mem_map.1 hx
    exact reads_checked (by have := y.isLt; norm_num at this ⊢; omega)
  rw [List.length_map, m.wf] at hm
  have := hm.bind_pure (f := fun xs => matOf m.rows m.cols (xs.map (BitVec.ofNat 32)))
  refine this.of_eq rfl ?_ ?_
  · simp [List.flatMap_map]
  · rw [List.map_map]
    have : (BitVec.ofNat 32) ∘ BitVec.toNat = (id : F32 → F32) := by
      funext x; simp
    rw [this, List.map_id, matOf_data]

/-! ### Sparse conversion -/

theorem foldlM_range_rd {σ β : Type} (f : σ → β → Outcome σ) (L : List β) (g : σ → ℕ → Outcome σ)
    (hg : ∀ n (h : n < L.length) s, g s n = f s L[n]) (s : σ) :
    (List.range L.length).foldlM g s = L.foldlM f s := by
  induction L generalizing g s with
  | nil => rfl
  | cons x L ih =>
    rw [List.length_cons, List.range_succ_eq_map, List.foldlM_cons, List.foldlM_cons, hg 0 (by simp)]
    simp only [List.getElem_cons_zero]
    cases f s x with
    | throw => rfl
    | ub => rfl
    | ok s' =>
      rw [Outcome.bind_ok, Outcome.bind_ok, List.foldlM_map]
      exact ih _ (fun n h s => by
        have := hg (n + 1) (by simpa using h) s
        simpa using this) s'

/-- Writing entries: an element ends with value `v` when all entries for it carry `v` and there is one, or the matrix
held `v` before. -/
theorem fold_put {r c : ℕ} (hc : 0 < c) : ∀ (L : List (ℕ × F32)) (m : Mat F32), m.rows = r → m.cols = c →
    (∀ x ∈ L, x.1 < r * c) →
    ∃ m', L.foldlM putEntry m = .ok m' ∧ m'.rows = r ∧ m'.cols = c ∧
      ∀ i < r, ∀ j < c, ∀ v, (∀ x ∈ L, x.1 = i * c + j → x.2 = v) →
        (m.get i j = v ∨ ∃ x ∈ L, x.1 = i * c + j) → m'.get i j = v
  | [], m, hr, hcc, _ => ⟨m, rfl, hr, hcc, fun i _ j _ v _ h => by simpa using h⟩
  | x :: L, m, hr, hcc, hL => by
    subst hr hcc
    have hx : x.1 / m.cols < m.rows := Nat.div_lt_of_lt_mul (by
      have := hL x (by simp); rwa [Nat.mul_comm] at this)
    have hput : putEntry m x = .ok (Mat.ofFn m.rows m.cols fun i j =>
        if i = x.1 / m.cols ∧ j = x.1 % m.cols then x.2 else m.get i j) := by
      unfold putEntry
      rw [if_neg (by omega), if_neg (by omega)]
    obtain ⟨m', h1, h2, h3, h4⟩ := fold_put hc L (Mat.ofFn m.rows m.cols fun i j =>
        if i = x.1 / m.cols ∧ j = x.1 % m.cols then x.2 else m.get i j) rfl rfl (fun y hy => hL y (by simp [hy]))
    refine ⟨m', ?_, h2, h3, ?_⟩
    · rw [List.foldlM_cons, hput, Outcome.bind_ok, h1]
    · intro i hi j hj v hv hor
      refine h4 i hi j hj v (fun y hy => hv y (by simp [hy])) ?_
      rw [Mat.get_ofFn hi hj]
      have hiff : (i = x.1 / m.cols ∧ j = x.1 % m.cols) ↔ x.1 = i * m.cols + j := by
        constructor
        · rintro ⟨rfl, rfl⟩
          rw [Nat.mul_comm]; exact (Nat.div_add_mod _ _).symm
        · intro h
          rw [h]
          exact ⟨(Mat.idx_div hj).symm, (Mat.idx_mod hj).symm⟩
      rcases hor with h | ⟨y, hy, hyi⟩
      · by_cases hxi : x.1 = i * m.cols + j
        · rw [if_pos (hiff.2 hxi)]; exact .inl (hv x (by simp) hxi)
        · rw [if_neg (fun hh => hxi (hiff.1 hh))]; exact .inl h
      · rcases List.mem_cons.1 hy with rfl | hy
        · rw [if_pos (hiff.2 hyi)]; exact .inl (hv y (by simp) hyi)
        · exact .inr ⟨y, hy, hyi⟩

theorem isZero_eq (x : F32) : isZeroPattern x = F32.isZero x := by
  have hx := x.isLt
  have h1 : (x == 0x00000000#32) = decide (x.toNat = 0) := by
    rw [Bool.eq_iff_iff, beq_iff_eq, decide_eq_true_iff, ← BitVec.toNat_inj]; rfl
  have h2 : (x == 0x80000000#32) = decide (x.toNat = 2 ^ 31) := by
    rw [Bool.eq_iff_iff, beq_iff_eq, decide_eq_true_iff, ← BitVec.toNat_inj]; rfl
  unfold isZeroPattern F32.isZero
  rw [h1, h2, Bool.eq_iff_iff]
  simp only [Bool.or_eq_true, decide_eq_true_iff, beq_iff_eq]
  omega

/-- The index/value pairs of the nonzero elements, without the 32-bit cut. -/
def entries (m : Mat F32) : List (ℕ × F32) :=
  (List.range m.rows).flatMap fun i => (List.range m.cols).filterMap fun j =>
    if F32.isZero (m.get i j) then none else some (i * m.cols + j, m.get i j)

theorem mem_entries {m : Mat F32} {x : ℕ × F32} : x ∈ entries m ↔
    ∃ i < m.rows, ∃ j < m.cols, F32.isZero (m.get i j) = false ∧ x = (i * m.cols + j, m.get i j) := by
  unfold entries
  simp only [List.mem_flatMap, List.mem_range, List.mem_filterMap]
  constructor
  · rintro ⟨i, hi, j, hj, h⟩
    by_cases hz : F32.isZero (m.get i j) = true
    · simp [hz] at h
    · simp only [hz] at h
      exact ⟨i, hi, j, hj, by simpa using hz, by simpa [eq_comm] using h⟩
  · rintro ⟨i, hi, j, hj, hz, rfl⟩
    exact ⟨i, hi, j, hj, by simp [hz]⟩

theorem entries_lt {m : Mat F32} {x : ℕ × F32} (h : x ∈ entries m) : x.1 < m.rows * m.cols := by
  obtain ⟨i, hi, j, hj, _, rfl⟩ := mem_entries.1 h
  exact Mat.idx_lt hi hj

theorem toCSR_ok {m : Mat F32} (h0 : 0 < m.rows * m.cols) (h1 : m.rows * m.cols < 2 ^ 31) :
    toCSR m = .ok ((entries m).map Prod.fst, (entries m).map Prod.snd) := by
  have hr : 0 < m.rows := Nat.pos_of_mul_pos_right h0
  have hc : 0 < m.cols := Nat.pos_of_mul_pos_left h0
  have hr2 : m.rows ≤ m.rows * m.cols := Nat.le_mul_of_pos_right _ hc
  have hc2 : m.cols ≤ m.rows * m.cols := Nat.le_mul_of_pos_left _ hr
  unfold toCSR
  rw [if_neg (by omega), if_neg (by omega)]
  have : ((List.range m.rows).flatMap fun i => (List.range m.cols).filterMap fun j =>
      let x := m.get i j
      if F32.isZero x then none else some ((i * m.cols + j) % 2 ^ 32, x)) = entries m := by
    unfold entries
    apply List.flatMap_congr
    intro i hi
    apply List.filterMap_congr
    intro j hj
    have := Mat.idx_lt (List.mem_range.1 hi) (List.mem_range.1 hj)
    simp only
    rw [Nat.mod_eq_of_lt (by norm_num at h1 ⊢; omega)]
  rw [this]

theorem length_entries_le (m : Mat F32) : (entries m).length ≤ m.rows * m.cols := by
  unfold entries
  rw [List.length_flatMap]
  have key : ∀ l : List ℕ, ((l.map fun i => ((List.range m.cols).filterMap fun j =>
      if F32.isZero (m.get i j) then none else some (i * m.cols + j, m.get i j)).length)).sum ≤ l.length * m.cols := by
    intro l
    induction l with
    | nil => simp
    | cons i l ih =>
      have := List.length_filterMap_le (fun j =>
        if F32.isZero (m.get i j) then none else some (i * m.cols + j, m.get i j)) (List.range m.cols)
      rw [List.length_range] at this
      rw [List.map_cons, List.sum_cons, List.length_cons, Nat.add_mul]
      omega
  simpa using key (List.range m.rows)

theorem fromCSR_ok {e : Ext} {m : Mat F32} (f : F32 → F32) (h0 : 0 < m.rows * m.cols)
    (ha : e.alloc m.rows m.cols = .ok ()) :
    ∃ m', fromCSR e m.rows m.cols ((entries m).map Prod.fst) (((entries m).map Prod.snd).map f) = .ok m' ∧
      MappedNonzeros f m m' := by
  have hc : 0 < m.cols := Nat.pos_of_mul_pos_left h0
  let L := (entries m).map (fun x => (x.1, f x.2))
  obtain ⟨m', h1, h2, h3, h4⟩ := fold_put (r := m.rows) hc L (Mat.ofFn m.rows m.cols fun _ _ => 0) rfl rfl (by
    intro x hx
    obtain ⟨y, hy, rfl⟩ := List.mem_map.1 hx
    exact (entries_lt hy : y.1 < _))
  refine ⟨m', ?_, h2, h3, ?_⟩
  · unfold fromCSR
    rw [ha, Outcome.bind_ok, ← h1]
    have hlen : ((entries m).map Prod.fst).length = L.length := by simp [L]
    rw [hlen]
    apply foldlM_range_rd
    intro n hn s
    have hn' : n < (entries m).length := by simpa [L] using hn
    rw [rd_ok (by simpa using hn'), Outcome.bind_ok, rd_ok (by simpa using hn'), Outcome.bind_ok]
    simp [L]
  · intro i hi j hj
    rw [isZero_eq]
    apply h4 i hi j hj
    · intro x hx hxi
      obtain ⟨y, hy, rfl⟩ := List.mem_map.1 hx
      obtain ⟨i', hi', j', hj', hz, rfl⟩ := mem_entries.1 hy
      have hii : i' = i := by
        have := congrArg (· / m.cols) hxi
        simpa [Mat.idx_div hj', Mat.idx_div hj] using this
      have hjj : j' = j := by
        have := congrArg (· % m.cols) hxi
        simpa [Mat.idx_mod hj', Mat.idx_mod hj] using this
      subst hii hjj
      simp [hz]
    · by_cases hz : F32.isZero (m.get i j) = true
      · left; rw [Mat.get_ofFn hi hj, if_pos hz]
      · right
        exact ⟨_, List.mem_map.2 ⟨_, mem_entries.2 ⟨i, hi, j, hj, by simpa using hz, rfl⟩, rfl⟩, rfl⟩

end WB

namespace WB

open Spec

theorem range_mul_map {β : Type} (f : ℕ → β) (r c : ℕ) :
    (List.range (r * c)).map f = (List.range r).flatMap fun i => (List.range c).map fun j => f (i * c + j) := by
  induction r with
  | zero => simp
  | succ r ih =>
    rw [Nat.succ_mul, List.range_add, List.map_append, ih, List.range_succ, List.flatMap_append, List.map_map]
    simp [Function.comp_def]

theorem data_eq_rows (m : Mat F32) :
    m.data = (List.range m.rows).flatMap fun i => (List.range m.cols).map fun j => m.get i j := by
  have h : m.data = (List.range (m.rows * m.cols)).map (fun k => m.data.getD k default) := by
    apply List.ext_getElem
    · simp [m.wf]
    · intro n h1 h2
      simp [List.getD, h1]
  rw [h, range_mul_map]
  rfl

theorem entries_values (m : Mat F32) : (entries m).map Prod.snd = m.data.filter (fun x => !isZeroPattern x) := by
  have hzp : (fun x : F32 => !isZeroPattern x) = fun x => !F32.isZero x := by funext x; rw [isZero_eq]
  rw [hzp]
  rw [data_eq_rows]
  unfold entries
  rw [List.map_flatMap, List.filter_flatMap]
  apply List.flatMap_congr
  intro i _
  rw [List.map_filterMap, List.filter_map, ← List.filterMap_eq_map, List.filterMap_filter]
  apply List.filterMap_congr
  intro j _
  by_cases h : F32.isZero (m.get i j) = true <;> simp [h]

theorem entries_sorted (m : Mat F32) : ((entries m).map Prod.fst).Pairwise (· < ·) := by
  unfold entries
  rw [List.map_flatMap, List.pairwise_flatMap]
  constructor
  · intro i hi
    rw [List.map_filterMap, List.pairwise_filterMap]
    apply List.Pairwise.imp _ List.pairwise_lt_range
    intro j j' hjj x hx y hy
    by_cases h : F32.isZero (m.get i j) = true <;> by_cases h' : F32.isZero (m.get i j') = true <;>
      simp_all
    omega
  · apply List.Pairwise.imp_of_mem _ List.pairwise_lt_range
    intro i i' hi hi' hii x hx y hy
    simp only [List.mem_map, List.mem_filterMap, List.mem_range] at hx hy
    obtain ⟨a, ⟨j, hj, ha⟩, rfl⟩ := hx
    obtain ⟨b, ⟨j', hj', hb⟩, rfl⟩ := hy
    by_cases h : F32.isZero (m.get i j) = true
    · simp [h] at ha
    by_cases h' : F32.isZero (m.get i' j') = true
    · simp [h'] at hb
    simp only [h, h'] at ha hb
    simp only [Option.some.injEq, Bool.false_eq_true, if_false] at ha hb
    subst ha hb
    simp only
    have : (i + 1) * m.cols ≤ i' * m.cols := Nat.mul_le_mul_right _ hii
    rw [Nat.add_mul] at this
    omega

end WB
