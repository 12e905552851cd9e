import Verif.Model.Outcome
import Mathlib.Algebra.Order.Ring.Nat
import Mathlib.Tactic.Ring
import Mathlib.Tactic.Linarith

/-!
Dense matrices (`blaze::DynamicMatrix<float>`, row major) as explicit sizes plus a row-major list.
The library `blaze` itself is outside `/repo`; this file is the part of its interface the code relies on.
-/

namespace WB

/-- A dense matrix. -/
structure Mat (α : Type) where
  rows : ℕ
  cols : ℕ
  data : List α
  wf : data.length = rows * cols

namespace Mat

variable {α : Type} {β : Type}

/-- The 0×0 matrix (default constructed `DynamicMatrix`). -/
def empty : Mat α := ⟨0, 0, [], rfl⟩

instance : Inhabited (Mat α) := ⟨empty⟩

/-- The matrix with entry `f i j` in row `i`, column `j`. -/
def ofFn (r c : ℕ) (f : ℕ → ℕ → α) : Mat α :=
  ⟨r, c, (List.range (r * c)).map (fun k => f (k / c) (k % c)), by simp⟩

/-- Element access; only ever used with indices that are in range (`default` is returned otherwise). -/
def get [Inhabited α] (m : Mat α) (i j : ℕ) : α := m.data.getD (i * m.cols + j) default

/-- An `n × 1` matrix from a vector (`blaze::column(m, 0) = v`). -/
def ofCol (v : List α) : Mat α := ⟨v.length, 1, v, by simp⟩

/-- Number of samples is zero (`rows() * columns() == 0`). -/
def isEmpty (m : Mat α) : Bool := m.rows * m.cols == 0

@[simp] theorem rows_ofFn (r c : ℕ) (f : ℕ → ℕ → α) : (ofFn r c f).rows = r := rfl
@[simp] theorem cols_ofFn (r c : ℕ) (f : ℕ → ℕ → α) : (ofFn r c f).cols = c := rfl
@[simp] theorem rows_ofCol (v : List α) : (ofCol v).rows = v.length := rfl
@[simp] theorem cols_ofCol (v : List α) : (ofCol v).cols = 1 := rfl

theorem idx_lt {r c i j : ℕ} (hi : i < r) (hj : j < c) : i * c + j < r * c := by
  have : i * c + c ≤ r * c := by
    have := Nat.mul_le_mul_right c (Nat.succ_le_of_lt hi)
    simpa [Nat.succ_mul] using this
  omega

theorem idx_div {c i j : ℕ} (hj : j < c) : (i * c + j) / c = i := by
  have hc : 0 < c := by omega
  rw [Nat.add_comm, Nat.add_mul_div_right _ _ hc, Nat.div_eq_of_lt hj, Nat.zero_add]

theorem idx_mod {c i j : ℕ} (hj : j < c) : (i * c + j) % c = j := by
  rw [Nat.add_comm, Nat.add_mul_mod_self_right, Nat.mod_eq_of_lt hj]

theorem get_ofFn [Inhabited α] {r c : ℕ} {f : ℕ → ℕ → α} {i j : ℕ} (hi : i < r) (hj : j < c) :
    (ofFn r c f).get i j = f i j := by
  unfold get ofFn
  simp only
  have h := idx_lt hi hj
  simp [List.getD, h, idx_div hj, idx_mod hj]

theorem eq_iff (a b : Mat α) : a = b ↔ a.rows = b.rows ∧ a.cols = b.cols ∧ a.data = b.data := by
  constructor
  · rintro rfl; exact ⟨rfl, rfl, rfl⟩
  · intro ⟨h1, h2, h3⟩
    cases a; cases b
    simp only at h1 h2 h3
    subst h1; subst h2; subst h3
    rfl

/-- Two matrices with equal sizes and equal entries are equal. -/
theorem ext' [Inhabited α] {a b : Mat α} (hr : a.rows = b.rows) (hc : a.cols = b.cols)
    (h : ∀ i < a.rows, ∀ j < a.cols, a.get i j = b.get i j) : a = b := by
  rw [eq_iff]
  refine ⟨hr, hc, ?_⟩
  apply List.ext_getElem
  · rw [a.wf, b.wf, hr, hc]
  · intro k h1 h2
    have hk : k < a.rows * a.cols := by rw [← a.wf]; exact h1
    have hcpos : 0 < a.cols := by
      rcases Nat.eq_zero_or_pos a.cols with h0 | h0
      · rw [h0] at hk; omega
      · exact h0
    have hi : k / a.cols < a.rows := Nat.div_lt_of_lt_mul (by rwa [Nat.mul_comm] at hk)
    have hj : k % a.cols < a.cols := Nat.mod_lt _ hcpos
    have := h _ hi _ hj
    unfold get at this
    rw [← hc] at this
    have hk' : k / a.cols * a.cols + k % a.cols = k := by
      rw [Nat.mul_comm]; exact Nat.div_add_mod k a.cols
    rw [hk'] at this
    simpa [List.getD, h1, h2] using this

theorem ofFn_get [Inhabited α] (m : Mat α) : ofFn m.rows m.cols m.get = m :=
  ext' rfl rfl (fun _ hi _ hj => get_ofFn hi hj)

theorem ofFn_congr [Inhabited α] {r c : ℕ} {f g : ℕ → ℕ → α} (h : ∀ i < r, ∀ j < c, f i j = g i j) :
    ofFn r c f = ofFn r c g :=
  ext' rfl rfl (fun i hi j hj => by
    have hi' : i < r := hi
    have hj' : j < c := hj
    rw [get_ofFn hi' hj', get_ofFn hi' hj', h i hi' j hj'])

/-- `blaze::row(m, i)` as a vector. -/
def row [Inhabited α] (m : Mat α) (i : ℕ) : List α := (List.range m.cols).map (m.get i)

/-- `blaze::column(m, j)` as a vector. -/
def col [Inhabited α] (m : Mat α) (j : ℕ) : List α := (List.range m.rows).map (fun i => m.get i j)

@[simp] theorem length_row [Inhabited α] (m : Mat α) (i : ℕ) : (m.row i).length = m.cols := by simp [row]
@[simp] theorem length_col [Inhabited α] (m : Mat α) (j : ℕ) : (m.col j).length = m.rows := by simp [col]

theorem get_ofCol [Inhabited α] (v : List α) (i : ℕ) : (ofCol v).get i 0 = v.getD i default := by
  simp [get, ofCol]

theorem col_ofCol [Inhabited α] (v : List α) : (ofCol v).col 0 = v := by
  apply List.ext_getElem
  · simp
  · intro i h1 h2
    simp [col, get_ofCol, List.getD, h2]

theorem ofCol_col [Inhabited α] (m : Mat α) (h : m.cols = 1) : ofCol (m.col 0) = m := by
  refine ext' (by simp) (by simp [h]) ?_
  intro i hi j hj
  have hi' : i < m.rows := by simpa using hi
  have hj' : j = 0 := by simpa using hj
  subst hj'
  rw [get_ofCol]
  simp [col, List.getD, hi']

/-- Apply a function to every entry. -/
def map (f : α → β) (m : Mat α) : Mat β := ⟨m.rows, m.cols, m.data.map f, by simp [m.wf]⟩

@[simp] theorem rows_map (f : α → β) (m : Mat α) : (m.map f).rows = m.rows := rfl
@[simp] theorem cols_map (f : α → β) (m : Mat α) : (m.map f).cols = m.cols := rfl

theorem get_map [Inhabited α] [Inhabited β] (f : α → β) (m : Mat α) {i j : ℕ} (hi : i < m.rows)
    (hj : j < m.cols) : (m.map f).get i j = f (m.get i j) := by
  have h : i * m.cols + j < m.data.length := by rw [m.wf]; exact idx_lt hi hj
  simp [get, map, List.getD, h]

end Mat

/-- A matrix under construction: `DynamicMatrix(rows, cols)` leaves its elements uninitialised, so every cell
holds either nothing or a value. -/
structure Raw (α : Type) where
  rows : ℕ
  cols : ℕ
  cell : ℕ → ℕ → Option α

namespace Raw

variable {α : Type}

/-- `DynamicMatrix result(rows, cols)`. -/
def new (r c : ℕ) : Raw α := ⟨r, c, fun _ _ => none⟩

/-- `submatrix(result, r0, c0, nr, nc) = v`: throws when the rectangle is not inside the matrix. -/
def fill (m : Raw α) (r0 c0 nr nc : ℕ) (v : ℕ → ℕ → α) : Outcome (Raw α) :=
  if r0 + nr ≤ m.rows ∧ c0 + nc ≤ m.cols then
    .ok ⟨m.rows, m.cols, fun i j =>
      if r0 ≤ i ∧ i < r0 + nr ∧ c0 ≤ j ∧ j < c0 + nc then some (v (i - r0) (j - c0)) else m.cell i j⟩
  else .throw

/-- A guarded assignment: `if (c) submatrix(result, r0, c0, nr, nc) = v`. -/
def fillIf (m : Raw α) (c : Prop) [Decidable c] (r0 c0 nr nc : ℕ) (v : ℕ → ℕ → α) : Outcome (Raw α) :=
  if c then m.fill r0 c0 nr nc v else .ok m

/-- Hand out the matrix. A cell that was never written has an indeterminate value; using it is undefined
behaviour. -/
def done [Inhabited α] (m : Raw α) : Outcome (Mat α) :=
  if ∀ i < m.rows, ∀ j < m.cols, (m.cell i j).isSome then
    .ok (Mat.ofFn m.rows m.cols (fun i j => (m.cell i j).getD default))
  else .ub

end Raw

end WB
