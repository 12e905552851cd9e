import Verif.Model.Mat
import Mathlib.Algebra.Group.Defs

/-!
Model of `sources/wavelet.cc`. The scalar type is arbitrary: only `0`, `+`, `*` and `-` are used, no laws are assumed,
so the definitions also describe IEEE floats. The order of summation is that of the loops.
-/

namespace WB

/-- The scalar constants and functions the transforms use beside `0 + * -`. -/
structure Kit (α : Type) where
  /-- `dbwavf(n)`: scaling filter, sources/wavelet.cc:158-217 -/
  dbwavf : ℕ → List α
  /-- `std::sqrt(2) * x`, sources/wavelet.cc:249 -/
  mulSqrt2 : α → α
  /-- `x / pow(dimension == 2 ? 2 : sqrt(2), steps)`, sources/wavelet_utils.cc:428-435; the flag says 2D -/
  divFactor : Bool → ℕ → α → α

variable {α : Type}

/-- The lambda `qmf`, sources/wavelet.cc:221-242: reverse, then negate every second entry starting with index 1 (even
length) or 2 (odd length). -/
def qmf [Neg α] (x : List α) : List α :=
  let first := if x.length % 2 = 0 then 1 else 2
  x.reverse.mapIdx (fun i v => if first ≤ i ∧ (i - first) % 2 = 0 then -v else v)

/-- The four filters of `Orthfilt`. -/
structure Filters (α : Type) where
  loD : List α
  hiD : List α
  loR : List α
  hiR : List α

/-- `Orthfilt`, sources/wavelet.cc:219-270 (the unused sum at 257-258 is dropped). -/
def orthfilt [Neg α] (k : Kit α) (w : List α) : Filters α :=
  let loR := w.map k.mulSqrt2
  let hiR := qmf loR
  { loD := loR.reverse, hiD := hiR.reverse, loR := loR, hiR := hiR }

/-- `dwt` with a two-row filter matrix, sources/wavelet.cc:321-343: one output value for the filter row `f`. -/
def dwtAt [Zero α] [Add α] [Mul α] (x f : List α) (i : ℕ) : Outcome α :=
  (List.range f.length).foldlM (fun acc j => do
    let index := i * 2 + j
    let index := if index ≥ x.length then index - x.length else index
    let s ← rd x index
    let c ← rd f j
    pure (acc + s * c)) 0

/-- `dwt`, sources/wavelet.cc:321-357, branch `dmat.rows() == 2` (the only one the buffer uses); `lo`/`hi` are the rows
of `dmat`. The two accumulators are independent, so they are computed one after the other. -/
def dwt [Zero α] [Add α] [Mul α] (x lo hi : List α) : Outcome (List α × List α) := do
  let low ← (List.range (x.length / 2)).mapM (dwtAt x lo)
  let high ← (List.range (x.length / 2)).mapM (dwtAt x hi)
  pure (low, high)

/-- One output sample of `idwt`, sources/wavelet.cc:368-387. `dmat.columns() - 2` and `low.size() - padding/2` are unsigned
subtractions: a negative result is reported as `ub` because the index built from it is out of range. -/
def idwtAt [Zero α] [Add α] [Mul α] (low high lo hi : List α) (i : ℕ) : Outcome α :=
  (List.range ((lo.length + 1) / 2)).foldlM (fun acc jj => do
    let j := 2 * jj
    let j0 := if i % 2 = 0 then 1 else 0
    if lo.length < 2 ∨ low.length < (lo.length - 2) / 2 then .ub
    else do
      let i0 := low.length - (lo.length - 2) / 2
      let k := i0 + i / 2 + j / 2
      let k := if k ≥ low.length then k - low.length else k
      let c0 ← rd lo (j0 + j)
      let l ← rd low k
      let c1 ← rd hi (j0 + j)
      let h ← rd high k
      pure (acc + c0 * l + c1 * h)) 0

/-- `idwt`, sources/wavelet.cc:359-399, branch `dmat.rows() == 2`; `lo`/`hi` are the rows of `dmat`. -/
def idwt [Zero α] [Add α] [Mul α] (low high lo hi : List α) : Outcome (List α) :=
  (List.range (low.length * 2)).mapM (idwtAt low high lo hi)

/-- A sparse matrix (`blaze::CompressedMatrix`): for every row the list of (column, value) entries. -/
structure SpMat (α : Type) where
  cols : ℕ
  rowsE : List (List (ℕ × α))

namespace SpMat

/-- Number of rows. -/
def rows (m : SpMat α) : ℕ := m.rowsE.length

/-- `blaze::transpose(matrix)`: row `j` of the result lists the entries of column `j` in the order of the rows. -/
def transpose (m : SpMat α) : SpMat α :=
  { cols := m.rowsE.length
    rowsE := (List.range m.cols).map (fun j =>
      m.rowsE.zipIdx.flatMap (fun (r, i) => (r.filter (fun e => e.1 = j)).map (fun e => (i, e.2)))) }

/-- One component of the product of a sparse matrix with a dense vector: products are added in storage order,
starting from zero. -/
def rowMul [Zero α] [Add α] [Mul α] (r : List (ℕ × α)) (x : List α) : Outcome α :=
  r.foldlM (fun acc e => do
    let v ← rd x e.1
    pure (acc + e.2 * v)) 0

/-- `dmat * x`; blaze throws when the sizes differ. -/
def mulVec [Zero α] [Add α] [Mul α] (m : SpMat α) (x : List α) : Outcome (List α) :=
  if m.cols ≠ x.length then .throw else m.rowsE.mapM (fun r => rowMul r x)

end SpMat

/-- The entries one filter row appends, in the order of the loop at sources/wavelet.cc:23-39 (low) and 45-61 (high): `f`
is the reversed filter, `n` the matrix size, `i` the filter position. The first component is the column. -/
def daubRow (f : List α) (n i : ℕ) : Outcome (List (ℕ × α)) :=
  let ci0 := if n - 2 * i > f.length then 0 else n - 2 * i
  (List.range f.length).foldlM (fun (st : ℕ × List (ℕ × α)) _ => do
      let ci := if st.1 ≥ f.length then st.1 % f.length else st.1
      let j := i * 2 + ci
      let j := if j ≥ n then j % n else j
      let v ← rd f ci
      pure (ci + 1, st.2 ++ [(j, v)])) (ci0, [])
    >>= fun st => pure st.2

/-- `append` requires strictly increasing columns below the number of columns; otherwise the matrix is corrupted
(blaze only asserts this in debug builds). -/
def appendOk (n : ℕ) (r : List (ℕ × α)) : Bool :=
  (r.map Prod.fst).Pairwise (· < ·) && r.all (fun e => e.1 < n)

/-- `DaubechiesMat(size, order)` with the default periodized boundary, sources/wavelet.cc:7-63. Row `i < size/2` holds the
low filter, row `size/2 + i` the high filter. (For odd `size` the last row stays empty; the buffer never asks for
that.) -/
def daubechiesMat [Neg α] (k : Kit α) (size order : ℕ) : Outcome (SpMat α) := do
  let f := orthfilt k (k.dbwavf (order / 2))
  let lo ← (List.range (size / 2)).mapM (daubRow f.loD.reverse size)
  let hi ← (List.range (size / 2)).mapM (daubRow f.hiD.reverse size)
  let rows := lo ++ hi
  if rows.all (appendOk size) then
    pure { cols := size, rowsE := rows ++ List.replicate (size % 2) [] }
  else .ub

/-- `dwt2s`, sources/wavelet.cc:271-298: every row is multiplied by `w`, then every column by `h`. The assignment of a
product to a row/column of the result throws when the sizes differ. -/
def dwt2s [Zero α] [Add α] [Mul α] [Inhabited α] (x : Mat α) (w h : SpMat α) : Outcome (Mat α) := do
  let rs ← (List.range x.rows).mapM (fun i => w.mulVec (x.row i))
  if ¬ rs.all (fun r => r.length = x.cols) then .throw
  else do
    let inter := Mat.ofFn x.rows x.cols (fun i j => (rs.getD i []).getD j default)
    let cs ← (List.range x.cols).mapM (fun j => h.mulVec (inter.col j))
    if ¬ cs.all (fun c => c.length = x.rows) then .throw
    else pure (Mat.ofFn x.rows x.cols (fun i j => (cs.getD j []).getD i default))

/-- `submatrix(m, r0, c0, nr, nc)` as a new matrix; throws when the rectangle is not inside the matrix. -/
def subMat [Inhabited α] (m : Mat α) (r0 c0 nr nc : ℕ) : Outcome (Mat α) :=
  if r0 + nr ≤ m.rows ∧ c0 + nc ≤ m.cols then
    .ok (Mat.ofFn nr nc (fun i j => m.get (r0 + i) (c0 + j)))
  else .throw

/-- The four subbands of one 2D step. -/
structure Quad (α : Type) where
  ll : Mat α
  lh : Mat α
  hl : Mat α
  hh : Mat α

/-- `dwt2`, sources/wavelet.cc:137-156. -/
def dwt2 [Zero α] [Add α] [Mul α] [Inhabited α] (x : Mat α) (w h : SpMat α) : Outcome (Quad α) := do
  let r ← dwt2s x w h
  let sw := w.cols / 2
  let sh := h.cols / 2
  let ll ← subMat r 0 0 sh sw
  let lh ← subMat r sh 0 sh sw
  let hl ← subMat r 0 sw sh sw
  let hh ← subMat r sh sw sh sw
  pure ⟨ll, lh, hl, hh⟩

/-- `idwt2`, sources/wavelet.cc:300-319; `w`, `h` are the (transposed) matrices. -/
def idwt2 [Zero α] [Add α] [Mul α] [Inhabited α] (q : Quad α) (w h : SpMat α) : Outcome (Mat α) := do
  let m : Raw α := Raw.new h.rows w.rows
  let m ← m.fill 0 0 q.ll.rows q.ll.cols q.ll.get
  let m ← m.fill q.ll.rows 0 q.lh.rows q.lh.cols q.lh.get
  let m ← m.fill 0 q.ll.cols q.hl.rows q.hl.cols q.hl.get
  let m ← m.fill q.ll.rows q.ll.cols q.hh.rows q.hh.cols q.hh.get
  let out ← m.done
  dwt2s out w h

end WB
