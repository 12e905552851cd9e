import Verif.Model.Wavelet
import Mathlib.Algebra.Order.Ring.Int

/-!
The parts of `sources/wavelet.cc` that are in the public header but not used by the buffer: the 1D transforms with a full matrix, and the
transform matrix with zero-derivative boundary.
-/

namespace WB

variable {α : Type}

/-- `dmat(i, j)` of a `const CompressedMatrix`: the stored value, or zero. -/
def SpMat.entry [Zero α] (m : SpMat α) (i j : ℕ) : α :=
  (((m.rowsE.getD i []).find? (fun e => e.1 = j)).map Prod.snd).getD 0

/-- A row of the matrix as a filter: `dmat(i, 0) … dmat(i, columns() - 1)`. -/
def SpMat.filterRow [Zero α] (m : SpMat α) (i : ℕ) : List α := (List.range m.cols).map (m.entry i)

/-- `blaze::subvector(v, start, n)`; throws when it is not inside the vector. -/
def subVec (v : List α) (start n : ℕ) : Outcome (List α) :=
  if start + n ≤ v.length then .ok ((v.drop start).take n) else .throw

/-- `dwt`, sources/wavelet.cc:321-357, all branches: two rows (filters, 330-343), as many columns as samples (344-349), otherwise two empty
vectors (351-353). -/
def dwtMat [Zero α] [Add α] [Mul α] (x : List α) (m : SpMat α) : Outcome (List α × List α) :=
  if m.rows = 2 then dwt x (m.filterRow 0) (m.filterRow 1)
  else if x.length = m.cols then do
    let encoded ← m.mulVec x
    let low ← subVec encoded 0 (x.length / 2)
    let high ← subVec encoded (x.length / 2) (x.length / 2)
    pure (low, high)
  else .ok ([], [])

/-- `idwt`, sources/wavelet.cc:359-399, both branches. The vector that receives the product takes its size. -/
def idwtMat [Zero α] [Add α] [Mul α] (low high : List α) (m : SpMat α) : Outcome (List α) :=
  if m.rows = 2 then idwt low high (m.filterRow 0) (m.filterRow 1) else m.mulVec (low ++ high)

/-- The entries one filter row appends with `Padding::ZeroDerivative`, sources/wavelet.cc:69-98 (low) and 102-131 (high): `f` is the reversed
filter, `n` the matrix size, `i` the filter position. `int` and `size_t` are integers here (sizes below 2^31). -/
def zeroDerivRow [Zero α] [Add α] (f : List α) (n i : ℕ) : Outcome (List (ℕ × α)) := do
  let leftPadding : ℤ := (f.length - 1) / 2
  let j0 : ℤ := -leftPadding + 2 * i
  let lp ← (List.range (-j0).toNat).foldlM (fun acc k => do
    let c ← rd f k
    pure (acc + c)) 0
  let l : ℤ := j0 + f.length - n
  let rp ← (List.range l.toNat).foldlM (fun acc k => do
    if f.length < k + 1 then .ub
    else
      let c ← rd f (f.length - 1 - k)
      pure (acc + c)) 0
  let row := (List.range f.length).filterMap (fun (k : ℕ) =>
    let j : ℤ := j0 + k
    if j = 0 then some (j.toNat, lp + f.getD k 0)
    else if j = n - 1 then some (j.toNat, rp + f.getD k 0)
    else if 0 < j ∧ j < n - 1 then some (j.toNat, f.getD k 0)
    else none)
  pure row

/-- `DaubechiesMat(size, order, Padding::ZeroDerivative)`, sources/wavelet.cc:7-20 and 64-135. For odd `size` the last row stays empty. -/
def zeroDerivMat [Zero α] [Add α] [Neg α] (k : Kit α) (size order : ℕ) : Outcome (SpMat α) := do
  let f := orthfilt k (k.dbwavf (order / 2))
  let lo ← (List.range (size / 2)).mapM (zeroDerivRow f.loD.reverse size)
  let hi ← (List.range (size / 2)).mapM (zeroDerivRow f.hiD.reverse size)
  let rows := lo ++ hi
  if rows.all (appendOk size) then
    pure { cols := size, rowsE := rows ++ List.replicate (size % 2) [] }
  else .ub

end WB
