import Verif.Model.Buffer

/-!
Model of `WaveletBuffer::operator==` and `operator!=` (`sources/wavelet_buffer.cc:222-225, 367-373`). The comparison of
samples is Blaze's (a tolerance, not symmetric in general) and is a parameter.
-/

namespace WB

variable {α : Type}

/-- Blaze's `==` of vectors: equal sizes and element-wise equality. -/
def vecEq {β : Type} (eq : β → β → Bool) (a b : List β) : Bool :=
  a.length == b.length && (List.zipWith eq a b).all id

/-- Blaze's `==` of matrices: equal sizes and element-wise equality. -/
def matEq (eq : α → α → Bool) (a b : Mat α) : Bool :=
  a.rows == b.rows && a.cols == b.cols && (List.zipWith eq a.data b.data).all id

/-- `Impl::operator==`, sources/wavelet_buffer.cc:222-225. -/
def Buffer.eqOp (eq : α → α → Bool) (a b : Buffer α) : Bool :=
  Params.eqOp a.params b.params && vecEq (vecEq (matEq eq)) a.decs b.decs

/-- `WaveletBuffer::operator!=`, sources/wavelet_buffer.cc:371-373: the operands are swapped. (`Impl::operator!=` at line 227
calls itself and is never used.) -/
def Buffer.neOp (eq : α → α → Bool) (a b : Buffer α) : Bool := !(Buffer.eqOp eq b a)

end WB
