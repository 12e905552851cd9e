import Verif.Spec.Untrusted

/-!
Vocabulary for statements about archiving again what `Parse` has returned.
-/

namespace WB.Spec

/-- Blaze's readers for the encodings that this code never writes return matrices whose sides are values of `size_t`. -/
structure SidesInRange (e : Ext) : Prop where
  mat : ∀ t r c n s m w, e.otherMat t r c n s = .ok (m, w) → m.rows < 2 ^ 64 ∧ m.cols < 2 ^ 64
  channel : ∀ t k n s c w, e.otherChannel t k n s = .ok (c, w) → ∀ m ∈ c, m.rows < 2 ^ 64 ∧ m.cols < 2 ^ 64
  channels : ∀ t k n s d w, e.otherDecs t k n s = .ok (d, w) → ∀ c ∈ d, ∀ m ∈ c, m.rows < 2 ^ 64 ∧ m.cols < 2 ^ 64

/-- The archive is one whose layout `Parse` does not compare with the parameters: not version 3, and level 0. -/
def OldPlain (blob : Bytes) (p : Params) : Prop :=
  ∃ v rest, v ≠ 3 ∧ blob = [v] ++ encodeParams p ++ [0] ++ rest

end WB.Spec
