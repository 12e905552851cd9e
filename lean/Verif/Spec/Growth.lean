import Verif.Model.World
import Verif.Model.Threads

/-!
Vocabulary for statements about the memory of the matrix cache.
-/

namespace WB.Spec

variable {α : Type}

/-- The parameters a map of the cache has entries for. -/
def keysOf (m : List (Params × Stack α)) : List Params := m.map Prod.fst

/-- The buffer a call decomposes or composes. -/
def transforms : Op α → Option ℕ
  | .decompose h _ _ | .decompose1 h _ _ | .compose h _ | .compose1 h _ | .viewDecompose h _ _ _ | .viewCompose h _ _ => some h
  | _ => none

/-- The call is a constructor with the parameters `p`. -/
def Constructs (p : Params) : Op α → Prop
  | .construct q => q = p
  | .constructWith q _ => q = p
  | _ => False

/-- The call is the conversion of a view to a buffer. -/
def Casts : Op α → Prop
  | .cast _ _ => True
  | _ => False

/-- At most one entry has been added to a map, behind the old ones, under a key it did not have. -/
def GrewBy (p : Params) (m m' : List (Params × Stack α)) : Prop := m' = m ∨ (p ∉ keysOf m ∧ ∃ s, m' = m ++ [(p, s)])

/-- The number of numbers stored in the matrices of an entry. -/
def numbersIn (s : Stack α) : ℕ := (s.map fun l => (l.map fun m => (m.rowsE.map List.length).sum).sum).sum

/-- Some thread asks for matrices for these parameters. -/
def AskedFor {n : ℕ} (reqs : Fin n → List Req) (p : Params) : Prop := ∃ i, .plain p ∈ reqs i ∨ .transposed p ∈ reqs i

end WB.Spec
