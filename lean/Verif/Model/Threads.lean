import Verif.Model.Buffer
import Mathlib.Logic.Function.Basic

/-!
Small-step model of threads that share the matrix cache (`WaveletMatrixCache`, `sources/wavelet_utils.cc:22-108`): every
lock, lookup, build, insertion, unlock and every copy from a returned reference is one step, and steps of different threads
interleave freely. A reference into a `std::map` is the position of its node; nodes stay valid when others are inserted
(standard guarantee for `std::map`). Mutexes are not recursive: locking a held one blocks, also for its holder.
-/

namespace WB

variable {α : Type}

/-- What a thread asks for: matrices (`DecomposeImpl`, line 263) or transposed ones (`ComposeImpl`, line 371). The padded size
passed along is computed from the parameters. -/
inductive Req where
  | plain (p : Params)
  | transposed (p : Params)

/-- Where a thread is. `nested` tells whether `GenerateMatrices` was called from `GenerateTransMatrices` (line 78). -/
inductive Pc (α : Type) where
  | idle
  | lockMain (p : Params) (nested : Bool)                       -- line 39
  | findMain (p : Params) (nested : Bool)                       -- lines 41-44
  | build (p : Params) (nested : Bool)                          -- lines 46-56
  | insertMain (p : Params) (nested : Bool) (s : Stack α)       -- line 58
  | unlockMain (p : Params) (nested : Bool) (r : Outcome ℕ)     -- end of scope, reference or exception returned
  | copyMain (p : Params) (nested : Bool) (ref : ℕ)             -- line 262 or 78
  | lockTrans (p : Params)                                      -- line 70
  | findTrans (p : Params)                                      -- lines 72-75
  | transpose (p : Params) (s : Stack α)                        -- lines 79-83
  | insertTrans (p : Params) (s : Stack α)                      -- line 85
  | unlockTrans (r : Outcome ℕ)                                 -- end of scope
  | copyTrans (ref : ℕ)                                         -- line 371

/-- A thread: position, requests not yet served (the first is being served), results so far. -/
structure Thread (α : Type) where
  pc : Pc α
  todo : List Req
  results : List (Outcome (Stack α))

/-- The shared state with `n` threads. -/
structure Shared (α : Type) (n : ℕ) where
  main : List (Params × Stack α)
  trans : List (Params × Stack α)
  mutex : Option (Fin n)
  transMutex : Option (Fin n)
  threads : Fin n → Thread α

/-- `std::map::find`: position of the node with an equivalent key. -/
def findRef (m : List (Params × Stack α)) (p : Params) : Option ℕ :=
  m.findIdx? (fun e => !(Params.ltOp e.1 p) && !(Params.ltOp p e.1))

/-- `std::map::insert`: position of the node with that key, an existing one is kept. -/
def insertRef (m : List (Params × Stack α)) (p : Params) (s : Stack α) : List (Params × Stack α) × ℕ :=
  match findRef m p with
  | some i => (m, i)
  | none => (m ++ [(p, s)], m.length)

/-- Copy what a reference refers to; a dangling reference is undefined behaviour. -/
def copyRef (m : List (Params × Stack α)) (i : ℕ) : Outcome (Stack α) := do
  let e ← rd m i
  pure e.2

/-- The request being served is finished with a result. -/
def Thread.finish (t : Thread α) (r : Outcome (Stack α)) : Thread α := ⟨.idle, t.todo.tail, t.results ++ [r]⟩

/-- Forget the value of a failed result. -/
def castErr {β γ : Type} : Outcome β → Outcome γ
  | .ub => .ub
  | _ => .throw

variable {n : ℕ}

/-- Replace thread `i`. -/
def Shared.setThread (s : Shared α n) (i : Fin n) (t : Thread α) : Shared α n :=
  { s with threads := Function.update s.threads i t }

/-- Move thread `i` to another position. -/
def Shared.goto (s : Shared α n) (i : Fin n) (pc : Pc α) : Shared α n := s.setThread i { s.threads i with pc := pc }

/-- One step of thread `i`; `none` when it is blocked by a mutex or has nothing to do. -/
def Shared.step [Neg α] (k : Kit α) (s : Shared α n) (i : Fin n) : Option (Shared α n) :=
  match (s.threads i).pc with
  | .idle => match (s.threads i).todo with
    | [] => none
    | .plain p :: _ => some (s.goto i (.lockMain p false))
    | .transposed p :: _ => some (s.goto i (.lockTrans p))
  | .lockMain p nested => match s.mutex with
    | none => some ({ s with mutex := some i }.goto i (.findMain p nested))
    | some _ => none
  | .findMain p nested => match findRef s.main p with
    | some ref => some (s.goto i (.unlockMain p nested (.ok ref)))
    | none => some (s.goto i (.build p nested))
  | .build p nested => match buildStack k (paddedShape p) p with
    | .ok st => some (s.goto i (.insertMain p nested st))
    | e => some (s.goto i (.unlockMain p nested (castErr e)))
  | .insertMain p nested st =>
    some ({ s with main := (insertRef s.main p st).1 }.goto i (.unlockMain p nested (.ok (insertRef s.main p st).2)))
  | .unlockMain p nested r => match r with
    | .ok ref => some ({ s with mutex := none }.goto i (.copyMain p nested ref))
    | e => if nested then some ({ s with mutex := none }.goto i (.unlockTrans (castErr e)))
           else some ({ s with mutex := none }.setThread i ((s.threads i).finish (castErr e)))
  | .copyMain p nested ref => match copyRef s.main ref with
    | .ok st => if nested then some (s.goto i (.transpose p st)) else some (s.setThread i ((s.threads i).finish (.ok st)))
    | e => if nested then some (s.goto i (.unlockTrans (castErr e))) else some (s.setThread i ((s.threads i).finish (castErr e)))
  | .lockTrans p => match s.transMutex with
    | none => some ({ s with transMutex := some i }.goto i (.findTrans p))
    | some _ => none
  | .findTrans p => match findRef s.trans p with
    | some ref => some (s.goto i (.unlockTrans (.ok ref)))
    | none => some (s.goto i (.lockMain p true))
  | .transpose p st => some (s.goto i (.insertTrans p (transStack st)))
  | .insertTrans p st =>
    some ({ s with trans := (insertRef s.trans p st).1 }.goto i (.unlockTrans (.ok (insertRef s.trans p st).2)))
  | .unlockTrans r => match r with
    | .ok ref => some ({ s with transMutex := none }.goto i (.copyTrans ref))
    | e => some ({ s with transMutex := none }.setThread i ((s.threads i).finish (castErr e)))
  | .copyTrans ref => some (s.setThread i ((s.threads i).finish (copyRef s.trans ref)))

/-- Start of the process: empty cache, no lock held, every thread with its requests. -/
def Shared.init (reqs : Fin n → List Req) : Shared α n :=
  ⟨[], [], none, none, fun i => ⟨.idle, reqs i, []⟩⟩

end WB
