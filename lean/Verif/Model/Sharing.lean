import Verif.Model.Clients

/-!
Threads with buffers of their own and buffers that all of them see. The common ones were made before the threads started.
-/

namespace WB

variable {α : Type} {n : ℕ}

/-- The common buffers in front of a thread's own: handles and addresses of its own count on from those of the common ones. -/
def Own.behind (o pub : Own α) : Own α := ⟨pub.heap ++ o.heap, pub.handles ++ o.handles⟩

/-- Between two calls, in a call that has asked the cache, or after undefined behaviour. -/
inductive Busy (α : Type) where
  | free
  | waiting (op : Op α)
  | crashed

/-- A thread with its own buffers and the replies it has got. -/
structure Member (α : Type) where
  own : Own α
  replies : List (Reply α)
  doing : Busy α

/-- The process: the shared cache with the threads' positions in it, the common buffers, and what each thread has for
itself. -/
structure Team (α : Type) (n : ℕ) where
  shared : Shared α n
  pub : Own α
  members : Fin n → Member α

/-- The buffers a thread can name. -/
def Team.view (s : Team α n) (i : Fin n) : Own α := (s.members i).own.behind s.pub

/-- A call of thread `i` is over. Whatever it did to the buffers, common or own, is done. -/
def Team.reply (s : Team α n) (i : Fin n) (r : Option (Own α × Reply α)) : Team α n :=
  match r with
  | some (o, x) =>
    { s with
      pub := ⟨o.heap.take s.pub.heap.length, o.handles.take s.pub.handles.length⟩
      members := Function.update s.members i
        ⟨⟨o.heap.drop s.pub.heap.length, o.handles.drop s.pub.handles.length⟩, (s.members i).replies ++ [x], .free⟩ }
  | none => { s with members := Function.update s.members i { s.members i with doing := .crashed } }

/-- One step of thread `i`; `none` when it is blocked, finished or crashed. A call that has got the answer of the cache goes
on with the buffers as they are then (sources/wavelet_utils.cc:263-296, 370-413: the subbands are used after the cache was
asked). -/
def Team.step [Zero α] [Add α] [Mul α] [Neg α] [Inhabited α] (k : Kit α) (progs : Fin n → Prog α) (s : Team α n) (i : Fin n) :
    Option (Team α n) :=
  match (s.members i).doing with
  | .crashed => none
  | .free =>
    match progs i (s.view i) (s.members i).replies with
    | none => none
    | some op =>
      match (s.view i).start k op with
      | .ends r => some (s.reply i r)
      | .asks q _ =>
        some { s with
          shared := s.shared.setThread i ((s.shared.threads i).push q)
          members := Function.update s.members i { s.members i with doing := .waiting op } }
  | .waiting op =>
    match (s.shared.threads i).pc, (s.shared.threads i).todo with
    | .idle, [] =>
      match (s.shared.threads i).results.getLast? with
      | none => none
      | some x =>
        match (s.view i).start k op with
        | .asks _ rest => some (s.reply i (rest x))
        | .ends _ => some (s.reply i none)
    | _, _ =>
      match s.shared.step k i with
      | none => none
      | some sh => some { s with shared := sh }

/-- The moment the threads start in a process with these buffers and this cache. -/
def Team.start (w : World α) : Team α n :=
  ⟨⟨w.cache.main, w.cache.trans, none, none, fun _ => ⟨.idle, [], []⟩⟩, w.own, fun _ => ⟨⟨[], []⟩, [], .free⟩⟩

end WB
