import Verif.Model.Clients

/-!
A whole program, from before `main` to after it: `matrix_cache` (sources/wavelet_utils.cc:108) is an object of static storage duration with a constructor and a
destructor. It is constructed before `main` and destroyed after it, in an order relative to the objects of other translation units that is not specified, and it is the
only such object of the library.
-/

namespace WB

variable {α : Type}

/-- Whether `matrix_cache` has been constructed and has not been destroyed. -/
inductive Life where
  | before
  | during
  | after

/-- The state of a program. -/
structure Program (α : Type) where
  life : Life
  world : World α

/-- What happens next: the construction or the destruction of `matrix_cache`, or a call, perhaps from the constructor or destructor of another static object. -/
inductive Happening (α : Type) where
  | born
  | gone
  | call (op : Op α)

/-- One event; `none` is undefined behaviour. A call that asks the cache (sources/wavelet_utils.cc:263 and 370) uses an object outside its lifetime if `matrix_cache` is
not there; other calls do not notice. (`born` and `gone` are not events that can happen twice; here they change nothing then.) -/
def Program.next [Zero α] [Add α] [Mul α] [Neg α] [Inhabited α] (k : Kit α) (s : Program α) : Happening α → Option (Program α × List (Reply α))
  | .born =>
    match s.life with
    | .before => some (⟨.during, s.world⟩, [])
    | _ => some (s, [])
  | .gone =>
    match s.life with
    | .during => some (⟨.after, { s.world with cache := ⟨[], []⟩ }⟩, [])
    | _ => some (s, [])
  | .call op =>
    match s.life with
    | .during => (s.world.step k op).map fun r => (⟨.during, r.1⟩, [r.2])
    | l =>
      match s.world.own.start k op with
      | .ends r => r.map fun r => (⟨l, ⟨s.world.cache, r.1.heap, r.1.handles⟩⟩, [r.2])
      | .asks _ _ => none

/-- A sequence of events with the replies of the calls. -/
def Program.run [Zero α] [Add α] [Mul α] [Neg α] [Inhabited α] (k : Kit α) : Program α → List (Happening α) → Option (Program α × List (Reply α))
  | s, [] => some (s, [])
  | s, e :: es =>
    match s.next k e with
    | none => none
    | some (s', r) =>
      match Program.run k s' es with
      | none => none
      | some (s'', rs) => some (s'', r ++ rs)

/-- The start of a program: no objects, `matrix_cache` not constructed yet. -/
def Program.init : Program α := ⟨.before, World.init⟩

end WB
