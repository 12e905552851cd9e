import Verif.Model.Buffer

/-!
A process: `WaveletBuffer` objects (handles), the `Impl` objects they own through `std::unique_ptr`, and the process-wide matrix
cache. One `Op` is one call of the public interface; a history is a list of calls.
-/

namespace WB

variable {α : Type}

/-- A `WaveletBuffer` object: destroyed, moved-from (`impl_ == nullptr`), or owner of the `Impl` at an address
(wavelet_buffer/wavelet_buffer.h, member `std::unique_ptr<Impl> impl_`). -/
inductive Slot where
  | dead
  | null
  | holds (addr : ℕ)
  deriving DecidableEq, Repr

/-- The state of a process. Addresses of `Impl` objects are positions in `heap`; an object nobody owns any more stays there
unreachable (addresses are not reused in the model). -/
structure World (α : Type) where
  cache : Cache α
  heap : List (Buffer α)
  handles : List Slot

/-- The state when the process starts. -/
def World.init : World α := ⟨⟨[], []⟩, [], []⟩

/-- Calls of the public interface. `h`, `g` are handles; calls that create a buffer append a handle. -/
inductive Op (α : Type) where
  /-- `WaveletBuffer(WaveletParameters)` -/
  | construct (p : Params)
  /-- `WaveletBuffer(WaveletParameters, NWaveletDecomposition)`; also the last action of a successful `Parse` -/
  | constructWith (p : Params) (decs : Decs α)
  /-- copy constructor -/
  | copy (h : ℕ)
  /-- move constructor -/
  | move (h : ℕ)
  /-- copy assignment `h = g` -/
  | assign (h g : ℕ)
  /-- move assignment `h = std::move(g)` -/
  | moveAssign (h g : ℕ)
  /-- destructor -/
  | destroy (h : ℕ)
  | decompose (h : ℕ) (data : List (Mat α)) (den : Denoiser α)
  | decompose1 (h : ℕ) (data : List α) (den : Denoiser α)
  | compose (h : ℕ) (scale : ℤ)
  | compose1 (h : ℕ) (scale : ℤ)
  | viewDecompose (h : ℕ) (v : View) (data : List (Mat α)) (den : Denoiser α)
  | viewCompose (h : ℕ) (v : View) (scale : ℤ)
  /-- conversion of a view to a buffer -/
  | cast (h : ℕ) (v : View)
  /-- `buffer[ch][idx] = m` through the mutable accessors -/
  | write (h ch idx : ℕ) (m : Mat α)

/-- What the caller observes. `signals none` is the return value `false` of `Compose`. -/
inductive Reply (α : Type) where
  | done
  | threw
  | bool (b : Bool)
  | signals (s : Option (List (Mat α)))
  | vector (v : List α)

/-- The `Impl` a handle owns; `none` when the handle cannot be dereferenced. -/
def World.find (w : World α) (h : ℕ) : Option (ℕ × Buffer α) :=
  match w.handles[h]? with
  | some (.holds a) => (w.heap[a]?).map (fun b => (a, b))
  | _ => none

/-- The buffer a handle owns. -/
def World.content (w : World α) (h : ℕ) : Option (Buffer α) := (w.find h).map Prod.snd

/-- `std::make_unique<Impl>(...)` stored in a new handle. -/
def World.alloc (w : World α) (b : Buffer α) : World α :=
  { w with heap := w.heap ++ [b], handles := w.handles ++ [.holds w.heap.length] }

/-- A constructor call. -/
def World.build (w : World α) (o : Outcome (Buffer α)) : Option (World α × Reply α) :=
  match o with
  | .ok b => some (w.alloc b, .done)
  | .throw => some (w, .threw)
  | .ub => none

/-- A call that may change the subbands of the `Impl` at an address. -/
def World.update (w : World α) (a : ℕ) (b : Buffer α) (r : Cache α × Run (Decs α) Bool) : Option (World α × Reply α) :=
  match r.2 with
  | .ok d x => some ({ w with cache := r.1, heap := w.heap.set a { b with decs := d } }, .bool x)
  | .throw d => some ({ w with cache := r.1, heap := w.heap.set a { b with decs := d } }, .threw)
  | .ub => none

/-- A call that only reads. -/
def World.query (w : World α) (r : Cache α × Outcome (Reply α)) : Option (World α × Reply α) :=
  match r.2 with
  | .ok x => some ({ w with cache := r.1 }, x)
  | .throw => some ({ w with cache := r.1 }, .threw)
  | .ub => none

section Step
variable [Zero α] [Add α] [Mul α] [Neg α] [Inhabited α]

/-- One call; `none` is undefined behaviour. Sources: constructors sources/wavelet_buffer.cc:299-311, assignments 375-380,
`Decompose`/`Compose` 96-140, views sources/wavelet_buffer_view.cc:25-64, mutable accessors sources/wavelet_buffer.cc:346, 359.
`impl_ = std::make_unique<Impl>(*buffer.impl_)` (375-378) allocates before the old `Impl` is released. Move assignment of a
`std::unique_ptr` to itself keeps the object. -/
def World.step (k : Kit α) (w : World α) : Op α → Option (World α × Reply α)
  | .construct p => w.build (ctor p)
  | .constructWith p decs => w.build (ctorWith p decs)
  | .copy h =>
    match w.find h with
    | some (_, b) => some (w.alloc b, .done)
    | none => none
  | .move h =>
    match w.handles[h]? with
    | none => none
    | some .dead => none
    | some s => some ({ w with handles := w.handles.set h .null ++ [s] }, .done)
  | .assign h g =>
    match w.handles[h]?, w.find g with
    | some .dead, _ => none
    | some _, some (_, b) =>
      some ({ w with heap := w.heap ++ [b], handles := w.handles.set h (.holds w.heap.length) }, .done)
    | _, _ => none
  | .moveAssign h g =>
    match w.handles[h]?, w.handles[g]? with
    | some .dead, _ => none
    | _, some .dead => none
    | some _, some s =>
      if h = g then some (w, .done)
      else some ({ w with handles := (w.handles.set g .null).set h s }, .done)
    | _, _ => none
  | .destroy h =>
    match w.handles[h]? with
    | none => none
    | some .dead => none
    | some _ => some ({ w with handles := w.handles.set h .dead }, .done)
  | .decompose h data den =>
    match w.find h with
    | some (a, b) => w.update a b (decomposeCached k w.cache b.params b.decs data den 0 b.params.signalNumber)
    | none => none
  | .decompose1 h data den =>
    match w.find h with
    | some (a, b) => w.update a b (decomposeCached k w.cache b.params b.decs [Mat.ofCol data] den 0 1)
    | none => none
  | .compose h scale =>
    match w.find h with
    | some (_, b) =>
      let r := composeCached k w.cache b.params b.decs scale 0 b.params.signalNumber
      w.query (r.1, r.2 >>= fun ms => pure (.signals (some ms)))
    | none => none
  | .compose1 h scale =>
    match w.find h with
    | some (_, b) =>
      let r := composeCached k w.cache b.params b.decs scale 0 b.params.signalNumber
      w.query (r.1, r.2 >>= fun ms => rd ms 0 >>= fun m => column0 m >>= fun v => pure (.vector v))
    | none => none
  | .viewDecompose h v data den =>
    match w.find h with
    | some (a, b) =>
      match v.checkRange b.params.signalNumber with
      | .ok true =>
        if v.isConst then none
        else w.update a b (decomposeCached k w.cache b.params b.decs data den v.start v.count)
      | .ok false => some (w, .bool false)
      | _ => none
    | none => none
  | .viewCompose h v scale =>
    match w.find h with
    | some (_, b) =>
      match v.checkRange b.params.signalNumber with
      | .ok true =>
        let r := composeCached k w.cache b.params b.decs scale v.start v.count
        w.query (r.1, r.2 >>= fun ms => pure (.signals (some ms)))
      | .ok false => some (w, .signals none)
      | _ => none
    | none => none
  | .cast h v =>
    match w.find h with
    | some (_, b) => w.build (v.cast b)
    | none => none
  | .write h ch idx m =>
    match w.find h with
    | some (a, b) =>
      match setSub b.decs ch idx m with
      | .ok d _ => some ({ w with heap := w.heap.set a { b with decs := d } }, .done)
      | _ => none
    | none => none

/-- A history of calls and the replies; `none` when some call has undefined behaviour. -/
def World.run (k : Kit α) : World α → List (Op α) → Option (World α × List (Reply α))
  | w, [] => some (w, [])
  | w, op :: ops =>
    match w.step k op with
    | none => none
    | some (w', r) =>
      match World.run k w' ops with
      | none => none
      | some (w'', rs) => some (w'', r :: rs)

end Step

end WB
