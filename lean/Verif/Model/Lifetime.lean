import Verif.Model.World

/-!
Objects that outlive the call they come from: `WaveletBufferView` objects and references returned by the accessors.
-/

namespace WB

variable {α : Type}

/-- A `WaveletBufferView` object, sources/wavelet_buffer_view.cc:10-23 and 66-70: it stores the address of the `WaveletBuffer` object, not of its
`Impl`. (The class cannot be copied or moved: its destructor is declared, wavelet_buffer/wavelet_buffer_view.h:25, and its member is a
`std::unique_ptr`.) -/
structure KeptView where
  object : ℕ
  view : View

/-- `WaveletBufferView::NWaveletDecompositionView`, a `blaze::Subvector` of the channels (wavelet_buffer/wavelet_buffer_view.h:22). -/
structure Window where
  offset : ℕ
  size : ℕ
  deriving DecidableEq

/-- `WaveletBufferView::decompositions`, sources/wavelet_buffer_view.cc:40-42 and 83-86, for a buffer with this number of channels. A view of a const
buffer dereferences the null pointer `buffer_`. The offset and the size are converted from `int` to `size_t`; Blaze throws if their sum,
computed in `size_t`, exceeds the size of the vector (trusted reading of the library). -/
def View.window (v : View) (channels : ℕ) : Outcome Window :=
  let w : Window := ⟨(v.start % 2 ^ 64).toNat, (v.count % 2 ^ 64).toNat⟩
  if v.isConst then .ub
  else if (w.offset + w.size) % 2 ^ 64 ≤ channels then .ok w
  else .throw

/-- `operator[]` of the window: the index is added to the offset in `size_t`; neither Blaze nor the vector checks it. -/
def Window.channel (w : Window) (decs : Decs α) (i : ℕ) : Outcome (List (Mat α)) := rd decs ((w.offset + i) % 2 ^ 64)

/-- Assignment to subband `idx` of `operator[](i)` of the window. -/
def Window.write (w : Window) (decs : Decs α) (i idx : ℕ) (m : Mat α) : Run (Decs α) Unit := setSub decs ((w.offset + i) % 2 ^ 64) idx m

/-- Iteration from `begin()` to `end()`: both are pointers into the vector, and forming one that leaves it is undefined. -/
def Window.all (w : Window) (decs : Decs α) : Outcome (List (List (Mat α))) :=
  if w.offset + w.size ≤ decs.length then .ok ((decs.drop w.offset).take w.size) else .ub

/-- A process in which views and references are kept. A destroyed view is `none`. A reference returned by `parameters()`, `decompositions()`
or `operator[]` (sources/wavelet_buffer.cc:346-365), or by `decompositions()` of a view, leads into the `Impl`; it is represented by the address of that. (References to single subbands
last as long as the `Impl` because nothing resizes the lists; resizing them through the references is not represented.) -/
structure Scene (α : Type) where
  world : World α
  views : List (Option KeptView)
  refs : List ℕ

/-- The state when the process starts. -/
def Scene.init : Scene α := ⟨World.init, [], []⟩

/-- Calls. -/
inductive SceneOp (α : Type) where
  /-- a call of the interface of the buffers -/
  | call (op : Op α)
  /-- `h(start, count)`, kept -/
  | makeView (h : ℕ) (v : View)
  /-- destructor of a view -/
  | dropView (v : ℕ)
  | decomposeView (v : ℕ) (data : List (Mat α)) (den : Denoiser α)
  | composeView (v : ℕ) (scale : ℤ)
  | castView (v : ℕ)
  /-- `decompositions()` of a view; the result contains a reference to the channels -/
  | windowView (v : ℕ)
  /-- keep the references to the parameters and the subbands of `h` -/
  | takeRef (h : ℕ)
  /-- read the parameters and subbands through the references -/
  | readRef (r : ℕ)
  /-- overwrite a subband through the reference -/
  | writeRef (r ch idx : ℕ) (m : Mat α)

/-- What the caller observes. -/
inductive SceneReply (α : Type) where
  | plain (r : Reply α)
  | buffer (b : Buffer α)
  | window (w : Window)

/-- The `Impl` at an address that some `WaveletBuffer` object owns; `none` when it has been deleted. -/
def World.alive (w : World α) (a : ℕ) : Option (Buffer α) := if .holds a ∈ w.handles then w.heap[a]? else none

section
variable [Zero α] [Add α] [Mul α] [Neg α] [Inhabited α]

/-- A call of the interface of the buffers. -/
def Scene.call (k : Kit α) (s : Scene α) (op : Op α) : Option (Scene α × SceneReply α) :=
  (s.world.step k op).map fun r => ({ s with world := r.1 }, .plain r.2)

/-- A call through a view: the object it points to is dereferenced. A view that has been destroyed cannot be used. -/
def Scene.through (k : Kit α) (s : Scene α) (v : ℕ) (f : KeptView → Op α) : Option (Scene α × SceneReply α) :=
  match s.views[v]? with
  | some (some kv) => s.call k (f kv)
  | _ => none

/-- One call; `none` is undefined behaviour. `operator()` (sources/wavelet_buffer.cc:388-394) only takes the address of the object: it must not be
destroyed, but it may have been moved from. The accessors dereference `impl_`. -/
def Scene.step (k : Kit α) (s : Scene α) : SceneOp α → Option (Scene α × SceneReply α)
  | .call op => s.call k op
  | .makeView h v =>
    match s.world.handles[h]? with
    | none => none
    | some .dead => none
    | some _ => some ({ s with views := s.views ++ [some ⟨h, v⟩] }, .plain .done)
  | .dropView v =>
    match s.views[v]? with
    | some (some _) => some ({ s with views := s.views.set v none }, .plain .done)
    | _ => none
  | .decomposeView v data den => s.through k v fun kv => .viewDecompose kv.object kv.view data den
  | .composeView v scale => s.through k v fun kv => .viewCompose kv.object kv.view scale
  | .castView v => s.through k v fun kv => .cast kv.object kv.view
  | .windowView v =>
    match s.views[v]? with
    | some (some kv) =>
      match s.world.find kv.object with
      | some (a, b) =>
        match kv.view.window b.decs.length with
        | .ok w => some ({ s with refs := s.refs ++ [a] }, .window w)
        | .throw => some (s, .plain .threw)
        | .ub => none
      | none => none
    | _ => none
  | .takeRef h =>
    match s.world.find h with
    | some (a, _) => some ({ s with refs := s.refs ++ [a] }, .plain .done)
    | none => none
  | .readRef r =>
    match s.refs[r]? with
    | some a => (s.world.alive a).map fun b => (s, .buffer b)
    | none => none
  | .writeRef r ch idx m =>
    match s.refs[r]? with
    | some a =>
      match s.world.alive a with
      | some b =>
        match setSub b.decs ch idx m with
        | .ok d _ => some ({ s with world := { s.world with heap := s.world.heap.set a { b with decs := d } } }, .plain .done)
        | _ => none
      | none => none
    | none => none

end

end WB
