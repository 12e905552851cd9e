import Verif.Model.Reentrant
import Verif.Spec.Callback
import Verif.Spec.History

/-! Vocabulary for statements about denoisers that call the library. -/

namespace WB.Spec

variable {α β σ : Type}

/-- The calls of a script one after the other, as a history. -/
def scriptRun [Zero α] [Add α] [Mul α] [Neg α] [Inhabited α] (k : Kit α) : World α → Script α β → Option (World α × β)
  | w, .done r => some (w, r)
  | w, .call op next =>
    match w.step k op with
    | none => none
    | some (w', r) => scriptRun k w' (next r)

/-- Whatever the replies are, no call of the script changes, moves or destroys buffer `h`. It may read it: copy it, compose it, convert a view of it. -/
def LeavesAlone (h : ℕ) : Script α β → Prop
  | .done _ => True
  | .call op next => ¬ Changes h op ∧ ∀ r, LeavesAlone h (next r)

/-- The process with other subbands in buffer `h`. -/
def showing (w : World α) (h : ℕ) (d : Decs α) : World α :=
  match w.find h with
  | some (a, b) => { w with heap := w.heap.set a { b with decs := d } }
  | none => w

/-- One call of the denoiser: its state and the process afterwards, and its answer. For 1D signals the subband is a vector, and the answer must have its length. -/
def answerIn [Zero α] [Add α] [Mul α] [Neg α] [Inhabited α] (k : Kit α) (p : Params) (nd : Nested σ α) (s : σ) (w : World α) (m : Mat α) (step : ℕ) :
    Option (σ × World α × Outcome (Mat α)) :=
  if p.dimension = 1 then
    match scriptRun k w (nd.d1 s (m.col 0) step) with
    | some (w', s', .ok v) => some (s', w', if v.length = m.rows then .ok (Mat.ofCol v) else .throw)
    | some (w', s', .throw) => some (s', w', .throw)
    | some (_, _, .ub) => none
    | none => none
  else
    match scriptRun k w (nd.d2 s m step) with
    | some (_, _, .ub) => none
    | some (w', s', o) => some (s', w', o)
    | none => none

/-- A conversation in a process: at each question buffer `h` shows what `seen` says for the answers given so far. -/
def talk (ask : σ → World α → Mat α → ℕ → Option (σ × World α × Outcome (Mat α))) (h : ℕ) (seen : List (Mat α) → Decs α) :
    σ → World α → List (Mat α) → List (Mat α × ℕ) → Option (σ × World α × Reply α)
  | s, w, as, [] => some (s, showing w h (seen as), .bool true)
  | s, w, as, (m, step) :: rest =>
    match ask s (showing w h (seen as)) m step with
    | some (s', w', .ok m') => talk ask h seen s' w' (as ++ [m']) rest
    | some (s', w', .throw) => some (s', w', .threw)
    | some (_, _, .ub) => none
    | none => none

/-- A denoiser that calls nothing. -/
def quiet (den : Denoiser α) : Nested σ α := ⟨fun s v step => .done (s, .ok (den.d1 v step)), fun s m step => .done (s, .ok (den.d2 m step))⟩

/-- A denoiser that destroys buffer `h` and changes nothing else. -/
def destroying (h : ℕ) : Nested σ α := ⟨fun s v _ => .call (.destroy h) fun _ => .done (s, .ok v), fun s m _ => .call (.destroy h) fun _ => .done (s, .ok m)⟩

/-- A denoiser that decomposes what it is given with another buffer, `g`, and then copies buffer `h`; its answer is what it was given. -/
def curious (h g : ℕ) : Nested σ α :=
  ⟨fun s v _ => .call (.decompose1 g v nullDenoiser) fun _ => .call (.copy h) fun _ => .done (s, .ok v),
   fun s m _ => .call (.decompose g [m] nullDenoiser) fun _ => .call (.copy h) fun _ => .done (s, .ok m)⟩

end WB.Spec
