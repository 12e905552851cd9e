import Verif.Model.Callback
import Verif.Spec.Signal

/-! Vocabulary for statements about denoisers with a state. -/

namespace WB.Spec

variable {α σ : Type} [Inhabited α]

/-- What a denoiser answers for a subband: for 1D signals the subband is a vector, and the answer must have its length. -/
def answer (p : Params) (cb : Callback σ α) (s : σ) (m : Mat α) (step : ℕ) : σ × Outcome (Mat α) :=
  if p.dimension = 1 then
    match cb.d1 s (m.col 0) step with
    | (s', .ok v) => (s', if v.length = m.rows then .ok (Mat.ofCol v) else .throw)
    | (s', .throw) => (s', .throw)
    | (s', .ub) => (s', .ub)
  else cb.d2 s m step

/-- A conversation: the denoiser is asked about one subband after the other, each time in the state the last call has left, until it
throws. The result is the state after it, the answers, and how it ended. -/
def converse (ask : σ → Mat α → ℕ → σ × Outcome (Mat α)) : σ → List (Mat α × ℕ) → σ × List (Mat α) × Outcome Unit
  | s, [] => (s, [], .ok ())
  | s, (m, step) :: rest =>
    match ask s m step with
    | (s', .ok m') => ((converse ask s' rest).1, m' :: (converse ask s' rest).2.1, (converse ask s' rest).2.2)
    | (s', .throw) => (s', [], .throw)
    | (s', .ub) => (s', [], .ub)

/-- The details of a decomposition in the order channel, step, kind, each with its step. -/
def detailCalls (p : Params) (d : Decs α) : List (Mat α × ℕ) :=
  d.flatMap fun c => (List.range (p.steps * detailsPerStep p)).map fun t => (c.getD t default, t / detailsPerStep p)

/-- Subbands after a conversation about the details of `new`, the decomposition meant for the channels from `start` on, has given `answers`:
those answered have the answers, the approximation of a channel is new when all its details are, everything else is as in `old`. -/
def AfterAnswers (p : Params) (start : ℕ) (old new : Decs α) (answers : List (Mat α)) (d : Decs α) : Prop :=
  d.length = old.length ∧ (∀ ch, ch < start ∨ start + new.length ≤ ch → d[ch]? = old[ch]?) ∧
  ∀ ch < new.length, ∃ c o n, d[start + ch]? = some c ∧ old[start + ch]? = some o ∧ new[ch]? = some n ∧ c.length = o.length ∧
    (∀ t < p.steps * detailsPerStep p,
      c[t]? = if ch * (p.steps * detailsPerStep p) + t < answers.length then answers[ch * (p.steps * detailsPerStep p) + t]? else o[t]?) ∧
    c[p.steps * detailsPerStep p]? = if (ch + 1) * (p.steps * detailsPerStep p) ≤ answers.length then n[p.steps * detailsPerStep p]?
      else o[p.steps * detailsPerStep p]?

/-- A denoiser that notes every subband it is given, with its step, and otherwise does what `den` does. -/
def noting (den : Denoiser α) : Callback (List (Mat α × ℕ)) α :=
  ⟨fun s v k => (s ++ [(Mat.ofCol v, k)], .ok (den.d1 v k)), fun s m k => (s ++ [(m, k)], .ok (den.d2 m k))⟩

end WB.Spec
