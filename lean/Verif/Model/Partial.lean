import Verif.Model.Buffer
import Verif.Model.Matrix1D

/-!
Model of the two functions of `wavelet_buffer/wavelet_utils.h` that continue a decomposition and that undo a part of it.
-/

namespace WB

variable {α : Type}

/-- `CalculateOneSideStep1D`, sources/wavelet_utils.cc:192-207, with the matrices it is given (`wavelet_matrix[0]` decides between filter
and matrix). Returns the next approximation. -/
def oneSideStep1DMat [Zero α] [Add α] [Mul α] [Inhabited α] (d : Decs α) (ch dest : ℕ) (den : Denoiser α)
    (mats : List (SpMat α)) (signal : Mat α) (step : ℕ) : Run (Decs α) (Mat α) :=
  (Run.lift d (do let x ← column0 signal; let m ← rd mats 0; dwtMat x m)).bind fun d r =>
    let v := den.d1 r.2 step
    if v.length ≠ r.2.length then .throw d
    else (setSub d ch (dest + 0) (Mat.ofCol v)).bind fun d _ => .ok d (Mat.ofCol r.1)

/-- The loop over the additional steps of one channel, sources/wavelet_utils.cc:322-328; `rem` steps remain, the current one is
`p.steps - rem`. Unlike the decomposition of a signal it takes the matrices also in 1D. Returns the last approximation. -/
def continueSteps [Zero α] [Add α] [Mul α] [Inhabited α] (p : Params) (stack : Stack α) (den : Denoiser α) (ch : ℕ) :
    ℕ → Decs α → Mat α → Run (Decs α) (Mat α)
  | 0, d, signal => .ok d signal
  | rem + 1, d, signal =>
    let step := p.steps - (rem + 1)
    let dest := step * subbandsPerWT p
    let r := (Run.lift d (rd stack step)).bind fun d mats =>
      if p.dimension = 1 then oneSideStep1DMat d ch dest den mats signal step
      else oneSideStep2D d ch dest den mats signal step
    r.bind fun d signal => continueSteps p stack den ch rem d signal

/-- The loop over the channels, sources/wavelet_utils.cc:317-331, for the list of channels still to do. -/
def continueChannels [Zero α] [Add α] [Mul α] [Inhabited α] (p : Params) (stack : Stack α) (den : Denoiser α) (old rem : ℕ) :
    List ℕ → Decs α → Run (Decs α) Unit
  | [], d => .ok d ()
  | ch :: chs, d =>
    (Run.lift d (do let c ← rd d ch; rd c (old * subbandsPerWT p))).bind fun d remainder =>
    (continueSteps p stack den ch rem d remainder).bind fun d remainder =>
    (setSub d ch (p.steps * subbandsPerWT p) remainder).bind fun d _ =>
    continueChannels p stack den old rem chs d

/-- `DecomposeImpl` "Partial decompose", sources/wavelet_utils.cc:304-332 (wavelet_buffer/wavelet_utils.h:34-43): `p` describes the
decomposition after the additional `steps`. `getStack` stands for the call of the matrix cache at 308-311. More additional steps than
steps at all make `old_step_count` wrap around: the subband read then does not exist. -/
def continueImpl [Zero α] [Add α] [Mul α] [Inhabited α] (getStack : Outcome (Stack α)) (p : Params) (d : Decs α) (steps : ℤ)
    (den : Denoiser α) : Run (Decs α) Unit :=
  (Run.lift d getStack).bind fun d stack =>
    if (p.steps : ℤ) < steps then (if p.signalNumber = 0 then .ok d () else .ub)
    else continueChannels p stack den ((p.steps : ℤ) - steps).toNat steps.toNat (List.range p.signalNumber) d

/-- `subbands.resize(n, true)` followed by the store into the last position, sources/wavelet_utils.cc:407-408, for `n > 0`: new positions
hold default constructed matrices. Memory is not bounded. -/
def shortened (c : Channel α) (n : ℕ) (m : Mat α) : Channel α :=
  ((c.take n ++ List.replicate (n - c.length) Mat.empty).set (n - 1) m)

/-- `ComposeImpl` "Partial compose", sources/wavelet_utils.cc:361-412 (wavelet_buffer/wavelet_utils.h:60-71). `getStack` stands for the
call of the matrix cache at 371-374. Negative arguments become huge `size_t`s, with the effects listed at `composeImpl`; with a negative
`start` the loop does not run and the lists stay empty. -/
def partialCompose [Zero α] [Add α] [Mul α] [Neg α] [Inhabited α] (k : Kit α) (getStack : Outcome (Stack α))
    (p : Params) (d : Decs α) (scale start count : ℤ) : Outcome (Decs α) :=
  if count < 0 then .throw
  else (if p.dimension = 2 then getStack else pure []) >>= fun tstack =>
    if start < 0 then .ok (List.replicate count.toNat [])
    else if scale < 0 ∧ 0 < count then
      (if p.dimension = 1 ∧ scale = -1 then .ub else .throw)
    else (loopChannels start count).mapM fun ch => do
      let c ← rd d ch
      let m ← composeChannel p tstack (filters1D k p) d scale.toNat ch
      pure (shortened c (scale.toNat * subbandsPerWT p + 1) m)

/-- The rest of the second `ComposeImpl`, sources/wavelet_utils.cc:422-438: the last subband of each channel, cropped and normalised.
Indexing an empty list with `size() - 1` is undefined behaviour. -/
def finishPartial [Inhabited α] (k : Kit α) (p : Params) (scale : ℕ) (c : Channel α) : Outcome (Mat α) := do
  let m ← if c.length = 0 then .ub else rd c (c.length - 1)
  finishChannel k p scale m

end WB
