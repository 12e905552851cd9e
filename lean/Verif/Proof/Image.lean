import Verif.Model.Image
import Verif.Proof.World
import Verif.Proof.Codec
import Verif.Proof.Bridge

/-! Lemmas for the properties of images and files. -/

set_option linter.unusedSectionVars false

namespace WB

open Spec

theorem toInt32_nat {n : ℕ} (h : n < 2 ^ 31) : toInt32 n = n := by
  unfold toInt32
  rw [Int.emod_eq_of_lt (by omega) (by omega)]; omega

theorem runEffects_cons (fs : Files) (e : Effect) (es : List Effect) : runEffects fs (e :: es) = runEffects (e.run fs) es := rfl

theorem runEffects_puts (path : String) : ∀ (data : Bytes) (fs : Files) (old : Bytes), fs path = some old →
    runEffects fs (data.map (Effect.put path)) = fun q => if q = path then some (old ++ data) else fs q := by
  intro data
  induction data with
  | nil =>
    intro fs old h
    funext q
    show fs q = _
    by_cases hq : q = path
    · rw [if_pos hq, hq, h, List.append_nil]
    · rw [if_neg hq]
  | cons x data ih =>
    intro fs old h
    rw [List.map_cons, runEffects_cons, ih _ (old ++ [x]) (by simp [Effect.run, h])]
    funext q
    by_cases hq : q = path
    · simp [hq]
    · simp [hq, Effect.run]

/-- Creating a file and writing to it. -/
theorem runEffects_write (fs : Files) (path : String) (data : Bytes) :
    runEffects fs (.create path :: data.map (Effect.put path)) = fun q => if q = path then some data else fs q := by
  rw [runEffects_cons, runEffects_puts path data _ [] (by simp [Effect.run])]
  funext q
  by_cases hq : q = path
  · simp [hq]
  · simp [hq, Effect.run]

section
variable {α : Type}

/-- Only the listed channels differ. -/
def SameOutside (S : ℕ → Prop) (d d' : Decs α) : Prop := ∀ ch, ¬ S ch → d'[ch]? = d[ch]?

theorem setSub_outside {S : ℕ → Prop} {d0 d : Decs α} (h : SameOutside S d0 d) {ch : ℕ} (hs : S ch) (idx : ℕ) (m : Mat α) :
    (setSub d ch idx m).After (SameOutside S d0) := by
  unfold setSub
  cases hd : d[ch]? with
  | none => trivial
  | some c =>
    simp only
    split_ifs
    · intro c' hc'
      rw [List.getElem?_set_ne (by rintro rfl; exact hc' hs)]
      exact h c' hc'
    · trivial

variable [Zero α] [Add α] [Mul α] [Neg α] [Inhabited α]

theorem decomposeSteps_outside (p : Params) (stack : Stack α) (f : Filters α) (den : Denoiser α) (ch : ℕ) (S : ℕ → Prop) (hS : S ch)
    (d0 : Decs α) : ∀ (rem : ℕ) (d : Decs α) (m : Mat α), SameOutside S d0 d →
      (decomposeSteps p stack f den ch rem d m).After (SameOutside S d0) := by
  intro rem
  induction rem with
  | zero => intro d m h; exact h
  | succ rem ih =>
    intro d m h
    unfold decomposeSteps
    refine Run.After.bind ?_ (fun s a hs => ih s a hs)
    split_ifs
    · unfold oneSideStep1D
      refine Run.After.bind (Run.After.lift h _) (fun s a hs => ?_)
      simp only
      split_ifs
      · exact hs
      · exact Run.After.bind (setSub_outside hs hS _ _) (fun s _ hs => hs)
    · refine Run.After.bind (Run.After.lift h _) (fun s a hs => ?_)
      unfold oneSideStep2D
      refine Run.After.bind (Run.After.lift hs _) (fun s a hs => ?_)
      refine Run.After.bind (setSub_outside hs hS _ _) (fun s _ hs => ?_)
      refine Run.After.bind (setSub_outside hs hS _ _) (fun s _ hs => ?_)
      exact Run.After.bind (setSub_outside hs hS _ _) (fun s _ hs => hs)

theorem decomposeChannels_outside (p : Params) (stack : Stack α) (f : Filters α) (den : Denoiser α) (data : List (Mat α))
    (start : ℕ) (S : ℕ → Prop) (d0 : Decs α) : ∀ (chs : List ℕ), (∀ ch ∈ chs, S ch) → ∀ (d : Decs α), SameOutside S d0 d →
      (decomposeChannels p stack f den data start chs d).After (SameOutside S d0) := by
  intro chs
  induction chs with
  | nil => intro _ d h; exact h
  | cons ch chs ih =>
    intro hS d h
    unfold decomposeChannels
    refine Run.After.bind (Run.After.lift h _) (fun s a hs => ?_)
    refine Run.After.bind (decomposeSteps_outside p stack f den ch S (hS ch (by simp)) d0 _ s a hs) (fun s a hs => ?_)
    exact Run.After.bind (setSub_outside hs (hS ch (by simp)) _ _) (fun s _ hs => ih (fun c hc => hS c (by simp [hc])) s hs)

/-- `DecomposeImpl` changes at most the channels of its range. -/
theorem decomposeImpl_outside (k : Kit α) (g : Outcome (Stack α)) (p : Params) (d : Decs α) (data : List (Mat α))
    (den : Denoiser α) (start count : ℤ) (S : ℕ → Prop) (hS : ∀ ch ∈ loopChannels start count, S ch) :
    (decomposeImpl k g p d data den start count).After (SameOutside S d) := by
  unfold decomposeImpl
  refine Run.After.bind (Run.After.lift (fun _ _ => rfl) _) (fun s a hs => ?_)
  cases a with
  | true =>
    refine Run.After.bind (Run.After.lift hs _) (fun s a hs => ?_)
    exact decomposeChannels_outside _ _ _ _ _ _ S d _ hS s hs
  | false => exact hs

theorem decomposeChannels_true (p : Params) (stack : Stack α) (f : Filters α) (den : Denoiser α) (data : List (Mat α))
    (start : ℕ) : ∀ (chs : List ℕ) (d d' : Decs α) (r : Bool),
      decomposeChannels p stack f den data start chs d = .ok d' r → r = true := by
  intro chs
  induction chs with
  | nil => intro d d' r h; cases h; rfl
  | cons ch chs ih =>
    intro d d' r h
    unfold decomposeChannels at h
    cases h1 : (Run.lift d (do let m ← rd data (ch - start); addPadding m (paddedShape p))) with
    | throw s => rw [h1] at h; cases h
    | ub => rw [h1] at h; cases h
    | ok s a =>
      rw [h1, Run.bind_ok] at h
      cases h2 : decomposeSteps p stack f den ch p.steps s a with
      | throw s => rw [h2] at h; cases h
      | ub => rw [h2] at h; cases h
      | ok s a =>
        rw [h2, Run.bind_ok] at h
        cases h3 : setSub s ch (p.steps * subbandsPerWT p) a with
        | throw s => rw [h3] at h; cases h
        | ub => rw [h3] at h; cases h
        | ok s a => rw [h3, Run.bind_ok] at h; exact ih _ _ _ h

/-- `DecomposeImpl` that returns `false` has changed nothing. -/
theorem decomposeImpl_false (k : Kit α) (g : Outcome (Stack α)) (p : Params) (d d' : Decs α) (data : List (Mat α))
    (den : Denoiser α) (start count : ℤ) (h : decomposeImpl k g p d data den start count = .ok d' false) : d' = d := by
  unfold decomposeImpl at h
  cases h1 : shapeCheck p data count with
  | throw => rw [h1] at h; cases h
  | ub => rw [h1] at h; cases h
  | ok good =>
    rw [h1, Run.lift_ok, Run.bind_ok] at h
    cases good with
    | false => cases h; rfl
    | true =>
      rw [if_pos rfl] at h
      cases h2 : (if p.dimension = 2 then g else pure [] : Outcome (Stack α)) with
      | throw => rw [h2] at h; cases h
      | ub => rw [h2] at h; cases h
      | ok st =>
        rw [h2, Run.lift_ok, Run.bind_ok] at h
        exact absurd (decomposeChannels_true _ _ _ _ _ _ _ _ _ _ h) (by simp)

theorem view_decompose_false (k : Kit α) (v : View) (b : Buffer α) (data : List (Mat α)) (den : Denoiser α) (d' : Decs α)
    (h : v.decompose k b data den = .ok d' false) : d' = b.decs := by
  unfold View.decompose at h
  cases h1 : v.checkRange b.params.signalNumber with
  | throw => rw [h1] at h; cases h
  | ub => rw [h1] at h; cases h
  | ok good =>
    rw [h1, Run.lift_ok, Run.bind_ok] at h
    cases good with
    | false => cases h; rfl
    | true =>
      rw [if_pos rfl] at h
      split_ifs at h
      exact decomposeImpl_false _ _ _ _ _ _ _ _ _ h

theorem import_start (k : Kit α) (codec : ImageCodec α) (b : Buffer α) (blob : Bytes) (den : Denoiser α) (sc : ℕ) (im : List (Mat α))
    (hdec : codec.decode blob = .ok (true, im)) (h1 : toInt32 sc = sc) (h2 : toInt32 im.length = im.length) :
    importFromString k codec b blob den sc = ((View.mk sc im.length false).decompose k b im den).bind fun d good =>
      .ok d (if good then .kOk else .kDecompositionError) := by
  unfold importFromString
  rw [hdec, Run.lift_ok, Run.bind_ok, if_pos rfl]
  show ((View.mk (toInt32 sc) (toInt32 im.length) false).decompose k b im den).bind _ = _
  rw [h1, h2]

theorem export_none (k : Kit α) (codec : ImageCodec α) (b : Buffer α) (old : Bytes) (sc : ℕ)
    (h1 : toInt32 sc = sc) (h2 : toInt32 codec.channels = codec.channels)
    (ho : (View.mk sc codec.channels true).compose k b 0 = .ok none) :
    exportToString k codec b old sc = .ok old .kCompositionError := by
  unfold exportToString
  rw [h1, h2, ho]
  rfl

theorem export_some (k : Kit α) (codec : ImageCodec α) (b : Buffer α) (old : Bytes) (sc : ℕ)
    (h1 : toInt32 sc = sc) (h2 : toInt32 codec.channels = codec.channels) (im : List (Mat α))
    (ho : (View.mk sc codec.channels true).compose k b 0 = .ok (some im)) :
    exportToString k codec b old sc =
      (codec.encode im old).bind fun data good => .ok data (if good then .kOk else .kWrongData) := by
  unfold exportToString
  rw [h1, h2, ho]
  rfl

end

end WB
