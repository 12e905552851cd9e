import Verif.Spec.Reentrant
import Verif.Proof.Callback
import Verif.Proof.History

/-!
Denoisers that call the library: the run is a list of deeds (questions with the place of the answer, and stores), which does not depend on what the denoiser does.
-/

set_option linter.unusedSectionVars false

namespace WB

open Spec

variable {α β σ : Type} [Zero α] [Add α] [Mul α] [Neg α] [Inhabited α]

/-- A question and the place of the answer, or a store. -/
inductive Deed (α : Type) where
  | ask (ch idx : ℕ) (m : Mat α) (step : ℕ)
  | keep (ch idx : ℕ) (m : Mat α)

/-- A question. -/
def askMat (k : Kit α) (p : Params) (nd : Nested σ α) (st : Site σ α) (m : Mat α) (step : ℕ) : Run (Site σ α) (Mat α) :=
  if p.dimension = 1 then
    (st.ask k (nd.d1 st.own (m.col 0) step)).bind fun st v => if v.length = m.rows then .ok st (Mat.ofCol v) else .throw st
  else st.ask k (nd.d2 st.own m step)

/-- The run of a list of deeds. -/
def follow (k : Kit α) (a : ℕ) (p : Params) (nd : Nested σ α) : Site σ α → List (Deed α) → Run (Site σ α) Unit
  | st, [] => .ok st ()
  | st, .ask ch idx m step :: es => (askMat k p nd st m step).bind fun st x => (st.put a ch idx x).bind fun st _ => follow k a p nd st es
  | st, .keep ch idx m :: es => (st.put a ch idx m).bind fun st _ => follow k a p nd st es

theorem run_assoc {τ β γ δ : Type} (r : Run τ β) (f : τ → β → Run τ γ) (g : τ → γ → Run τ δ) :
    (r.bind f).bind g = r.bind fun s x => (f s x).bind g := by cases r <;> rfl

theorem follow_append (k : Kit α) (a : ℕ) (p : Params) (nd : Nested σ α) (st : Site σ α) (x y : List (Deed α)) :
    follow k a p nd st (x ++ y) = (follow k a p nd st x).bind fun st _ => follow k a p nd st y := by
  induction x generalizing st with
  | nil => rfl
  | cons e x ih =>
    cases e with
    | ask ch idx m step => simp only [List.cons_append, follow, run_assoc, ih]
    | keep ch idx m => simp only [List.cons_append, follow, run_assoc, ih]

/-- Questions with consecutive places. -/
def label (ch : ℕ) : ℕ → List (Mat α × ℕ) → List (Deed α)
  | _, [] => []
  | pos, x :: l => .ask ch pos x.1 x.2 :: label ch (pos + 1) l

theorem label_append (ch pos : ℕ) (x y : List (Mat α × ℕ)) : label ch pos (x ++ y) = label ch pos x ++ label ch (pos + x.length) y := by
  induction x generalizing pos with
  | nil => rfl
  | cons e x ih => simp only [List.cons_append, label, ih, List.length_cons]; congr 3; omega

theorem step_in {k : Kit α} {p : Params} (hv : ValidParams p) (hf : FilterLen k p) (ht : p.wtype ≠ 0) (nd : Nested σ α) {t : ℕ}
    (hs : t < p.steps) {m : Mat α} (hm : Fits p t m) (stack : Stack α) (hst : p.dimension ≠ 1 → stack = stackP p (scaling k p))
    (st : Site σ α) (a ch : ℕ) :
    (if p.dimension = 1 then
        oneSideStep1DIn k a st ch (t * subbandsPerWT p) nd (filters1D k p).loD.reverse (filters1D k p).hiD.reverse m t
      else
        (Run.lift st (rd stack t)).bind fun st mats => oneSideStep2DIn k a st ch (t * subbandsPerWT p) nd mats m t) =
      (follow k a p nd st (label ch (t * subbandsPerWT p) ((detailStep p (scaling k p) nullDenoiser t m).map fun x => (x, t)))).bind
        fun st _ => .ok st (approxStep p (scaling k p) m) := by
  rcases fits_halves hv ht hs hm with ⟨hd, n2, h1, h2, h3, h4⟩ | ⟨hd, sh, sw, h1, h2, h3, h4, h5, h6, h7⟩
  · rw [if_pos hd]
    unfold oneSideStep1DIn detailStep approxStep
    rw [if_pos hd, if_pos hd, filters1D_eq ht]
    simp only [List.reverse_reverse]
    unfold column0
    rw [if_neg (by omega), Outcome.bind_ok,
      dwt_ok (by simp [length_scaling hf ht, h1]; omega) (by simp [length_scaling hf ht, h1]; omega), Run.lift_ok, Run.bind_ok]
    have e3 : (m.col 0).length = m.rows := by simp
    simp only [List.map_cons, List.map_nil, nullDenoiser, label, follow, askMat, if_pos hd, run_assoc]
    have e1 : ∀ v : List α, (Mat.ofCol v).col 0 = v := Mat.col_ofCol
    have e2 : ∀ v : List α, (Mat.ofCol v).rows = v.length := fun v => by simp
    rw [e1, e2, e3]
    congr 1
    funext st v
    by_cases hl : v.length = ((List.range (m.rows / 2)).map (anaP (m.col 0) (qmf (scaling k p)))).length
    · rw [if_neg (by simpa using hl), if_pos hl]; rfl
    · rw [if_pos hl, if_neg hl]; rfl
  · have hd1 : p.dimension ≠ 1 := by omega
    rw [if_neg hd1, hst hd1]
    have hst : rd (stackP p (scaling k p)) t =
        .ok [daubP (scaling k p) (qmf (scaling k p)) (2 * sw), daubP (scaling k p) (qmf (scaling k p)) (2 * sh)] := by
      unfold stackP
      rw [rd_ok (by simpa using hs)]
      congr 1
      simp only [List.getElem_map, List.getElem_range]
      have : (paddedShape p).map (fun n => daubP (scaling k p) (qmf (scaling k p)) (n / 2 ^ t)) =
          ((paddedShape p).map (fun n => n / 2 ^ t)).map (fun n => daubP (scaling k p) (qmf (scaling k p)) n) := by
        rw [List.map_map]; rfl
      rw [this, h7]; rfl
    rw [hst, Run.lift_ok, Run.bind_ok]
    unfold oneSideStep2DIn detailStep approxStep
    simp only [rd, List.getElem?_cons_zero, List.getElem?_cons_succ, Outcome.bind_ok]
    rw [dwt2_quadOf hf ht h1 h2 h3 h4, Run.lift_ok, Run.bind_ok, if_neg hd1, if_neg hd1]
    generalize quadOf (scaling k p) m = q
    simp only [nullDenoiser, List.map_cons, List.map_nil, label, follow, askMat, if_neg hd1, run_assoc, Run.bind_ok]
    rfl

theorem steps_in {k : Kit α} {p : Params} (hv : ValidParams p) (hf : FilterLen k p) (nd : Nested σ α) {m : Mat α} (hm : Fits p 0 m)
    (stack : Stack α) (hst : p.dimension ≠ 1 → stack = stackP p (scaling k p)) (a ch rem : ℕ) (hrem : rem ≤ p.steps) (st : Site σ α) :
    decomposeStepsIn k a p stack (filters1D k p) nd ch rem st (sig p (scaling k p) m (p.steps - rem)) =
      (follow k a p nd st (label ch ((p.steps - rem) * subbandsPerWT p) (asks p (scaling k p) m (p.steps - rem) rem))).bind
        fun st _ => .ok st (sig p (scaling k p) m p.steps) := by
  induction rem generalizing st with
  | zero => simp [decomposeStepsIn, asks, label, follow]
  | succ rem ih =>
    have ht : p.wtype ≠ 0 := by
      intro h0; have := hv.2.2; rw [if_pos h0] at this; omega
    have hlt : p.steps - (rem + 1) < p.steps := by omega
    simp only [decomposeStepsIn]
    rw [step_in hv hf ht nd hlt (fits_sig hv hm (by omega)) stack hst st a ch]
    have hn : p.steps - rem = (p.steps - (rem + 1)) + 1 := by omega
    have hask : asks p (scaling k p) m (p.steps - (rem + 1)) (rem + 1) =
        ((detailStep p (scaling k p) nullDenoiser (p.steps - (rem + 1)) (sig p (scaling k p) m (p.steps - (rem + 1)))).map
          fun x => (x, p.steps - (rem + 1))) ++ asks p (scaling k p) m (p.steps - rem) rem := by
      unfold asks; rw [List.range'_succ, List.flatMap_cons, hn]
    have hs : sig p (scaling k p) m (p.steps - rem) = approxStep p (scaling k p) (sig p (scaling k p) m (p.steps - (rem + 1))) := by
      rw [hn]; rfl
    rw [hask, label_append, List.length_map, length_rawStep, follow_append, run_assoc, run_assoc, ← hs]
    congr 1
    funext st u
    rw [Run.bind_ok, ih (by omega) st]
    congr 3
    rw [hn, Nat.add_mul, Nat.one_mul]

/-- What is done for the channels from `ch` on. -/
def deeds (p : Params) (h : List α) : ℕ → List (Mat α) → List (Deed α)
  | _, [] => []
  | ch, m :: ms => label ch 0 (asks p h (padOf p m) 0 p.steps) ++ .keep ch (p.steps * subbandsPerWT p) (sig p h (padOf p m) p.steps) :: deeds p h (ch + 1) ms

theorem channels_in {k : Kit α} {p : Params} (hv : ValidParams p) (hf : FilterLen k p) (nd : Nested σ α) {data : List (Mat α)}
    (hs : ∀ m ∈ data, Shaped p m) (stack : Stack α) (hst : p.dimension ≠ 1 → stack = stackP p (scaling k p)) (a start : ℕ)
    (n j : ℕ) (hj : j + n = data.length) (st : Site σ α) :
    decomposeChannelsIn k a p stack (filters1D k p) nd data start (List.range' (start + j) n) st =
      (follow k a p nd st (deeds p (scaling k p) (start + j) (data.drop j))).bind fun st _ => .ok st true := by
  induction n generalizing j st with
  | zero =>
    rw [List.drop_eq_nil_of_le (by omega)]
    rfl
  | succ n ih =>
    have hjl : j < data.length := by omega
    rw [List.drop_eq_getElem_cons hjl, List.range'_succ]
    simp only [decomposeChannelsIn, deeds]
    have hsh := hs _ (List.getElem_mem hjl)
    rw [Nat.add_sub_cancel_left, rd_ok hjl, Outcome.bind_ok, addPadding_ok hv hsh, Run.lift_ok, Run.bind_ok]
    have h0 := steps_in hv hf nd (fits_padOf hv hsh) stack hst a (start + j) p.steps le_rfl st
    rw [Nat.sub_self, Nat.zero_mul] at h0
    have e0 : sig p (scaling k p) (padOf p data[j]) 0 = padOf p data[j] := rfl
    rw [e0] at h0
    rw [h0, follow_append, run_assoc, run_assoc]
    congr 1
    funext st u
    rw [Run.bind_ok, follow, run_assoc]
    congr 1
    funext st u
    have := ih (j + 1) (by omega) st
    rw [← Nat.add_assoc] at this
    exact this

/-! ### what the buffer holds -/

/-- The subbands after some answers. -/
def fillIn : Decs α → List (Deed α) → List (Mat α) → Decs α
  | d, [], _ => d
  | d, .keep ch idx m :: es, o => fillIn (d.set ch (splice (d.getD ch []) idx [m])) es o
  | d, .ask _ _ _ _ :: _, [] => d
  | d, .ask ch idx _ _ :: es, x :: o => fillIn (d.set ch (splice (d.getD ch []) idx [x])) es o

theorem getD_of {d : Decs α} {ch : ℕ} {c : Channel α} (h : d[ch]? = some c) : d.getD ch [] = c := by simp [List.getD, h]

theorem fill_label (es : List (Deed α)) (ch : ℕ) (l : List (Mat α × ℕ)) (pos : ℕ) (d : Decs α) (c : Channel α) (hc : d[ch]? = some c)
    (hl : pos + l.length ≤ c.length) (o : List (Mat α)) :
    fillIn d (label ch pos l ++ es) o = if l.length ≤ o.length then fillIn (d.set ch (splice c pos (o.take l.length))) es (o.drop l.length)
      else d.set ch (splice c pos o) := by
  induction l generalizing pos d c o with
  | nil => simp [label, set_self_eq hc]
  | cons x l ih =>
    cases o with
    | nil => simp [label, fillIn, set_self_eq hc]
    | cons y o =>
      simp only [List.length_cons] at hl
      simp only [label, List.cons_append, fillIn]
      rw [getD_of hc, ih (pos + 1) _ (splice c pos [y]) (getElem?_set_self' _ hc) (by rw [length_splice (by simp; omega)]; omega)]
      simp only [List.length_cons, Nat.add_le_add_iff_right, List.set_set, List.take_succ_cons, List.drop_succ_cons]
      split_ifs with h
      · have e := splice_splice (c := c) (pos := pos) (a := [y]) (b := o.take l.length) (by simp; omega)
        simp only [List.length_singleton] at e
        rw [e]; rfl
      · have e := splice_splice (c := c) (pos := pos) (a := [y]) (b := o) (by simp; omega)
        simp only [List.length_singleton] at e
        rw [e]; rfl

theorem fill_store (p : Params) (h : List α) (data : List (Mat α)) (ch : ℕ) (d : Decs α) (hl : ChanLayout p d) (hfit : ch + data.length ≤ d.length)
    (o : List (Mat α)) :
    fillIn d (deeds p h ch data) o = store (p.steps * subbandsPerWT p) (data.map fun m => sig p h (padOf p m) p.steps) ch d o := by
  induction data generalizing ch d o with
  | nil => rfl
  | cons m ms ih =>
    simp only [List.length_cons] at hfit
    have hch : ch < d.length := by omega
    have hc : d[ch]? = some d[ch] := List.getElem?_eq_getElem hch
    have hcl : d[ch].length = p.steps * subbandsPerWT p + 1 := hl _ (List.getElem_mem hch)
    rw [deeds, fill_label _ _ _ _ _ _ hc (by rw [length_asks]; omega), length_asks, List.map_cons, store, getD_of hc]
    split_ifs with h1
    · have ht : (o.take (p.steps * subbandsPerWT p)).length = p.steps * subbandsPerWT p := by simp [h1]
      have e := splice_splice (c := d[ch]) (pos := 0) (a := o.take (p.steps * subbandsPerWT p)) (b := [sig p h (padOf p m) p.steps]) (by simp; omega)
      rw [Nat.zero_add, ht, splice_zero_full (c := d[ch]) (ds := _ ++ _) (by simp; omega)] at e
      rw [fillIn, getD_of (getElem?_set_self' _ hc), List.set_set, e]
      apply ih
      · intro c hc'
        rcases List.mem_or_eq_of_mem_set hc' with h | h
        · exact hl c h
        · subst h; rw [List.length_append, ht]; rfl
      · rw [List.length_set]; omega
    · rfl

/-- The questions of a list of deeds. -/
def questions : List (Deed α) → List (Mat α × ℕ)
  | [] => []
  | .ask _ _ m step :: es => (m, step) :: questions es
  | .keep _ _ _ :: es => questions es

theorem questions_label (ch pos : ℕ) (l : List (Mat α × ℕ)) (es : List (Deed α)) : questions (label ch pos l ++ es) = l ++ questions es := by
  induction l generalizing pos with
  | nil => rfl
  | cons x l ih => simp only [label, List.cons_append, questions, ih]

theorem questions_deeds (p : Params) (h : List α) (ch : ℕ) (data : List (Mat α)) :
    questions (deeds p h ch data) = data.flatMap fun m => asks p h (padOf p m) 0 p.steps := by
  induction data generalizing ch with
  | nil => rfl
  | cons m ms ih => rw [deeds, questions_label, questions, ih, List.flatMap_cons]

/-- Every place is one of the buffer. -/
def Fitting (n N : ℕ) : List (Deed α) → Prop
  | [] => True
  | .ask ch idx _ _ :: es => ch < n ∧ idx < N ∧ Fitting n N es
  | .keep ch idx _ :: es => ch < n ∧ idx < N ∧ Fitting n N es

theorem fitting_label {n N ch : ℕ} {l : List (Mat α × ℕ)} {es : List (Deed α)} (hch : ch < n) : ∀ {pos : ℕ}, pos + l.length ≤ N → Fitting n N es →
    Fitting n N (label ch pos l ++ es) := by
  induction l with
  | nil => intro pos _ h; exact h
  | cons x l ih =>
    intro pos hp h
    rw [List.length_cons] at hp
    exact ⟨hch, by omega, ih (by omega) h⟩

theorem fitting_deeds (p : Params) (h : List α) (ch n : ℕ) (data : List (Mat α)) (hfit : ch + data.length ≤ n) :
    Fitting n (p.steps * subbandsPerWT p + 1) (deeds p h ch data) := by
  induction data generalizing ch with
  | nil => trivial
  | cons m ms ih =>
    rw [List.length_cons] at hfit
    exact fitting_label (by omega) (by rw [length_asks]; omega) ⟨by omega, by omega, ih (ch + 1) (by omega)⟩

/-! ### the process -/

theorem exec_free (k : Kit α) (w : World α) (sc : Script α β) : sc.exec k false w = scriptRun k w sc := by
  induction sc generalizing w with
  | done r => rfl
  | call op next ih =>
    simp only [Script.exec, scriptRun, Bool.false_and, Bool.false_eq_true, if_false]
    cases w.step k op with
    | none => rfl
    | some x => exact ih _ _

theorem reads_frame {k : Kit α} {h a : ℕ} {b : Buffer α} {w w' : World α} {r : β} (sc : Script α β) (hr : LeavesAlone h sc) (hw : w.Inv k)
    (hf : w.find h = some (a, b)) (hx : scriptRun k w sc = some (w', r)) : w'.Inv k ∧ w'.find h = some (a, b) := by
  induction sc generalizing w with
  | done r => cases hx; exact ⟨hw, hf⟩
  | call op next ih =>
    simp only [scriptRun] at hx
    cases hs : w.step k op with
    | none => rw [hs] at hx; cases hx
    | some x =>
      rw [hs] at hx
      exact ih _ (hr.2 _) (World.inv_step hw op hs) (step_frame hw hf hr.1 hs) hx

theorem showing_eq {w : World α} {h a : ℕ} {b : Buffer α} (hf : w.find h = some (a, b)) (d : Decs α) :
    showing w h d = { w with heap := w.heap.set a { b with decs := d } } := by
  unfold showing; rw [hf]

theorem find_showing {w : World α} {h a : ℕ} {b : Buffer α} (hf : w.find h = some (a, b)) (d : Decs α) :
    (showing w h d).find h = some (a, { b with decs := d }) := by
  rw [showing_eq hf]; exact find_heapset_same hf

theorem showing_showing {w : World α} {h a : ℕ} {b : Buffer α} (hf : w.find h = some (a, b)) (d d' : Decs α) :
    showing (showing w h d) h d' = showing w h d' := by
  rw [showing_eq (find_showing hf d), showing_eq hf, showing_eq hf]
  simp only [List.set_set]

theorem showing_self {w : World α} {h a : ℕ} {b : Buffer α} (hf : w.find h = some (a, b)) : showing w h b.decs = w := by
  rw [showing_eq hf]
  have := set_self_eq (World.find_some hf).2
  obtain ⟨c, heap, hs⟩ := w
  simp only [World.mk.injEq, true_and, and_true]
  exact this

theorem inv_showing {k : Kit α} {w : World α} (hw : w.Inv k) {h a : ℕ} {b : Buffer α} (hf : w.find h = some (a, b)) {d : Decs α}
    (hd : WellFormed { b with decs := d }) : (showing w h d).Inv k := by
  rw [showing_eq hf]
  exact inv_heapset hw hw.cache hd

theorem talk_showing (ask : σ → World α → Mat α → ℕ → Option (σ × World α × Outcome (Mat α))) {h a : ℕ} {b : Buffer α} (seen : List (Mat α) → Decs α) (s : σ)
    {w : World α} (hf : w.find h = some (a, b)) (d : Decs α) (o : List (Mat α)) (l : List (Mat α × ℕ)) :
    talk ask h seen s (showing w h d) o l = talk ask h seen s w o l := by
  cases l with
  | nil => simp only [talk, showing_showing hf]
  | cons x l => simp only [talk, showing_showing hf]

theorem talk_shift (ask : σ → World α → Mat α → ℕ → Option (σ × World α × Outcome (Mat α))) (h : ℕ) (seen : List (Mat α) → Decs α) (s : σ)
    (w : World α) (x o : List (Mat α)) (l : List (Mat α × ℕ)) :
    talk ask h seen s w (x ++ o) l = talk ask h (fun o => seen (x ++ o)) s w o l := by
  induction l generalizing s w o with
  | nil => rfl
  | cons q l ih => simp only [talk, List.append_assoc, ih]

/-- What the caller of `Decompose` gets. -/
def finish (r : Run (Site σ α) Unit) : Option (σ × World α × Reply α) :=
  match r with
  | .ok st _ => some (st.own, st.world, .bool true)
  | .throw st => some (st.own, st.world, .threw)
  | .ub => none

/-- The subbands after a store. -/
def stored (d : Decs α) (ch idx : ℕ) (m : Mat α) : Decs α := d.set ch (splice (d.getD ch []) idx [m])

theorem wf_stored {b : Buffer α} (hb : WellFormed b) {ch idx : ℕ} (hch : ch < b.decs.length) (hi : idx < b.params.steps * subbandsPerWT b.params + 1) (m : Mat α) :
    WellFormed { b with decs := stored b.decs ch idx m } := by
  obtain ⟨hv, hl, hc⟩ := hb
  refine ⟨hv, by simpa [stored] using hl, ?_⟩
  intro c hx
  have e : b.decs[ch]? = some b.decs[ch] := List.getElem?_eq_getElem hch
  have := hc _ (List.getElem_mem hch)
  rcases List.mem_or_eq_of_mem_set hx with h | h
  · exact hc c h
  · rw [h, getD_of e, length_splice (by simp; rw [this]; exact hi)]
    exact this

theorem put_ok {st : Site σ α} {h a : ℕ} {b : Buffer α} (hf : st.world.find h = some (a, b)) (hb : WellFormed b) {ch idx : ℕ} (hch : ch < b.decs.length)
    (hi : idx < b.params.steps * subbandsPerWT b.params + 1) (m : Mat α) :
    st.put a ch idx m = .ok { st with world := showing st.world h (stored b.decs ch idx m) } () := by
  obtain ⟨h1, h2⟩ := World.find_some hf
  have e : b.decs[ch]? = some b.decs[ch] := List.getElem?_eq_getElem hch
  unfold Site.put
  rw [if_pos (List.mem_of_getElem? h1), h2]
  dsimp only
  rw [setSub_ok m e (by rw [hb.2.2 _ (List.getElem_mem hch)]; exact hi), showing_eq hf]
  unfold stored
  rw [getD_of e]

theorem askMat_eq {k : Kit α} {p : Params} {nd : Nested σ α} {st : Site σ α} (hh : st.held = false) (m : Mat α) (step : ℕ) :
    askMat k p nd st m step = match answerIn k p nd st.own st.world m step with
      | some (s, w, .ok x) => .ok ⟨false, s, w⟩ x
      | some (s, w, .throw) => .throw ⟨false, s, w⟩
      | some (_, _, .ub) => .ub
      | none => .ub := by
  unfold askMat answerIn Site.ask
  rw [hh]
  simp only [exec_free]
  by_cases hd : p.dimension = 1
  · rw [if_pos hd, if_pos hd]
    rcases scriptRun k st.world (nd.d1 st.own (m.col 0) step) with _ | ⟨w, s, _ | _ | _⟩
    · rfl
    · dsimp only [Run.bind]
      split_ifs <;> rfl
    · rfl
    · rfl
  · rw [if_neg hd, if_neg hd]
    rcases scriptRun k st.world (nd.d2 st.own m step) with _ | ⟨w, s, _ | _ | _⟩ <;> rfl

theorem answerIn_frame {k : Kit α} {p : Params} {nd : Nested σ α} {h a : ℕ} {b : Buffer α} (h1 : ∀ s v step, LeavesAlone h (nd.d1 s v step))
    (h2 : ∀ s m step, LeavesAlone h (nd.d2 s m step)) {s s' : σ} {w w' : World α} {m : Mat α} {step : ℕ} {o : Outcome (Mat α)} (hw : w.Inv k)
    (hf : w.find h = some (a, b)) (hx : answerIn k p nd s w m step = some (s', w', o)) : w'.Inv k ∧ w'.find h = some (a, b) := by
  unfold answerIn at hx
  split_ifs at hx with hd
  · rcases hq : scriptRun k w (nd.d1 s (m.col 0) step) with _ | ⟨w1, s1, _ | _ | _⟩
    all_goals rw [hq] at hx
    all_goals cases hx
    · exact reads_frame _ (h1 _ _ _) hw hf hq
    · exact reads_frame _ (h1 _ _ _) hw hf hq
  · rcases hq : scriptRun k w (nd.d2 s m step) with _ | ⟨w1, s1, _ | _ | _⟩
    all_goals rw [hq] at hx
    all_goals cases hx
    · exact reads_frame _ (h2 _ _ _) hw hf hq
    · exact reads_frame _ (h2 _ _ _) hw hf hq

theorem follow_talk {k : Kit α} {nd : Nested σ α} {h a : ℕ} (h1 : ∀ s v step, LeavesAlone h (nd.d1 s v step))
    (h2 : ∀ s m step, LeavesAlone h (nd.d2 s m step)) : ∀ (es : List (Deed α)) (st : Site σ α) (b : Buffer α), st.held = false → st.world.Inv k →
    st.world.find h = some (a, b) → WellFormed b → Fitting b.decs.length (b.params.steps * subbandsPerWT b.params + 1) es →
    finish (follow k a b.params nd st es) = talk (answerIn k b.params nd) h (fillIn b.decs es) st.own st.world [] (questions es)
  | [], st, b, _, _, hf, _, _ => by
    simp only [follow, finish, questions, talk, fillIn, showing_self hf]
  | .keep ch idx m :: es, st, b, hh, hw, hf, hb, hfit => by
    have hb' := wf_stored hb hfit.1 hfit.2.1 m
    have ih := follow_talk h1 h2 es { st with world := showing st.world h (stored b.decs ch idx m) } { b with decs := stored b.decs ch idx m } hh
      (inv_showing hw hf hb') (find_showing hf _) hb' (by simpa [stored] using hfit.2.2)
    rw [follow, put_ok hf hb hfit.1 hfit.2.1, Run.bind_ok, ih, talk_showing _ _ _ hf]
    rfl
  | .ask ch idx m step :: es, st, b, hh, hw, hf, hb, hfit => by
    rw [follow, questions, talk, fillIn, showing_self hf, askMat_eq hh]
    rcases hq : answerIn k b.params nd st.own st.world m step with _ | ⟨s, w, x | _ | _⟩
    · rfl
    · obtain ⟨hw', hf'⟩ := answerIn_frame h1 h2 hw hf hq
      have hb' := wf_stored hb hfit.1 hfit.2.1 x
      have ih := follow_talk h1 h2 es ⟨false, s, showing w h (stored b.decs ch idx x)⟩ { b with decs := stored b.decs ch idx x } rfl
        (inv_showing hw' hf' hb') (find_showing hf' _) hb' (by simpa [stored] using hfit.2.2)
      dsimp only
      rw [Run.bind_ok, put_ok (st := ⟨false, s, w⟩) hf' hb hfit.1 hfit.2.1, Run.bind_ok, ih, talk_showing _ _ _ hf']
      have := talk_shift (answerIn k b.params nd) h (fillIn b.decs (.ask ch idx m step :: es)) s w [x] [] (questions es)
      rw [List.append_nil] at this
      rw [List.nil_append, this]
      rfl
    · rfl
    · rfl

theorem impl_in {k : Kit α} {w : World α} (hw : w.Inv k) {h a : ℕ} {b : Buffer α} (hf : w.find h = some (a, b)) (hb : WellFormed b) (hk : FilterPresent k b.params)
    (hch : 0 < b.params.signalNumber) {data : List (Mat α)} (hd : IsSignal b.params data) (nd : Nested σ α) (s : σ) :
    ∃ c, CacheOk k c ∧
      w.step k (.decompose h data nullDenoiser) = some ({ w with cache := c, heap := w.heap.set a { b with decs := data.map (chanP b.params (scaling k b.params) nullDenoiser) } }, .bool true) ∧
      w.decomposeNested k h data nd s = finish (follow k a b.params nd ⟨false, s, { w with cache := c }⟩ (deeds b.params (scaling k b.params) 0 data)) := by
  have hplain := decompose_ok hb hk hch hd (den := nullDenoiser) (fun _ => ⟨fun _ _ => rfl, fun _ _ => ⟨rfl, rfl⟩⟩)
  obtain ⟨hv, hl, hc⟩ := hb
  obtain ⟨hn, hs⟩ := hd
  have hsh : ∀ m ∈ data, Shaped b.params m := fun m hm => shaped_of (hs m hm)
  have hcheck : shapeCheck b.params data b.params.signalNumber = .ok true := by rw [← hn]; exact shapeCheck_ok hv (by omega) hsh
  have hloop : loopChannels (0 : ℤ) (b.params.signalNumber : ℤ) = List.range' 0 data.length := by
    unfold loopChannels; rw [if_neg (by omega)]; simp [hn]
  have key : ∀ stack st, (b.params.dimension ≠ 1 → stack = stackP b.params (scaling k b.params)) → _ := fun stack st hst =>
    channels_in (σ := σ) hv hk nd hsh stack hst a 0 data.length 0 (by omega) st
  have hfin : ∀ r : Run (Site σ α) Unit, (match r.bind fun st _ => Run.ok st true with
      | .ok st x => some (st.own, st.world, Reply.bool x)
      | .throw st => some (st.own, st.world, .threw)
      | .ub => none) = finish r := by intro r; cases r <;> rfl
  have hstep : w.step k (.decompose h data nullDenoiser) = some (World.mk (decomposeCached k w.cache b.params b.decs data nullDenoiser 0 b.params.signalNumber).1
      (w.heap.set a { b with decs := data.map (chanP b.params (scaling k b.params) nullDenoiser) }) w.handles, .bool true) := by
    have := (decomposeCached_eq hw.cache b.params b.decs data nullDenoiser 0 b.params.signalNumber).1
    unfold Buffer.decompose at hplain
    rw [hplain] at this
    simp only [World.step, hf, World.update, this]
  refine ⟨(decomposeCached k w.cache b.params b.decs data nullDenoiser 0 b.params.signalNumber).1,
    (decomposeCached_eq hw.cache b.params b.decs data nullDenoiser 0 b.params.signalNumber).2, hstep, ?_⟩
  unfold World.decomposeNested decomposeImplIn
  rw [hf]
  dsimp only
  rw [hcheck, Run.lift_ok, Run.bind_ok, if_pos rfl, hloop]
  by_cases h2 : b.params.dimension = 2
  · have hg := genMatrices_ok hw.cache b.params
    rw [freshStack_ok hv hk] at hg
    obtain ⟨c', hg, _⟩ := hg
    have e : (decomposeCached k w.cache b.params b.decs data nullDenoiser 0 b.params.signalNumber).1 = c' := by
      unfold decomposeCached
      rw [if_pos ⟨h2, by rw [hcheck]⟩, hg]
      rfl
    rw [if_pos h2, e]
    unfold Site.matrices
    simp only [Bool.false_eq_true, if_false, hg, cacheResult, Run.lift_ok, Run.bind_ok]
    have hk' := key _ ⟨false, s, { w with cache := c' }⟩ fun _ => rfl
    rw [Nat.add_zero, List.drop_zero] at hk'
    erw [hk']
    exact hfin _
  · have h1 : b.params.dimension = 1 := by
      rcases shape_cases hv with ⟨_, _, h⟩ | ⟨_, _, _, h⟩
      · exact h
      · exact absurd h h2
    have e : (decomposeCached k w.cache b.params b.decs data nullDenoiser 0 b.params.signalNumber).1 = w.cache := by
      unfold decomposeCached
      rw [if_neg fun h => h2 h.1]
    rw [if_neg h2, Run.bind_ok, e]
    have hk' := key [] ⟨false, s, w⟩ fun h => absurd h1 h
    rw [Nat.add_zero, List.drop_zero] at hk'
    erw [hk']
    exact hfin _

theorem talk_total {ask : σ → World α → Mat α → ℕ → Option (σ × World α × Outcome (Mat α))} (f : Mat α → ℕ → Mat α) {h a : ℕ} {b : Buffer α}
    (seen : List (Mat α) → Decs α) (l : List (Mat α × ℕ)) (hask : ∀ x ∈ l, ∀ s w, ask s w x.1 x.2 = some (s, w, .ok (f x.1 x.2))) (s : σ) (w : World α)
    (hf : w.find h = some (a, b)) (o : List (Mat α)) :
    talk ask h seen s w o l = some (s, showing w h (seen (o ++ l.map fun x => f x.1 x.2)), .bool true) := by
  induction l generalizing o with
  | nil => simp [talk]
  | cons x l ih =>
    obtain ⟨m, step⟩ := x
    rw [talk, hask _ (List.mem_cons_self ..)]
    dsimp only
    rw [talk_showing _ _ _ hf, ih (fun x hx => hask x (List.mem_cons_of_mem _ hx)), List.append_assoc]
    rfl

end WB
