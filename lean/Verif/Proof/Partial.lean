import Verif.Model.Partial
import Verif.Proof.Coarse
import Verif.Proof.Reverse
import Verif.Props.Matrix1D

/-! Facts about continuing a decomposition and undoing a part of it. -/

set_option linter.unusedSectionVars false

namespace WB

open Spec Props

variable {α : Type}

theorem Run.bind_congr' {σ β γ : Type} {r : Run σ β} {f g : σ → β → Run σ γ} (h : ∀ s a, r = .ok s a → f s a = g s a) :
    r.bind f = r.bind g := by
  cases r with
  | ok s a => exact h s a rfl
  | throw s => rfl
  | ub => rfl

theorem mapM_assoc {β γ δ ε : Type} (l : List β) (f : β → Outcome γ) (g : γ → Outcome δ) (f' : β → Outcome ε) (g' : ε → Outcome δ)
    (h : ∀ b ∈ l, (∃ c a, f b = .ok c ∧ f' b = .ok a ∧ g c = g' a) ∨ (f b = .throw ∧ f' b = .throw) ∨ (f b = .ub ∧ f' b = .ub)) :
    (l.mapM f >>= fun cs => cs.mapM g) = (l.mapM f' >>= fun cs => cs.mapM g') := by
  have key : (∃ cs as, l.mapM f = .ok cs ∧ l.mapM f' = .ok as ∧ cs.mapM g = as.mapM g') ∨
      (l.mapM f = .throw ∧ l.mapM f' = .throw) ∨ (l.mapM f = .ub ∧ l.mapM f' = .ub) := by
    induction l with
    | nil => exact .inl ⟨[], [], rfl, rfl, rfl⟩
    | cons b l ih =>
      rw [List.mapM_cons, List.mapM_cons]
      rcases h b (by simp) with ⟨c, a, h1, h2, h3⟩ | ⟨h1, h2⟩ | ⟨h1, h2⟩
      · rw [h1, h2, Outcome.bind_ok, Outcome.bind_ok]
        rcases ih (fun b hb => h b (by simp [hb])) with ⟨cs, as, g1, g2, g3⟩ | ⟨g1, g2⟩ | ⟨g1, g2⟩
        · refine .inl ⟨c :: cs, a :: as, by rw [g1]; rfl, by rw [g2]; rfl, ?_⟩
          rw [List.mapM_cons, List.mapM_cons, h3, g3]
        · exact .inr (.inl ⟨by rw [g1]; rfl, by rw [g2]; rfl⟩)
        · exact .inr (.inr ⟨by rw [g1]; rfl, by rw [g2]; rfl⟩)
      · exact .inr (.inl ⟨by rw [h1]; rfl, by rw [h2]; rfl⟩)
      · exact .inr (.inr ⟨by rw [h1]; rfl, by rw [h2]; rfl⟩)
  rcases key with ⟨cs, as, g1, g2, g3⟩ | ⟨g1, g2⟩ | ⟨g1, g2⟩
  · rw [g1, g2]; exact g3
  · rw [g1, g2]; rfl
  · rw [g1, g2]; rfl

section Poly
variable [Zero α] [Add α] [Mul α] [Neg α] [Inhabited α]

theorem shortened_length (c : Channel α) (n : ℕ) (m : Mat α) : (shortened c n m).length = n := by
  unfold shortened; simp; omega

theorem finishPartial_shortened (k : Kit α) (p : Params) (s : ℕ) (c : Channel α) {n : ℕ} (hn : 0 < n) (m : Mat α) :
    finishPartial k p s (shortened c n m) = finishChannel k p s m := by
  unfold finishPartial
  rw [if_neg (by rw [shortened_length]; omega), shortened_length]
  have : rd (shortened c n m) (n - 1) = .ok m := by
    rw [rd_ok (by rw [shortened_length]; omega)]
    unfold shortened
    rw [List.getElem_set_self]
  rw [this, Outcome.bind_ok]

/-- The composition of signals is the partial composition followed by crop and normalisation. -/
theorem composeImpl_partial (k : Kit α) (gs : Outcome (Stack α)) (p : Params) (d : Decs α) (scale start count : ℤ) :
    composeImpl k gs p d scale start count =
      partialCompose k gs p d scale start count >>= fun cs => cs.mapM (finishPartial k p scale.toNat) := by
  unfold composeImpl partialCompose
  by_cases h0 : count < 0
  · rw [if_pos h0, if_pos h0]; rfl
  rw [if_neg h0, if_neg h0]
  cases (if p.dimension = 2 then gs else pure []) with
  | throw => rfl
  | ub => rfl
  | ok ts =>
    simp only [Outcome.bind_ok]
    by_cases h1 : start < 0
    · rw [if_pos h1]
      by_cases h2 : 0 < count
      · rw [if_pos ⟨h1, h2⟩, Outcome.bind_ok]
        obtain ⟨n, hn⟩ : ∃ n, count.toNat = n + 1 := ⟨count.toNat - 1, by omega⟩
        rw [hn, List.replicate_succ, List.mapM_cons]
        rfl
      · have : count.toNat = 0 := by omega
        rw [if_neg (by tauto), if_neg (by tauto), this, loopChannels, if_pos h1]
        rfl
    · rw [if_neg h1, if_neg (by tauto)]
      by_cases h2 : scale < 0 ∧ 0 < count
      · rw [if_pos h2, if_pos h2]
        split_ifs <;> rfl
      · rw [if_neg h2, if_neg h2]
        apply mapM_assoc
        intro ch _
        cases hc : rd d ch with
        | throw => right; left; simp [composeChannel, hc]
        | ub => right; right; simp [composeChannel, hc]
        | ok c =>
          cases hm : composeChannel p ts (filters1D k p) d scale.toNat ch with
          | throw => exact .inr (.inl ⟨rfl, by simp⟩)
          | ub => exact .inr (.inr ⟨rfl, by simp⟩)
          | ok m =>
            left
            exact ⟨m, _, rfl, by simp; rfl, (finishPartial_shortened k p _ c (by omega) m).symm⟩

end Poly

theorem take_front {β : Type} {n : ℕ} {a x y : List β} (h : a.length = n) : ((a ++ x) ++ y).take n = a := by
  rw [List.append_assoc, List.take_append_of_le_length (by omega), List.take_of_length_le (by omega)]

theorem range_split {s n : ℕ} (h : s ≤ n) : List.range n = List.range s ++ List.range' s (n - s) := by
  apply List.ext_getElem
  · simp; omega
  · intro i h1 h2
    by_cases hi : i < s
    · rw [List.getElem_append_left (by simpa using hi)]; simp
    · rw [List.getElem_append_right (by simpa using hi)]; simp; omega

section Ring
variable {R : Type} [CommRing R] [Inhabited R]

/-- On signals of the right size a step with the matrix of the cache is a step with the filters. -/
theorem continueStep_eq {k : Kit R} {p : Params} (hv : ValidParams p) (hf : FilterLen k p) (den : Denoiser R) {s : ℕ}
    (hs : s < p.steps) {m : Mat R} (hm : Fits p s m) (d : Decs R) (ch dest : ℕ) :
    ((Run.lift d (rd (stackP p (scaling k p)) s)).bind fun d mats =>
      if p.dimension = 1 then oneSideStep1DMat d ch dest den mats m s else oneSideStep2D d ch dest den mats m s) =
    if p.dimension = 1 then oneSideStep1D d ch dest den (filters1D k p).loD.reverse (filters1D k p).hiD.reverse m s
    else (Run.lift d (rd (stackP p (scaling k p)) s)).bind fun d mats => oneSideStep2D d ch dest den mats m s := by
  have ht := wavelet_of_steps hv hs
  by_cases hd : p.dimension = 1
  · simp only [if_pos hd]
    rcases fits_halves hv ht hs hm with ⟨_, n2, h1, h2, h3, h4⟩ | ⟨hd2, _⟩
    swap
    · omega
    obtain ⟨n, hsh⟩ : ∃ n, p.shape = [n] := List.length_eq_one_iff.1 hd
    have hrow : matRows (paddedShape p) / 2 ^ s = 2 * n2 := by rw [← h1]; exact hm.1.symm
    have hst : rd (stackP p (scaling k p)) s = .ok [daubP (scaling k p) (qmf (scaling k p)) (2 * n2)] := by
      unfold stackP
      rw [rd_ok (by simpa using hs)]
      congr 1
      simp only [List.getElem_map, List.getElem_range]
      rw [paddedShape_of_wavelet ht, hsh] at hrow ⊢
      simp only [List.map_cons, List.map_nil, matRows] at hrow ⊢
      rw [hrow]
    rw [hst, Run.lift_ok, Run.bind_ok]
    unfold oneSideStep1DMat oneSideStep1D column0
    have hx : (m.col 0).length = 2 * n2 := by simp [h1]
    rw [if_neg (by omega), Outcome.bind_ok, Outcome.bind_ok]
    simp only [rd, List.getElem?_cons_zero, Outcome.bind_ok]
    rw [dwtMat_daubP _ _ p.wtype n2 (length_scaling hf ht) h3 (by omega) hx, filters1D_eq ht]
    simp only [List.reverse_reverse]
    rw [dwt_ok (by simp [length_scaling hf ht, h1]; omega) (by simp [length_scaling hf ht, h1]; omega), hx,
      Nat.mul_div_cancel_left _ (by omega)]
  · simp only [if_neg hd]

/-- The additional steps are the steps of the decomposition. -/
theorem continueSteps_eq {k : Kit R} {p : Params} (hv : ValidParams p) (hf : FilterLen k p) {den : Denoiser R}
    (hden : 0 < p.steps → den.Sized) (ch rem : ℕ) (hrem : rem ≤ p.steps) {m : Mat R} (hm : Fits p (p.steps - rem) m)
    {d : Decs R} {c : Channel R} (hd : d[ch]? = some c) (hc : p.steps * subbandsPerWT p ≤ c.length) :
    continueSteps p (stackP p (scaling k p)) den ch rem d m =
      decomposeSteps p (stackP p (scaling k p)) (filters1D k p) den ch rem d m := by
  induction rem generalizing m d c with
  | zero => rfl
  | succ rem ih =>
    have ht := wavelet_of_steps hv (s := p.steps - (rem + 1)) (by omega)
    simp only [continueSteps, decomposeSteps]
    rw [continueStep_eq hv hf den (by omega) hm]
    have hfit : (p.steps - (rem + 1)) * subbandsPerWT p + subbandsPerWT p ≤ p.steps * subbandsPerWT p := by
      rw [← Nat.succ_mul]; exact Nat.mul_le_mul_right _ (by omega)
    have h1 := oneStep_refines p (stackP p (scaling k p)) (filters1D k p) den (p.steps - (rem + 1)) m d ch c hd (by omega)
    rw [stepO_ok hv hf ht (hden (by omega)) (by omega) hm] at h1
    obtain ⟨h2, h3⟩ := h1
    rw [h3, Run.bind_ok, Run.bind_ok]
    have hfa := fits_approx (k := k) hv ht (by omega) hm
    rw [show p.steps - (rem + 1) + 1 = p.steps - rem by omega] at hfa
    refine ih (by omega) hfa (getElem?_set_self' _ hd) ?_
    rw [length_splice (by omega)]
    exact hc

/-- What a channel looks like after the additional steps, `m` being the padded signal. -/
def contP (p : Params) (h : List R) (den : Denoiser R) (old : ℕ) (c : Channel R) (m : Mat R) : Channel R :=
  c.take (old * subbandsPerWT p) ++
    (List.range' old (p.steps - old)).flatMap (fun s => detailStep p h den s (sig p h m s)) ++ [sig p h m p.steps]

theorem contP_length {p : Params} {h : List R} {den : Denoiser R} {old : ℕ} {c : Channel R} {m : Mat R}
    (hc : c.length = decompositionSize p) (ho : old ≤ p.steps) : (contP p h den old c m).length = decompositionSize p := by
  unfold contP
  rw [List.length_append, List.length_append, flatMap_const_length _ _ (subbandsPerWT p) (fun s _ => length_detailStep p h den s _),
    List.length_take, hc, List.length_range', decompositionSize]
  have h1 : old * subbandsPerWT p ≤ p.steps * subbandsPerWT p := Nat.mul_le_mul_right _ ho
  have h2 : old * subbandsPerWT p + (p.steps - old) * subbandsPerWT p = p.steps * subbandsPerWT p := by
    rw [← Nat.add_mul]; congr 1; omega
  simp; omega

/-- One channel. -/
theorem continueChannel_ok {k : Kit R} {p : Params} (hv : ValidParams p) (hf : FilterLen k p) {den : Denoiser R}
    (hden : 0 < p.steps → den.Sized) {old : ℕ} (ho : old ≤ p.steps) {d : Decs R} {ch : ℕ} {c : Channel R} (hd : d[ch]? = some c)
    (hc : c.length = decompositionSize p) {m : Mat R} (hm : Fits p 0 m)
    (hold : c[old * subbandsPerWT p]? = some (sig p (scaling k p) m old)) (chs : List ℕ) :
    continueChannels p (stackP p (scaling k p)) den old (p.steps - old) (ch :: chs) d =
      continueChannels p (stackP p (scaling k p)) den old (p.steps - old) chs (d.set ch (contP p (scaling k p) den old c m)) := by
  have hsz : p.steps * subbandsPerWT p + 1 = c.length := hc.symm
  rw [continueChannels]
  have e1 : rd d ch = .ok c := by unfold rd; rw [hd]
  have e2 : rd c (old * subbandsPerWT p) = .ok (sig p (scaling k p) m old) := by unfold rd; rw [hold]
  rw [e1, Outcome.bind_ok, e2, Run.lift_ok, Run.bind_ok]
  have hback : p.steps - (p.steps - old) = old := by omega
  have hfit := fits_sig (k := k) hv hm ho
  rw [continueSteps_eq hv hf hden ch _ (by omega) (by rw [hback]; exact hfit) hd (by omega)]
  have href := steps_refines p (stackP p (scaling k p)) (filters1D k p) den ch (p.steps - old) (sig p (scaling k p) m old) d c hd
    (by omega) (by omega)
  have hso := stepsO_ok hv hf hden hm (p.steps - old) (by omega)
  rw [hback] at hso
  rw [hso] at href
  obtain ⟨g1, g2⟩ := href
  rw [hback] at g2
  have h2 : old * subbandsPerWT p + (p.steps - old) * subbandsPerWT p = p.steps * subbandsPerWT p := by
    rw [← Nat.add_mul]; congr 1; omega
  rw [g2, Run.bind_ok, setSub_ok _ (getElem?_set_self' _ hd) (by rw [length_splice (by omega)]; omega), Run.bind_ok, set_set']
  congr 2
  rw [← h2, ← g1, splice_splice (by rw [List.length_singleton]; omega)]
  unfold splice contP
  rw [List.drop_eq_nil_of_le (by rw [List.length_append, List.length_singleton]; omega), List.append_nil, List.append_assoc]

/-- All channels. -/
theorem continueImpl_ok {k : Kit R} {p : Params} (hv : ValidParams p) (hf : FilterLen k p) {den : Denoiser R}
    (hden : 0 < p.steps → den.Sized) {old : ℕ} (ho : old ≤ p.steps) {d : Decs R} (hl : d.length = p.signalNumber)
    (hc : ∀ c ∈ d, c.length = decompositionSize p) (m : ℕ → Mat R) (hm : ∀ ch < d.length, Fits p 0 (m ch))
    (hold : ∀ ch c, d[ch]? = some c → c[old * subbandsPerWT p]? = some (sig p (scaling k p) (m ch) old)) :
    continueImpl (freshStack k p) p d ((p.steps - old : ℕ) : ℤ) den =
      .ok (d.mapIdx fun ch c => contP p (scaling k p) den old c (m ch)) () := by
  unfold continueImpl
  rw [freshStack_ok hv hf, Run.lift_ok, Run.bind_ok, if_neg (by omega), Int.toNat_natCast,
    show ((p.steps : ℤ) - ((p.steps - old : ℕ) : ℤ)).toNat = old by omega, ← hl]
  have key : ∀ n ≤ d.length, continueChannels p (stackP p (scaling k p)) den old (p.steps - old) (List.range' (d.length - n) n)
      ((d.mapIdx fun ch c => contP p (scaling k p) den old c (m ch)).take (d.length - n) ++ d.drop (d.length - n)) =
      .ok (d.mapIdx fun ch c => contP p (scaling k p) den old c (m ch)) () := by
    intro n
    induction n with
    | zero =>
      intro _
      simp only [List.range'_zero, continueChannels, Nat.sub_zero, List.drop_length, List.append_nil]
      rw [List.take_of_length_le (by simp)]
    | succ n ih =>
      intro hn
      have hlt : d.length - (n + 1) < d.length := by omega
      generalize hi : d.length - (n + 1) = i at hlt
      have hi' : d.length - n = i + 1 := by omega
      rw [List.range'_succ]
      have hget : ((d.mapIdx fun ch c => contP p (scaling k p) den old c (m ch)).take i ++ d.drop i)[i]? = some d[i] := by
        rw [List.getElem?_append_right (by simp)]
        simp [Nat.min_eq_left hlt.le]
      rw [continueChannel_ok hv hf hden ho hget (hc _ (List.getElem_mem hlt)) (hm i hlt) (hold i _ (by simp [hlt]))]
      have ih' := ih (by omega)
      rw [hi'] at ih'
      rw [← ih']
      congr 1
      rw [List.set_append_right _ _ (by simp), List.drop_eq_getElem_cons hlt, List.take_add_one]
      simp [Nat.min_eq_left hlt.le, hlt]
      rw [List.drop_eq_getElem_cons hlt]
      rfl
  have h0 := key d.length le_rfl
  rw [Nat.sub_self, List.take_zero, List.drop_zero, List.nil_append, ← List.range_eq_range'] at h0
  exact h0

/-! ### the shapes in between -/

/-- The parameters of the decomposition with fewer steps. -/
def fewer (p : Params) (s : ℕ) : Params := { p with steps := s }

theorem fewer_valid {p : Params} (hv : ValidParams p) {s : ℕ} (hs : s ≤ p.steps) : ValidParams (fewer p s) := by
  refine ⟨hv.1, hv.2.1, ?_⟩
  have h3 := hv.2.2
  unfold fewer
  by_cases ht : p.wtype = 0
  · rw [if_pos ht] at h3 ⊢
    show s = 0
    omega
  · rw [if_neg ht] at h3 ⊢
    intro n hn
    exact le_trans (Nat.mul_le_mul_right _ (Nat.pow_le_pow_right (by omega) hs)) (h3 n hn)

theorem fewer_padded {p : Params} (hv : ValidParams p) {s : ℕ} (hs : s ≤ p.steps)
    (hpad : ∀ n ∈ p.shape, paddedSide (fewer p s) n = paddedSide p n) : paddedShape (fewer p s) = paddedShape p := by
  have h1 := paddedShape_map (fewer_valid hv hs) 1
  have h2 := paddedShape_map hv 1
  simp only [Nat.div_one, List.map_id'] at h1 h2
  rw [h1, h2]
  exact List.map_congr_left hpad

theorem fewer_padOf {p : Params} {s : ℕ} (he : paddedShape (fewer p s) = paddedShape p) (m : Mat R) :
    padOf (fewer p s) m = padOf p m := by
  unfold padOf
  rw [he]
  rfl

theorem fewer_sig (p : Params) (s : ℕ) (h : List R) (m : Mat R) (t : ℕ) : sig (fewer p s) h m t = sig p h m t :=
  sig_congr (p := fewer p s) (q := p) rfl h m t

theorem fewer_chanP {p : Params} {s : ℕ} (he : paddedShape (fewer p s) = paddedShape p) (h : List R) (den : Denoiser R) (m : Mat R) :
    chanP (fewer p s) h den m =
      (List.range s).flatMap (fun t => detailStep p h den t (sig p h (padOf p m) t)) ++ [sig p h (padOf p m) s] := by
  unfold chanP
  rw [fewer_padOf he, fewer_sig]
  congr 2
  funext t
  rw [fewer_sig]
  rfl

theorem fewer_fits {p : Params} {s : ℕ} (he : paddedShape (fewer p s) = paddedShape p) {t : ℕ} {m : Mat R} :
    Fits (fewer p s) t m ↔ Fits p t m := by
  unfold Fits
  rw [he]
  rfl

theorem steps_length (p : Params) (h : List R) (den : Denoiser R) (m : Mat R) (s : ℕ) :
    ((List.range s).flatMap (fun t => detailStep p h den t (sig p h m t))).length = s * subbandsPerWT p := by
  rw [flatMap_const_length _ _ (subbandsPerWT p) (fun s _ => length_detailStep p h den s _), List.length_range]

/-- Continuing the shorter decomposition of a signal. -/
theorem contP_chanP {p : Params} {s : ℕ} (hs : s ≤ p.steps) (he : paddedShape (fewer p s) = paddedShape p) (h : List R)
    (den : Denoiser R) (m : Mat R) (extra : Channel R) :
    contP p h den s (chanP (fewer p s) h den m ++ extra) (padOf p m) = chanP p h den m ∧
    (chanP (fewer p s) h den m ++ extra)[s * subbandsPerWT p]? = some (sig p h (padOf p m) s) := by
  have hl := steps_length p h den (padOf p m) s
  rw [fewer_chanP he]
  constructor
  · unfold contP chanP
    rw [take_front hl, ← List.flatMap_append, ← range_split hs]
  · rw [List.append_assoc, List.getElem?_append_right (by omega), hl]
    simp

theorem shortened_eq (c : Channel R) {n : ℕ} (hn : n + 1 ≤ c.length) (m : Mat R) : shortened c (n + 1) m = c.take n ++ [m] := by
  unfold shortened
  rw [show n + 1 - c.length = 0 by omega, List.replicate_zero, List.append_nil, Nat.add_sub_cancel, List.take_add_one,
    List.getElem?_eq_getElem (by omega)]
  rw [List.set_append_right _ _ (by simp)]
  simp [Nat.min_eq_left (by omega : n ≤ c.length)]

theorem take_chanP {p : Params} {s : ℕ} (hs : s ≤ p.steps) (h : List R) (den : Denoiser R) (m : Mat R) :
    (chanP p h den m).take (s * subbandsPerWT p) = (List.range s).flatMap (fun t => detailStep p h den t (sig p h (padOf p m) t)) := by
  unfold chanP
  rw [range_split hs, List.flatMap_append, List.append_assoc, List.take_append_of_le_length (by rw [steps_length]),
    List.take_of_length_le (by rw [steps_length])]

/-- Undoing the last steps of a decomposition. -/
theorem shortened_chanP {k : Kit R} {p : Params} (hv : ValidParams p) (hf : FilterLen k p) (ho : OrthoKit k p) {s : ℕ}
    (hs : s ≤ p.steps) (he : paddedShape (fewer p s) = paddedShape p) {m : Mat R} (hm : Shaped p m) :
    shortened (chanP p (scaling k p) nullDenoiser m) (s * subbandsPerWT p + 1)
      (reconP p (scaling k p) s (chanP p (scaling k p) nullDenoiser m)) = chanP (fewer p s) (scaling k p) nullDenoiser m := by
  rw [shortened_eq _ (by rw [chanP_length, decompositionSize]; exact Nat.succ_le_succ (Nat.mul_le_mul_right _ hs)), take_chanP hs,
    reconP_chanP hv hf ho hm hs, fewer_chanP he]

theorem partialCompose_range {k : Kit R} {p : Params} (hv : ValidParams p) (hf : FilterLen k p) {d : Decs R} {s start count : ℕ}
    (hs : s ≤ p.steps) (hfit : start + count ≤ d.length) (hc : ∀ c ∈ d, SizedChan p c) :
    partialCompose k (freshTrans k p) p d s start count =
      .ok (((d.map fun c => shortened c (s * subbandsPerWT p + 1) (reconP p (scaling k p) s c)).drop start).take count) := by
  unfold partialCompose
  rw [if_neg (by omega)]
  have hst : ∃ st, (if p.dimension = 2 then freshTrans k p else pure []) = .ok st ∧
      ∀ ch, composeChannel p st (filters1D k p) d s ch =
        composeChannel p (transStack (stackP p (scaling k p))) (filters1D k p) d s ch := by
    rcases shape_cases hv with ⟨n, hsh, hd⟩ | ⟨w, hh, hsh, hd⟩
    · exact ⟨[], by rw [if_neg (by omega)]; rfl, fun ch => composeChannel_stack hd _ _ _ _ _ _⟩
    · refine ⟨_, by rw [if_pos hd]; unfold freshTrans; rw [freshStack_ok hv hf]; rfl, fun ch => rfl⟩
  obtain ⟨st, h1, h2⟩ := hst
  rw [h1, Outcome.bind_ok, if_neg (by omega), if_neg (by omega), Int.toNat_natCast, loopChannels_nat,
    Outcome.mapM_ok (g := fun ch => shortened (d.getD ch []) (s * subbandsPerWT p + 1) (reconP p (scaling k p) s (d.getD ch [])))]
  · congr 1
    apply List.ext_getElem
    · simp; omega
    · intro i g1 g2
      have : start + i < d.length := by simp at g1; omega
      simp [List.getD, this]
  · intro ch hch
    rw [List.mem_range'_1] at hch
    have hch : ch < d.length := by omega
    rw [rd_getD [] hch, Outcome.bind_ok, h2, (composeChannel_ok hv hf hs hch (hc _ (by
      have : d.getD ch [] = d[ch] := by simp [List.getD, hch]
      rw [this]; exact List.getElem_mem hch))).1]
    rfl

theorem partialCompose_ok {k : Kit R} {p : Params} (hv : ValidParams p) (hf : FilterLen k p) {d : Decs R} {s : ℕ} (hs : s ≤ p.steps)
    (hl : d.length = p.signalNumber) (hc : ∀ c ∈ d, SizedChan p c) :
    partialCompose k (freshTrans k p) p d s 0 p.signalNumber =
      .ok (d.map fun c => shortened c (s * subbandsPerWT p + 1) (reconP p (scaling k p) s c)) := by
  have h := partialCompose_range (start := 0) (count := p.signalNumber) hv hf hs (by omega) hc
  rw [Nat.cast_zero] at h
  rw [h, List.drop_zero, List.take_of_length_le (by simp; omega)]

/-- Continuing after undoing. -/
theorem contP_shortened {k : Kit R} {p : Params} (hv : ValidParams p) (hf : FilterLen k p) (ho : OrthoKit k p) {s : ℕ}
    (hs : s ≤ p.steps) {c : Channel R} (hc : SizedChan p c) (extra : Channel R) :
    contP p (scaling k p) nullDenoiser s (shortened c (s * subbandsPerWT p + 1) (reconP p (scaling k p) s c) ++ extra)
      (reconP p (scaling k p) 0 c) = c ∧
    (shortened c (s * subbandsPerWT p + 1) (reconP p (scaling k p) s c) ++ extra)[s * subbandsPerWT p]? =
      some (sig p (scaling k p) (reconP p (scaling k p) 0 c) s) := by
  have hle : s * subbandsPerWT p ≤ p.steps * subbandsPerWT p := Nat.mul_le_mul_right _ hs
  have hlen : c.length = p.steps * subbandsPerWT p + 1 := hc.1
  have htl : (c.take (s * subbandsPerWT p)).length = s * subbandsPerWT p := by simp; omega
  rw [shortened_eq _ (by omega)]
  constructor
  · unfold contP
    rw [take_front htl]
    have hdet : ∀ t ∈ List.range' s (p.steps - s), detailStep p (scaling k p) nullDenoiser t
        (sig p (scaling k p) (reconP p (scaling k p) 0 c) t) = detailsAt p c t := by
      intro t ht
      rw [List.mem_range'_1] at ht
      rw [sig_reconP hv hf ho hc (by omega), reconP_step (by omega)]
      apply List.ext_getElem
      · rw [length_detailStep]; simp [detailsAt]
      · intro q g1 g2
        have g : ∀ (l : List (Mat R)) (h : q < l.length), l[q] = l.getD q default := fun l h => by simp [List.getD, h]
        rw [g _ g1, g _ g2]
        rw [length_detailStep] at g1
        exact (analysis_synth_step hv hf ho (by omega) (reconP_fits hv hc (by omega)) (detailsAt_fits hc (by omega))).2 q g1
    rw [List.flatMap_congr hdet]
    have hlast : sig p (scaling k p) (reconP p (scaling k p) 0 c) p.steps = c.getD (p.steps * subbandsPerWT p) default := by
      rw [sig_reconP hv hf ho hc le_rfl]; unfold reconP; rw [Nat.sub_self, reconFrom]
    rw [hlast]
    have hl2 : ((List.range' s (p.steps - s)).flatMap (detailsAt p c)).length = (p.steps - s) * subbandsPerWT p := by
      rw [flatMap_const_length _ _ (subbandsPerWT p) (fun t _ => by simp [detailsAt]), List.length_range']
    have h2 : s * subbandsPerWT p + (p.steps - s) * subbandsPerWT p = p.steps * subbandsPerWT p := by
      rw [← Nat.add_mul]; congr 1; omega
    apply List.ext_getElem?
    intro i
    by_cases h3 : i < s * subbandsPerWT p
    · rw [List.append_assoc, List.getElem?_append_left (by omega), List.getElem?_take_of_lt h3]
    · by_cases h4 : i < p.steps * subbandsPerWT p
      · rw [List.getElem?_append_left (by rw [List.length_append]; omega), List.getElem?_append_right (by omega), htl]
        have hpos : 0 < subbandsPerWT p := by unfold subbandsPerWT; split_ifs <;> omega
        have hi : i - s * subbandsPerWT p = (i / subbandsPerWT p - s) * subbandsPerWT p + i % subbandsPerWT p := by
          rw [Nat.sub_mul]
          have := Nat.div_add_mod i (subbandsPerWT p)
          have h5 : s ≤ i / subbandsPerWT p := (Nat.le_div_iff_mul_le hpos).2 (by omega)
          have := Nat.mul_le_mul_right (subbandsPerWT p) h5
          rw [Nat.mul_comm] at *
          omega
        rw [hi, getElem?_flatMap_const _ _ (subbandsPerWT p) (fun t _ => by simp [detailsAt]) _ _ (Nat.mod_lt _ hpos)]
        have h5 : s ≤ i / subbandsPerWT p := (Nat.le_div_iff_mul_le hpos).2 (by omega)
        have h6 : i / subbandsPerWT p < p.steps := (Nat.div_lt_iff_lt_mul hpos).2 h4
        rw [List.getElem?_range' (by omega)]
        simp only [Option.bind_some, detailsAt]
        rw [List.getElem?_map, List.getElem?_range (Nat.mod_lt _ hpos), show s + 1 * (i / subbandsPerWT p - s) = i / subbandsPerWT p by omega,
          Option.map_some, Nat.div_add_mod', List.getD, List.getElem?_eq_getElem (by omega), Option.getD_some]
      · rw [List.getElem?_append_right (by rw [List.length_append]; omega), List.length_append, htl, hl2, h2]
        by_cases h7 : i = p.steps * subbandsPerWT p
        · subst h7
          rw [Nat.sub_self, List.getElem?_cons_zero, List.getD, List.getElem?_eq_getElem (by omega), Option.getD_some]
        · rw [List.getElem?_eq_none (by simp; omega), List.getElem?_eq_none (by omega)]
  · rw [sig_reconP hv hf ho hc hs, List.append_assoc, List.getElem?_append_right (by omega), htl]
    simp

theorem reconFrom_add (p : Params) (h : List R) (c : Channel R) (a b i : ℕ) (m : Mat R) :
    reconFrom p h c (a + b) i m = reconFrom p h c b (i - a) (reconFrom p h c a i m) := by
  induction a generalizing i m with
  | zero => simp [reconFrom]
  | succ a ih =>
    rw [show a + 1 + b = (a + b) + 1 by omega, reconFrom, ih, reconFrom]
    congr 1
    omega

theorem reconFrom_agree (p q : Params) (hd : p.dimension = q.dimension) (h : List R) (c c' : Channel R) (n i : ℕ) (hn : n ≤ i) (m : Mat R)
    (hc : ∀ s < i, detailsAt p c s = detailsAt q c' s) : reconFrom p h c n i m = reconFrom q h c' n i m := by
  induction n generalizing i m with
  | zero => rfl
  | succ n ih =>
    rw [reconFrom, reconFrom, hc _ (by omega)]
    have : ∀ x ds, synthStep p h x ds = synthStep q h x ds := by intro x ds; unfold synthStep; rw [hd]
    rw [this]
    exact ih _ (by omega) _ (fun s hs => hc s (by omega))

theorem spw_fewer (p : Params) (s : ℕ) : subbandsPerWT (fewer p s) = subbandsPerWT p := rfl

theorem detailsAt_shortened {p : Params} {s : ℕ} {c : Channel R} (hs : s * subbandsPerWT p + 1 ≤ c.length) (m : Mat R) {t : ℕ}
    (ht : t < s) : detailsAt (fewer p s) (shortened c (s * subbandsPerWT p + 1) m) t = detailsAt p c t := by
  unfold detailsAt
  rw [spw_fewer]
  apply List.map_congr_left
  intro j hj
  rw [List.mem_range] at hj
  have : t * subbandsPerWT p + j < s * subbandsPerWT p := by
    have := Nat.mul_le_mul_right (subbandsPerWT p) (Nat.succ_le_of_lt ht)
    rw [Nat.succ_mul] at this; omega
  rw [shortened_eq _ hs]
  unfold List.getD
  rw [List.getElem?_append_left (by simp; omega), List.getElem?_take_of_lt this]

theorem last_shortened {p : Params} {s : ℕ} {c : Channel R} (hs : s * subbandsPerWT p + 1 ≤ c.length) (m : Mat R) :
    (shortened c (s * subbandsPerWT p + 1) m).getD (s * subbandsPerWT p) default = m := by
  rw [shortened_eq _ hs]
  have : (c.take (s * subbandsPerWT p)).length = s * subbandsPerWT p := by simp; omega
  unfold List.getD
  rw [List.getElem?_append_right (by omega), this]
  simp

/-- The shortened decomposition stands for the same signal. -/
theorem outP_shortened (k : Kit R) {p : Params} {s t : ℕ} (hs : s ≤ p.steps) (ht : t ≤ s) {c : Channel R} (hc : SizedChan p c) :
    outP k (fewer p s) t (shortened c (s * subbandsPerWT p + 1) (reconP p (scaling k p) s c)) = outP k p t c := by
  have hle : s * subbandsPerWT p + 1 ≤ c.length := by rw [hc.1]; exact Nat.succ_le_succ (Nat.mul_le_mul_right _ hs)
  have e : reconP (fewer p s) (scaling k (fewer p s)) t (shortened c (s * subbandsPerWT p + 1) (reconP p (scaling k p) s c)) =
      reconP p (scaling k p) t c := by
    unfold reconP
    rw [spw_fewer, show (fewer p s).steps = s from rfl, show scaling k (fewer p s) = scaling k p from rfl, last_shortened hle,
      reconFrom_agree (fewer p s) p rfl _ _ c _ _ (by omega) _ (fun u hu => detailsAt_shortened hle _ hu),
      show p.steps - t = (p.steps - s) + (s - t) by omega, reconFrom_add, show p.steps - (p.steps - s) = s by omega]
  unfold outP
  rw [e]
  rfl

theorem sized_shortened {k : Kit R} {p : Params} (hv : ValidParams p) {s : ℕ} (hs : s ≤ p.steps)
    (he : paddedShape (fewer p s) = paddedShape p) {c : Channel R} (hc : SizedChan p c) :
    SizedChan (fewer p s) (shortened c (s * subbandsPerWT p + 1) (reconP p (scaling k p) s c)) := by
  have hle : s * subbandsPerWT p + 1 ≤ c.length := by rw [hc.1]; exact Nat.succ_le_succ (Nat.mul_le_mul_right _ hs)
  refine ⟨by rw [shortened_length]; rfl, ?_, ?_⟩
  · intro t ht j hj
    have ht : t < s := ht
    rw [fewer_fits he]
    rw [spw_fewer] at hj ⊢
    have h1 := congrArg (fun l => l.getD j default) (detailsAt_shortened hle (reconP p (scaling k p) s c) ht)
    simp only [detailsAt_getD p c t hj, detailsAt_getD (fewer p s) _ t (by rw [spw_fewer]; exact hj)] at h1
    rw [spw_fewer] at h1
    rw [h1]
    exact hc.2.1 t (by omega) j hj
  · rw [spw_fewer, show (fewer p s).steps = s from rfl, last_shortened hle, fewer_fits he]
    exact reconP_fits hv hc hs

end Ring

end WB
