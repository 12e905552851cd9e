import Verif.Proof.WrongSizes
import Verif.Props.Serialize
import Verif.Props.Params
import Verif.Model.FloatBits

/-!
Property C126: composition of subbands that do not have the prescribed sizes.
-/

set_option linter.unusedSectionVars false

namespace WB.Props

open WB WB.Spec

variable {α : Type} [Zero α] [Add α] [Mul α] [Neg α] [Inhabited α]

/-- C126, result. Whatever sizes the subbands have: when `Compose` returns normally, every channel has the declared size over `2^scale`
(if no side of that is 0). -/
theorem C126_result_size_partial (k : Kit α) (b : Buffer α) (hb : WellFormed b) (hk : FilterPresent k b.params) (s : ℕ)
    (out : List (Mat α)) (h : b.compose k s = .ok out) :
    out.length = b.params.signalNumber ∧
    ((∀ n ∈ b.params.shape, 0 < n / 2 ^ s) → ∀ m ∈ out, HasShape (b.params.shape.map (· / 2 ^ s)) m) := by
  rw [compose_unfold hb.1 hk] at h
  cases hx : (List.range b.params.signalNumber).mapM (composeChannel b.params
      (transStack (stackP b.params (scaling k b.params))) (filters1D k b.params) b.decs s) with
  | throw => rw [hx] at h; cases h
  | ub => rw [hx] at h; cases h
  | ok ms =>
    rw [hx, Outcome.bind_ok] at h
    obtain ⟨l1, l2⟩ := Py.mapM_inv h
    have l3 := (Py.mapM_inv hx).1
    rw [List.length_range] at l3
    refine ⟨by omega, ?_⟩
    intro hpos m hm
    obtain ⟨i, hi, rfl⟩ := List.mem_iff_getElem.1 hm
    obtain ⟨y, e1, e2⟩ := l2 i (ms[i]) (List.getElem?_eq_getElem (by omega))
    rw [List.getElem?_eq_getElem hi, Option.some.injEq] at e1
    rw [← e1] at e2
    rcases shape_cases hb.1 with ⟨n, hsh, hd⟩ | ⟨w, hh, hsh, hd⟩
    · have h1 := hpos n (by simp [hsh])
      have := finish_inv e2 (by rw [hsh]; simpa [matRows, matCols] using h1)
      rw [hsh] at this ⊢
      exact ⟨this.1, this.2.1⟩
    · have h1 := hpos w (by simp [hsh])
      have h2 := hpos hh (by simp [hsh])
      have := finish_inv e2 (by rw [hsh]; simpa [matRows, matCols] using And.intro h2 h1)
      rw [hsh] at this ⊢
      exact ⟨this.1, this.2.1⟩

/-- C126, one dimension, exactly when `Compose` returns normally: in every channel the needed subbands have a column, the approximation
suffices for the requested length, and every detail is at least as long as what it is combined with (surplus is ignored). -/
theorem C126_vector_partial (k : Kit α) (b : Buffer α) (hb : WellFormed b) (hk : FilterPresent k b.params) (n : ℕ)
    (hsh : b.params.shape = [n]) (s : ℕ) (hs : s ≤ b.params.steps) (hn : 0 < n / 2 ^ s) :
    (∃ out, b.compose k s = .ok out) ↔ ∀ c ∈ b.decs, LongEnough b.params s (n / 2 ^ s) c := by
  have hv := hb.1
  have hd : b.params.dimension = 1 := by simp [Params.dimension, hsh]
  have hk1 : subbandsPerWT b.params = 1 := by simp [subbandsPerWT, hd]
  have hr : matRows (b.params.shape.map (· / 2 ^ s)) = n / 2 ^ s := by rw [hsh]; rfl
  have hcc : matCols (b.params.shape.map (· / 2 ^ s)) = 1 := by rw [hsh]; rfl
  rw [compose_iff hb hk]
  apply forall_congr'
  intro c
  apply imp_congr_right
  intro hc
  have hlen := hb.2.2 c hc
  rw [subbandCount, ← subbandsPerWT_eq, hk1, Nat.mul_one] at hlen
  rw [hk1, Nat.mul_one]
  constructor
  · rintro ⟨a, m, r, h1, h2, h3⟩
    obtain ⟨q1, q2, q3, q4⟩ := finish_inv h3 (by rw [hr, hcc]; omega)
    rw [q1, hr] at q3
    rw [q2, hcc] at q4
    by_cases h0 : b.params.steps - s = 0
    · rw [h0] at h2
      cases h2
      refine ⟨a, h1, q4, by rw [h0, pow_zero, Nat.mul_one]; exact q3, fun i e1 e2 => by omega⟩
    · have ht := wavelet_of_steps hv (s := s) (by omega)
      obtain ⟨v1, v2, v3⟩ := composeSteps_one_inv hk hd ht _ (b.params.steps - s) b.params.steps (by omega) (by omega) h2
      exact ⟨a, h1, v2 q4, by rw [← v1]; exact q3, fun i e1 e2 => v3 i (by omega) e2⟩
  · rintro ⟨a, h1, h2, h3, h4⟩
    have key : ∃ m, composeSteps b.params (transStack (stackP b.params (scaling k b.params))) (filters1D k b.params) c
        (b.params.steps - s) b.params.steps a = .ok m ∧ n / 2 ^ s ≤ m.rows ∧ 1 ≤ m.cols := by
      by_cases h0 : b.params.steps - s = 0
      · rw [h0] at h3 ⊢
        exact ⟨a, rfl, by simpa using h3, h2⟩
      · have ht := wavelet_of_steps hv (s := s) (by omega)
        obtain ⟨w1, w2⟩ := valid_side hv ht (n := n) (by simp [hsh])
        have hlow : 2 * b.params.wtype - 1 ≤ a.rows := by
          have e : 2 ^ b.params.steps = 2 ^ s * 2 ^ (b.params.steps - s) := by rw [← pow_add]; congr 1; omega
          have h5 : 2 ^ (b.params.steps - s) * (2 * b.params.wtype - 1) ≤ n / 2 ^ s := by
            rw [Nat.le_div_iff_mul_le (by positivity)]
            calc _ = 2 ^ b.params.steps * (2 * b.params.wtype - 1) := by rw [e]; ring
              _ ≤ n := w2
          have h6 := le_trans h5 h3
          rw [Nat.mul_comm] at h6
          exact Nat.le_of_mul_le_mul_right h6 (by positivity)
        obtain ⟨m, m1, m2, m3⟩ := composeSteps_one_ok hk hd ht (transStack (stackP b.params (scaling k b.params)))
          (b.params.steps - s) b.params.steps (by omega) h2 (by omega) (fun i e1 e2 => h4 i (by omega) e2)
        exact ⟨m, m1, by rw [m2]; exact h3, m3⟩
    obtain ⟨m, m1, m2, m3⟩ := key
    obtain ⟨r, hr'⟩ := finish_of_le (k := k) (p := b.params) (s := s) (m := m) (by rw [hr]; exact m2) (by rw [hcc]; exact m3)
    exact ⟨a, m, r, h1, m1, hr'⟩

/-- C126, one dimension, the counterexamples: if all subbands have a column but some needed detail is shorter than what it is combined with,
memory behind the detail is read. -/
theorem C126_vector_short (k : Kit α) (b : Buffer α) (hb : WellFormed b) (hk : FilterPresent k b.params) (n : ℕ)
    (hsh : b.params.shape = [n]) (s : ℕ) (hcol : ∀ c ∈ b.decs, ∀ m ∈ c, 1 ≤ m.cols)
    (hshort : ∃ c ∈ b.decs, ∃ i a d, s ≤ i ∧ i < b.params.steps ∧ c[b.params.steps]? = some a ∧ c[i]? = some d ∧
      d.rows < a.rows * 2 ^ (b.params.steps - 1 - i)) : b.compose k s = .ub := by
  have hv := hb.1
  have hd : b.params.dimension = 1 := by simp [Params.dimension, hsh]
  have hk1 : subbandsPerWT b.params = 1 := by simp [subbandsPerWT, hd]
  obtain ⟨c0, hc0, i, a, d, h1, h2, h3, h4, h5⟩ := hshort
  have ht := wavelet_of_steps hv h2
  have key : ∀ c ∈ b.decs, ∀ q, q < b.params.steps → ∃ d, c[q]? = some d ∧ 1 ≤ d.cols := by
    intro c hc q hq
    have hlen := hb.2.2 c hc
    rw [subbandCount, ← subbandsPerWT_eq, hk1, Nat.mul_one] at hlen
    exact ⟨c[q], List.getElem?_eq_getElem (by omega), hcol c hc _ (List.getElem_mem _)⟩
  apply compose_ub hb hk
  · intro c hc a' ha
    rw [hk1, Nat.mul_one] at ha
    exact (composeSteps_one_columns hk hd ht _ _ _ (by omega) (hcol c hc _ (List.mem_of_getElem? ha))
      (fun q _ hq => key c hc q hq)).1
  · refine ⟨c0, hc0, fun a' ha => ?_⟩
    rw [hk1, Nat.mul_one, h3] at ha
    cases ha
    exact (composeSteps_one_columns hk hd ht _ _ _ (by omega) (hcol c0 hc0 _ (List.mem_of_getElem? h3))
      (fun q _ hq => key c0 hc0 q hq)).2 ⟨i, d, by omega, h2, h4, h5⟩

/-- C126, two dimensions. When no subband is larger than prescribed, `Compose` to a scale below the number of steps returns normally exactly
when all subbands it needs are complete; otherwise it computes with memory that was never written. -/
theorem C126_picture_partial (k : Kit α) (b : Buffer α) (hb : WellFormed b) (hk : FilterPresent k b.params)
    (hd : b.params.shape.length = 2) (s : ℕ) (hs : s < b.params.steps) (hin : ∀ c ∈ b.decs, NoneLarger b.params c) :
    ((∃ out, b.compose k s = .ok out) ↔ ∀ c ∈ b.decs, NeededComplete b.params s c) ∧
    ((¬ ∀ c ∈ b.decs, NeededComplete b.params s c) → b.compose k s = .ub) := by
  have hv := hb.1
  have hdim : b.params.dimension = 2 := hd
  have hk3 : subbandsPerWT b.params = 3 := by simp [subbandsPerWT, hdim]
  have hk3' : detailsPerStep b.params = 3 := by rw [← subbandsPerWT_eq, hk3]
  have hwithin : ∀ q (m : Mat α), Within (b.params.shape.map (fun n => paddedSide b.params n / 2 ^ q)) m → FitsIn b.params q m := by
    intro q m hm
    rw [← paddedShape_map hv] at hm
    unfold FitsIn
    rw [if_neg (by omega)]
    have hl : (paddedShape b.params).length = 2 := by unfold paddedShape; split_ifs <;> simp [hd]
    obtain ⟨x, y, hxy⟩ := List.length_eq_two.1 hl
    rw [hxy] at hm ⊢
    exact hm
  have hlen : ∀ c ∈ b.decs, c.length = b.params.steps * 3 + 1 := by
    intro c hc
    have := hb.2.2 c hc
    rwa [subbandCount, hk3'] at this
  have hdet : ∀ c ∈ b.decs, ∀ q < b.params.steps, ∀ j < 3, ∃ d, c[q * 3 + j]? = some d ∧ FitsIn b.params (q + 1) d := by
    intro c hc q hq j hj
    have := hlen c hc
    have hget : c[q * 3 + j]? = some c[q * 3 + j] := List.getElem?_eq_getElem (by omega)
    refine ⟨_, hget, hwithin _ _ ((hin c hc).1 q hq j (by omega) _ (by rw [hk3']; exact hget))⟩
  have happ : ∀ c ∈ b.decs, ∀ a, c[b.params.steps * 3]? = some a → FitsIn b.params b.params.steps a := by
    intro c hc a ha
    exact hwithin _ _ ((hin c hc).2 a (by rw [hk3']; exact ha))
  -- one channel
  have chan : ∀ c ∈ b.decs, ∀ a, c[b.params.steps * 3]? = some a →
      (NeededComplete b.params s c → ∃ r, Fits b.params s r ∧ composeSteps b.params
        (transStack (stackP b.params (scaling k b.params))) (filters1D k b.params) c (b.params.steps - s) b.params.steps a = .ok r) ∧
      (¬ NeededComplete b.params s c → composeSteps b.params
        (transStack (stackP b.params (scaling k b.params))) (filters1D k b.params) c (b.params.steps - s) b.params.steps a = .ub) := by
    intro c hc a ha
    by_cases hfa : Fits b.params b.params.steps a
    · obtain ⟨u1, u2⟩ := composeSteps_two hv hk hdim (hdet c hc) (b.params.steps - s) b.params.steps le_rfl (by omega) hfa
      have e : b.params.steps - (b.params.steps - s) = s := by omega
      rw [e] at u1 u2
      refine ⟨?_, ?_⟩
      · intro hn
        apply u2
        intro q q1 q2 j hj d hdj
        rw [fits_iff hv]
        exact hn.1 q q1 q2 j (by omega) d (by rw [hk3']; exact hdj)
      · intro hn
        apply u1
        by_contra hcon
        push Not at hcon
        apply hn
        refine ⟨?_, ?_⟩
        · intro q q1 q2 j hj d hdj
          rw [hk3'] at hj hdj
          rw [← fits_iff hv]
          exact hcon q d j hj q1 q2 hdj
        · intro m hm
          rw [hk3', ha] at hm
          cases hm
          rwa [← fits_iff hv]
    · refine ⟨?_, fun _ => ?_⟩
      · intro hn
        exact absurd ((fits_iff hv _ _).2 (hn.2 a (by rw [hk3']; exact ha))) hfa
      · obtain ⟨i, hi⟩ : ∃ i, b.params.steps = i + 1 := ⟨b.params.steps - 1, by omega⟩
        obtain ⟨t, ht⟩ : ∃ t, b.params.steps - s = t + 1 := ⟨b.params.steps - s - 1, by omega⟩
        have happ := happ c hc a ha
        rw [ht]
        rw [hi] at hfa happ ⊢
        exact composeSteps_two_approx hv hk hdim (hdet c hc) t i (by omega) happ hfa
  have hlast : ∀ c ∈ b.decs, ∃ a, c[b.params.steps * 3]? = some a := by
    intro c hc
    have := hlen c hc
    exact ⟨_, List.getElem?_eq_getElem (by omega)⟩
  have hbad : (¬ ∀ c ∈ b.decs, NeededComplete b.params s c) → b.compose k s = .ub := by
    intro hno
    push Not at hno
    obtain ⟨c0, hc0, hn0⟩ := hno
    apply compose_ub hb hk
    · intro c hc a ha
      rw [hk3] at ha
      by_cases hn : NeededComplete b.params s c
      · obtain ⟨r, _, hr⟩ := (chan c hc a ha).1 hn
        rw [hr]; intro h; cases h
      · rw [(chan c hc a ha).2 hn]; intro h; cases h
    · refine ⟨c0, hc0, fun a ha => ?_⟩
      rw [hk3] at ha
      exact (chan c0 hc0 a ha).2 hn0
  refine ⟨⟨?_, ?_⟩, hbad⟩
  · rintro ⟨out, ho⟩
    by_contra hno
    rw [hbad hno] at ho
    cases ho
  · intro hall
    rw [compose_iff hb hk]
    intro c hc
    obtain ⟨a, ha⟩ := hlast c hc
    obtain ⟨r, fr, hr⟩ := (chan c hc a ha).1 (hall c hc)
    obtain ⟨g1, g2⟩ := scaled_le hv fr
    obtain ⟨o, ho⟩ := finish_of_le (k := k) g1 g2
    exact ⟨a, r, o, by rw [hk3]; exact ha, hr, ho⟩

/-- Pictures all of whose subbands are empty. -/
theorem picture_of_empty (k : Kit α) (b : Buffer α) (hb : WellFormed b) (hk : FilterPresent k b.params)
    (hd : b.params.shape.length = 2) (hn : 0 < b.params.signalNumber) (s : ℕ) (hs : s < b.params.steps)
    (he : ∀ c ∈ b.decs, ∀ m ∈ c, m = Mat.empty) : b.compose k s = .ub := by
  have hv := hb.1
  have ht := wavelet_of_steps hv hs
  obtain ⟨w, h, hsh⟩ := List.length_eq_two.1 hd
  have hwin : ∀ l : List ℕ, l.length = 2 → Within l (Mat.empty : Mat α) := by
    intro l hl
    obtain ⟨x, y, rfl⟩ := List.length_eq_two.1 hl
    exact ⟨Nat.zero_le _, Nat.zero_le _⟩
  refine (C126_picture_partial k b hb hk hd s hs fun c hc => ⟨?_, ?_⟩).2 ?_
  · intro q hq j hj m hm
    rw [he c hc m (List.mem_of_getElem? hm)]
    exact hwin _ (by simp [hd])
  · intro m hm
    rw [he c hc m (List.mem_of_getElem? hm)]
    exact hwin _ (by simp [hd])
  · intro hcon
    have hpos : 0 < b.decs.length := by rw [hb.2.1]; exact hn
    have hmem := List.getElem_mem hpos
    have hlen := hb.2.2 _ hmem
    rw [subbandCount] at hlen
    have hget : (b.decs[0])[b.params.steps * detailsPerStep b.params]? = some (b.decs[0])[b.params.steps * detailsPerStep b.params] :=
      List.getElem?_eq_getElem (by omega)
    have hsz := (hcon _ hmem).2 _ hget
    rw [he _ hmem _ (List.getElem_mem _), hsh] at hsz
    have h0 : 0 = paddedSide b.params h / 2 ^ b.params.steps := hsz.1
    obtain ⟨g1, g2⟩ := valid_side hv ht (n := h) (by simp [hsh])
    rw [paddedSide_eq (by omega), if_neg ht] at h0
    obtain ⟨p1, p2, _⟩ := paddedDim_spec b.params.steps h (by omega)
    have hle : 2 ^ b.params.steps ≤ paddedDim b.params.steps h := by
      refine le_trans ?_ p2
      calc 2 ^ b.params.steps = 2 ^ b.params.steps * 1 := by ring
        _ ≤ 2 ^ b.params.steps * (2 * b.params.wtype - 1) := Nat.mul_le_mul_left _ (by omega)
        _ ≤ h := g2
    have : 1 ≤ paddedDim b.params.steps h / 2 ^ b.params.steps := (Nat.one_le_div_iff (by positivity)).2 hle
    omega

theorem ctor_decs {p : Params} {b : Buffer α} (h : ctor p = .ok b) :
    b.decs = List.replicate b.params.signalNumber (List.replicate (decompositionSize b.params) Mat.empty) := by
  unfold ctor at h
  split_ifs at h <;> (cases h; rfl)

/-- A channel that `Compose` cannot handle: empty subbands in two dimensions; in one dimension an approximation of one sample and details
of none. -/
def badChannel {β : Type} (p : Params) (x : β) : List (Mat β) :=
  if p.shape.length = 1 then List.replicate p.steps (Mat.ofCol []) ++ [Mat.ofCol [x]]
  else List.replicate (p.steps * 3 + 1) Mat.empty

/-- All channels of that kind. -/
def badDecs {β : Type} (p : Params) (x : β) : List (List (Mat β)) := List.replicate p.signalNumber (badChannel p x)

theorem badChannel_length {β : Type} (p : Params) (x : β) : (badChannel p x).length = subbandCount p := by
  unfold badChannel subbandCount detailsPerStep
  split_ifs <;> simp

theorem badChannel_sides {β : Type} (p : Params) (x : β) : ∀ m ∈ badChannel p x, m.rows ≤ 1 ∧ m.cols ≤ 1 := by
  intro m hm
  unfold badChannel at hm
  split_ifs at hm
  · rw [List.mem_append, List.mem_singleton] at hm
    rcases hm with hm | rfl
    · obtain rfl := List.eq_of_mem_replicate hm
      exact ⟨Nat.zero_le _, le_rfl⟩
    · exact ⟨le_rfl, le_rfl⟩
  · obtain rfl := List.eq_of_mem_replicate hm
    exact ⟨Nat.zero_le _, Nat.zero_le _⟩

theorem badDecs_ub (k : Kit α) (p : Params) (hv : ValidParams p) (hk : FilterPresent k p) (hn : 0 < p.signalNumber) (s : ℕ)
    (hs : s < p.steps) (x : α) : (Buffer.mk p (badDecs p x)).compose k s = .ub := by
  have hw : WellFormed (Buffer.mk p (badDecs p x)) := ⟨hv, by simp [badDecs], fun c hc => by
    obtain rfl := List.eq_of_mem_replicate hc
    exact badChannel_length p x⟩
  rcases hv.1 with h1 | h2
  · obtain ⟨n, hsh⟩ := List.length_eq_one_iff.1 h1
    have hbad : badChannel p x = List.replicate p.steps (Mat.ofCol []) ++ [Mat.ofCol [x]] := by
      unfold badChannel; rw [if_pos h1]
    refine C126_vector_short k _ hw hk n hsh s ?_ ?_
    · intro c hc m hm
      obtain rfl := List.eq_of_mem_replicate hc
      rw [hbad, List.mem_append, List.mem_singleton] at hm
      rcases hm with hm | rfl
      · obtain rfl := List.eq_of_mem_replicate hm
        exact le_rfl
      · exact le_rfl
    · refine ⟨badChannel p x, List.mem_replicate.2 ⟨by omega, rfl⟩, s, Mat.ofCol [x], Mat.ofCol [], le_rfl, hs, ?_, ?_, ?_⟩
      · rw [hbad]; simp
      · rw [hbad, List.getElem?_append_left (by simpa using hs)]; simp [hs]
      · simp
  · refine picture_of_empty k _ hw hk h2 hn s hs ?_
    intro c hc m hm
    obtain rfl := List.eq_of_mem_replicate hc
    unfold badChannel at hm
    rw [if_neg (by omega)] at hm
    exact List.eq_of_mem_replicate hm

/-- C126, fresh buffers, the counterexample. A buffer for pictures that has just been constructed has empty subbands; composing it to any
scale below its number of steps computes with memory that was never written. -/
theorem C126_fresh_picture (k : Kit α) (p : Params) (b : Buffer α) (hc : ctor p = .ok b) (hk : FilterPresent k p)
    (hd : p.shape.length = 2) (hn : 0 < p.signalNumber) (s : ℕ) (hs : s < p.steps) : b.compose k s = .ub := by
  obtain ⟨hw, hp⟩ := ctor_wf hc
  subst hp
  have hdec := ctor_decs hc
  refine picture_of_empty k b hw hk hd hn s hs ?_
  intro c hcm m hm
  rw [hdec] at hcm
  obtain rfl := List.eq_of_mem_replicate hcm
  obtain rfl := List.eq_of_mem_replicate hm
  rfl

/-- C126, fresh buffers in one dimension: composing throws. -/
theorem C126_fresh_vector (k : Kit α) (p : Params) (b : Buffer α) (hc : ctor p = .ok b) (hk : FilterPresent k p) (n : ℕ)
    (hsh : p.shape = [n]) (hn : 0 < p.signalNumber) (s : ℕ) (hs : s ≤ p.steps) (h0 : 0 < n / 2 ^ s) : b.compose k s = .throw := by
  obtain ⟨hw, hp⟩ := ctor_wf hc
  subst hp
  have hdec := ctor_decs hc
  have hd : b.params.dimension = 1 := by simp [Params.dimension, hsh]
  have hk1 : subbandsPerWT b.params = 1 := by simp [subbandsPerWT, hd]
  obtain ⟨l, hl⟩ : ∃ l, b.params.signalNumber = l + 1 := ⟨b.params.signalNumber - 1, by omega⟩
  have hget : ∀ q ≤ b.params.steps, (List.replicate (decompositionSize b.params) (Mat.empty : Mat α))[q]? = some Mat.empty := by
    intro q hq
    rw [List.getElem?_replicate, if_pos]
    rw [decompositionSize, hk1]; omega
  rw [compose_unfold hw.1 hk]
  have hch : ∀ ch < b.params.signalNumber, ∀ st : Stack α, composeChannel b.params st (filters1D k b.params) b.decs s ch =
      if s < b.params.steps then .throw else .ok Mat.empty := by
    intro ch hch st
    unfold composeChannel
    have e1 : rd b.decs ch = .ok (List.replicate (decompositionSize b.params) Mat.empty) := by
      rw [hdec]; simp [rd, hch]
    rw [e1, Outcome.bind_ok, hk1, Nat.mul_one]
    have e2 := hget b.params.steps le_rfl
    rw [show rd (List.replicate (decompositionSize b.params) (Mat.empty : Mat α)) b.params.steps = .ok Mat.empty by simp [rd, e2],
      Outcome.bind_ok]
    split_ifs with hlt
    · have ht := wavelet_of_steps hw.1 hlt
      obtain ⟨i, hi⟩ : ∃ i, b.params.steps = i + 1 := ⟨b.params.steps - 1, by omega⟩
      obtain ⟨t, ht'⟩ : ∃ t, b.params.steps - s = t + 1 := ⟨b.params.steps - s - 1, by omega⟩
      have e3 := hget i (by omega)
      rw [ht', hi, composeSteps_one_succ hd]
      rw [(composeStep_one hk ht [] (m := Mat.empty) e3).1 (.inl rfl)]
      rfl
    · rw [show b.params.steps - s = 0 by omega]
      rfl
  by_cases hlt : s < b.params.steps
  · rw [hl, List.range_succ_eq_map, List.mapM_cons, hch 0 (by omega), if_pos hlt]
    rfl
  · rw [Outcome.mapM_ok (g := fun _ => Mat.empty)]
    · rw [Outcome.bind_ok, hl, List.range_succ_eq_map, List.map_cons, List.mapM_cons]
      have : finishChannel k b.params s (Mat.empty : Mat α) = .throw := by
        unfold finishChannel cropPadding crop
        rw [hsh]
        simp only [List.map_cons, List.map_nil, matRows, matCols]
        rw [if_neg (by omega), if_pos (.inl (by show (0 : ℕ) < _; omega))]
        rfl
      rw [this]
      rfl
    · intro ch hcm
      rw [hch ch (List.mem_range.1 hcm), if_neg hlt]

/-- C126, archives, the counterexample. For all parameters with at least one channel there is an archive that `Parse` accepts
and whose buffer cannot be composed to any scale below the number of steps without touching memory it should not. -/
theorem C126_archive (e : Ext) (M : ℕ) (p : Params) (old : Bytes) (hv : ValidParams p) (hs : ∀ n ∈ p.shape, n < 2 ^ 64)
    (hn : p.signalNumber < 2 ^ 64) (h8 : p.wtype < 8) (hn0 : 0 < p.signalNumber) (hM : Room e M)
    (hm : p.signalNumber * subbandCount p ≤ M) :
    ∃ b blob, b.params = p ∧ serialize e b old 0 = .ok (true, blob) ∧ (blob.length ≤ M → parse e blob = .ok (some b)) ∧
      ∀ (o : FloatOps) (k : Kit (Bits o)), FilterPresent k p → ∀ s < p.steps,
        (Buffer.mk (α := Bits o) b.params b.decs).compose k s = .ub := by
  let b : Buffer F32 := ⟨p, badDecs p 0⟩
  have hw : WellFormed b := ⟨hv, by simp [b, badDecs], fun c hc => by
    obtain rfl := List.eq_of_mem_replicate hc
    exact badChannel_length p 0⟩
  have hsz := badChannel_sides p (0 : F32)
  have hM1 : 1 ≤ M := by
    have : 0 < p.signalNumber * subbandCount p := Nat.mul_pos hn0 (by unfold subbandCount; omega)
    omega
  obtain ⟨blob, h1, h2⟩ := C27_uncompressed_round_trip e M b old hw
    ⟨hs, hn, h8, fun c hc m hm' => by
      obtain rfl := List.eq_of_mem_replicate hc
      have := hsz m hm'
      constructor <;> omega⟩ hM
    ⟨hm, fun c hc m hm' => by
      obtain rfl := List.eq_of_mem_replicate hc
      have := hsz m hm'
      calc m.rows * m.cols ≤ 1 * 1 := Nat.mul_le_mul this.1 this.2
        _ ≤ M := by omega⟩
  refine ⟨b, blob, rfl, h1, h2, ?_⟩
  intro o k hk s hss
  exact badDecs_ub (α := Bits o) k p hv hk hn0 s hss (0 : F32)

section Cases

/-- A kit over the integers: the filter 1, 1 for order 1, no scaling. -/
private def exKit126 : Kit ℤ := ⟨fun _ => [1, 1], id, fun _ _ x => x⟩

/-- 1D, 8 samples, 2 steps: details of 5 and 2 samples (4 and 2 are prescribed). -/
private def exSurplus : Buffer ℤ :=
  ⟨⟨[8], 1, 2, 1⟩, [[Mat.ofCol [1, 2, 3, 4, 5], Mat.ofCol [1, 2], Mat.ofCol [7, 8]]]⟩

/-- The same with only 3 samples in the first detail. -/
private def exShort : Buffer ℤ :=
  ⟨⟨[8], 1, 2, 1⟩, [[Mat.ofCol [1, 2, 3], Mat.ofCol [1, 2], Mat.ofCol [7, 8]]]⟩

/-- C126: the surplus buffer meets the condition of the exact theorem, the short one that of the counterexample, but only for scale 0: composing it to
scale 1 does not use the short detail. -/
example : WellFormed exSurplus ∧ FilterPresent exKit126 exSurplus.params ∧ (∀ c ∈ exSurplus.decs, LongEnough exSurplus.params 0 8 c) ∧
    WellFormed exShort ∧ exShort.compose exKit126 0 = .ub ∧ (∀ c ∈ exShort.decs, LongEnough exShort.params 1 4 c) := by
  have w1 : WellFormed exSurplus := ⟨⟨by simp [exSurplus], by simp [exSurplus], by simp [exSurplus]⟩, rfl, by simp [exSurplus, subbandCount, detailsPerStep]⟩
  have w2 : WellFormed exShort := ⟨⟨by simp [exShort], by simp [exShort], by simp [exShort]⟩, rfl, by simp [exShort, subbandCount, detailsPerStep]⟩
  refine ⟨w1, fun _ => rfl, ?_, w2, ?_, ?_⟩
  · intro c hc
    simp only [exSurplus, List.mem_singleton] at hc
    subst hc
    refine ⟨_, rfl, le_rfl, by decide, fun s _ h2 => ?_⟩
    obtain rfl | rfl : s = 0 ∨ s = 1 := by simp [exSurplus] at h2; omega
    · exact ⟨_, rfl, le_rfl, by decide⟩
    · exact ⟨_, rfl, le_rfl, by decide⟩
  · refine C126_vector_short exKit126 exShort w2 (fun _ => rfl) 8 rfl 0 ?_ ?_
    · simp [exShort]
    · exact ⟨_, List.mem_singleton.2 rfl, 0, Mat.ofCol [7, 8], Mat.ofCol [1, 2, 3], le_rfl, by decide, rfl, rfl, by decide⟩
  · intro c hc
    simp only [exShort, List.mem_singleton] at hc
    subst hc
    refine ⟨_, rfl, le_rfl, by decide, fun s h1 h2 => ?_⟩
    obtain rfl : s = 1 := by simp [exShort] at h2; omega
    exact ⟨_, rfl, le_rfl, by decide⟩

/-- C126: a fresh buffer for pictures of 8 by 4 samples with two steps. -/
example : ∃ b : Buffer ℤ, ctor ⟨[8, 4], 3, 2, 1⟩ = .ok b ∧ FilterPresent exKit126 ⟨[8, 4], 3, 2, 1⟩ ∧ b.compose exKit126 1 = .ub := by
  have h : ctor (α := ℤ) ⟨[8, 4], 3, 2, 1⟩ = .ok ⟨⟨[8, 4], 3, 2, 1⟩, List.replicate 3 (List.replicate 7 Mat.empty)⟩ :=
    ctor_ok_of_valid ⟨by simp, by simp, by simp⟩ (by unfold RepresentableType; norm_num)
  exact ⟨_, h, fun _ => rfl, C126_fresh_picture exKit126 _ _ h (fun _ => rfl) rfl (by decide) 1 (by decide)⟩

end Cases

end WB.Props
