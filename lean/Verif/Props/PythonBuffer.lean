import Verif.Props.Python
import Mathlib.Tactic.IntervalCases

/-! Properties C53, C60 and C70 to C72: buffers and views in Python. -/

namespace WB.Props

open WB WB.Spec

section Ops
variable {α : Type} [Zero α] [Add α] [Mul α] [Neg α] [Inhabited α]

/-- C53: `decompose` of an array of images is the C++ `Decompose` of the channels the array stands for; its result `false` becomes an exception. -/
theorem C53_decompose (k : Kit α) (val : F32 → α) (b : Buffer α) (a : Py.NpArray) (den : Denoiser α) (w h : ℕ)
    (hs : b.params.shape = [w, h]) (ha : Contiguous3 a b.params.signalNumber h w) (hw : a.writable = true)
    (h1 : b.params.signalNumber < 2 ^ 31) (h2 : h < 2 ^ 31) (h3 : w < 2 ^ 31) :
    ∃ ms, Represents a ms ∧
      (∀ d, b.decompose k (ms.map (Mat.map val)) den = .ok d true → Py.decompose k val b a den = .ok d ()) ∧
      (∀ d, b.decompose k (ms.map (Mat.map val)) den = .ok d false → Py.decompose k val b a den = .throw d) ∧
      (∀ d, b.decompose k (ms.map (Mat.map val)) den = .throw d → Py.decompose k val b a den = .throw d) := by
  obtain ⟨ms, e1, e2⟩ := Py.toSignal_ok ha hw h1 h2 h3
  have hd : b.params.dimension = 2 := by simp [Params.dimension, hs]
  have hsh := ha.1
  have key : Py.decompose k val b a den = Py.orThrow (b.decompose k (ms.map (Mat.map val)) den) := by
    unfold Py.decompose
    rw [if_neg (by omega), if_pos hd, hsh, hs, if_neg (by simp), if_neg (by simp), if_neg (by simp), if_neg (by simp), e1, Run.lift_ok,
      Run.bind_ok]
  refine ⟨ms, e2, fun d hdec => ?_, fun d hdec => ?_, fun d hdec => ?_⟩ <;> rw [key, hdec] <;> rfl

/-- C53: an array of another shape is rejected and nothing changes. -/
theorem C53_wrong_shape (k : Kit α) (val : F32 → α) (b : Buffer α) (a : Py.NpArray) (den : Denoiser α) :
    (∀ n, b.params.shape = [n] → a.shape ≠ [n] → Py.decompose k val b a den = .throw b.decs) ∧
    ∀ w h, b.params.shape = [w, h] → a.shape ≠ [b.params.signalNumber, h, w] → Py.decompose k val b a den = .throw b.decs := by
  refine ⟨fun n hs hne => ?_, fun w h hs hne => ?_⟩
  · have hd : b.params.dimension = 1 := by simp [Params.dimension, hs]
    unfold Py.decompose
    rw [if_pos hd]
    split
    · rfl
    next hl =>
      rw [if_pos]
      obtain ⟨x, hx⟩ := List.length_eq_one_iff.1 (not_not.1 hl)
      rw [hx, hs]
      rw [hx] at hne
      simpa using hne
  · have hd : b.params.dimension = 2 := by simp [Params.dimension, hs]
    unfold Py.decompose
    rw [if_neg (by omega), if_pos hd]
    split
    · rfl
    next hl =>
      obtain ⟨x, y, z, hx⟩ := List.length_eq_three.1 (not_not.1 hl)
      rw [hx] at hne ⊢
      rw [hs]
      simp only [List.getD_cons_zero, List.getD_cons_succ]
      by_cases e1 : x = b.params.signalNumber
      · by_cases e2 : y = h
        · by_cases e3 : z = w
          · exact absurd (by rw [e1, e2, e3]) hne
          · rw [if_neg (by simpa using e1), if_neg (by simpa using e2), if_pos (by simpa using e3)]
        · rw [if_neg (by simpa using e1), if_pos (by simpa using e2)]
      · rw [if_pos (by simpa using e1)]

/-- C53: `compose` returns an array that is, element by element, what the C++ `Compose` returns. -/
theorem C53_compose (k : Kit α) (bits : α → F32) (b : Buffer α) (scale : ℤ) (out : List (Mat α)) (h w : ℕ)
    (hd : b.params.shape.length = 2) (ho : b.compose k scale = .ok out) (hne : out ≠ []) (hsz : ∀ m ∈ out, m.rows = h ∧ m.cols = w)
    (h1 : out.length < 2 ^ 31) (h2 : h < 2 ^ 31) (h3 : w < 2 ^ 31) :
    ∃ a, Py.compose k bits b scale = .ok a ∧ Represents a (out.map (Mat.map bits)) := by
  obtain ⟨a, e1, _, _, e4⟩ := Py.ofSignal_ok (ms := out.map (Mat.map bits)) (h := h) (w := w) (by simpa using hne)
    (by
      intro m hm
      obtain ⟨m', hm', rfl⟩ := List.mem_map.1 hm
      exact hsz m' hm') (by simpa using h1) h2 h3
  refine ⟨a, ?_, e4⟩
  have hd' : b.params.dimension = 2 := hd
  unfold Py.compose
  rw [if_neg (by omega), if_pos hd', ho, Outcome.bind_ok, e1]

/-- C72: composing a buffer without channels is undefined behaviour in Python, though the buffer is valid and the C++ call that returns a list of
signals succeeds (with the empty list). -/
theorem C72_no_channels (k : Kit α) (bits : α → F32) (b : Buffer α) (hb : WellFormed b) (hk : FilterPresent k b.params)
    (h0 : b.params.signalNumber = 0) (scale : ℤ) :
    b.compose k scale = .ok [] ∧ Py.compose k bits b scale = .ub := by
  obtain ⟨hv, hl, _⟩ := hb
  rcases hv.1 with hd | hd
  · have hd' : b.params.dimension = 1 := hd
    have ho : b.compose k scale = .ok [] := by
      unfold Buffer.compose composeImpl
      rw [if_neg (by omega), if_neg (by omega), h0, Outcome.pure_bind', if_neg (by simp), if_neg (by simp)]
      rfl
    refine ⟨ho, ?_⟩
    unfold Py.compose Buffer.compose1
    rw [if_pos hd', ho, Outcome.bind_ok]
    rfl
  have hd' : b.params.dimension = 2 := hd
  have ho : b.compose k scale = .ok [] := by
    unfold Buffer.compose composeImpl
    rw [if_neg (by omega), if_pos hd', freshTrans, freshStack_ok hv hk, h0, Outcome.bind_ok, Outcome.pure_bind', if_neg (by simp), if_neg (by simp)]
    rfl
  refine ⟨ho, ?_⟩
  unfold Py.compose
  rw [if_neg (by omega), if_pos hd', ho, Outcome.bind_ok]
  rfl

/-- Buffers without channels, of two dimensions and of one. -/
example : WellFormed (⟨⟨[4, 4], 0, 1, 1⟩, []⟩ : Buffer F32) ∧ WellFormed (⟨⟨[4], 0, 1, 1⟩, []⟩ : Buffer F32) := by
  refine ⟨⟨⟨by simp, by simp, by simp⟩, rfl, by simp⟩, ⟨⟨by simp, by simp, by simp⟩, rfl, by simp⟩⟩

omit [Zero α] [Add α] [Mul α] [Neg α] [Inhabited α] in
/-- C70: a slice that selects channels gives a view of exactly these channels. -/
theorem C70_slice_channels (b : Buffer α) (start stop step : Option ℤ) (hs : step = none ∨ step = some 1)
    (hne : ∃ i, InSlice b.params.signalNumber start stop i) :
    ∃ s c : ℕ, Py.getItem b start stop step = .ok ⟨s, c, false⟩ ∧ 0 < c ∧ s + c ≤ b.params.signalNumber ∧
      ∀ i, InSlice b.params.signalNumber start stop i ↔ s ≤ i ∧ i < s + c := by
  obtain ⟨lo, hi, h1, h2, h3, h4⟩ := Py.getItem_eq b start stop step (by rcases hs with rfl | rfl <;> rfl)
  obtain ⟨i, hi'⟩ := hne
  have := (h4 i).1 hi'
  refine ⟨lo, hi - lo, ?_, by omega, by omega, fun j => ?_⟩
  · rw [h3, if_neg (by omega), show ((hi - lo : ℕ) : ℤ) = (hi : ℤ) - lo by omega]
  · rw [h4]
    omega

/-- C70: composing such a view gives the selected channels of what composing the buffer gives. -/
theorem C70_slice_compose (k : Kit α) (bits : α → F32) (b : Buffer α) (start stop : Option ℤ) (scale : ℤ) (out : List (Mat α)) (h w : ℕ)
    (hd : b.params.shape.length = 2) (hn : b.params.signalNumber < 2 ^ 31) (hlen : out.length = b.params.signalNumber)
    (ho : b.compose k scale = .ok out) (hsz : ∀ m ∈ out, m.rows = h ∧ m.cols = w) (h2 : h < 2 ^ 31) (h3 : w < 2 ^ 31)
    (hne : ∃ i, InSlice b.params.signalNumber start stop i) :
    ∃ (v : View) (a : Py.NpArray) (sel : List (Mat α)), Py.getItem b start stop none = .ok v ∧ Py.viewCompose k bits v b scale = .ok a ∧
      Represents a (sel.map (Mat.map bits)) ∧
      ∃ s, ∀ i, (sel[i]? = out[s + i]? ∨ sel.length ≤ i) ∧ (InSlice b.params.signalNumber start stop i ↔ s ≤ i ∧ i < s + sel.length) := by
  obtain ⟨s, c, e1, e2, e3, e4⟩ := C70_slice_channels b start stop none (.inl rfl) hne
  have hsl : ((out.drop s).take c).length = c := by
    rw [List.length_take, List.length_drop]
    omega
  have hmem : ∀ m ∈ (out.drop s).take c, m ∈ out := fun m hm => List.mem_of_mem_drop (List.mem_of_mem_take hm)
  obtain ⟨a, f1, _, _, f4⟩ := Py.ofSignal_ok (ms := ((out.drop s).take c).map (Mat.map bits)) (h := h) (w := w)
    (by rw [Ne, List.map_eq_nil_iff, ← List.length_eq_zero_iff]; omega)
    (by
      intro m hm
      obtain ⟨m', hm', rfl⟩ := List.mem_map.1 hm
      exact hsz m' (hmem _ hm')) (by rw [List.length_map]; omega) h2 h3
  refine ⟨_, a, (out.drop s).take c, e1, ?_, f4, s, fun i => ⟨?_, ?_⟩⟩
  · have hd' : b.params.dimension = 2 := hd
    unfold Py.viewCompose
    rw [if_neg (by omega), C26_view_composition_is_slice k b false s c e3 (by omega) scale out ho, Outcome.bind_ok]
    exact f1
  · by_cases hi : i < c
    · left
      rw [List.getElem?_take_of_lt hi, List.getElem?_drop]
    · right
      omega
  · rw [hsl]
    exact e4 i

omit [Zero α] [Add α] [Mul α] [Neg α] [Inhabited α] in
/-- C70: any other step is an error. -/
theorem C70_step (b : Buffer α) (start stop : Option ℤ) (st : ℤ) (h : st ≠ 1) : Py.getItem b start stop (some st) = .throw := by
  unfold Py.getItem Py.resolve
  simp only [Option.getD_some]
  by_cases h0 : st = 0
  · rw [if_pos h0]
    rfl
  · rw [if_neg h0, Outcome.bind_ok]
    simp only
    rw [if_pos (by omega)]

/-- C70, part that holds for slices that select nothing: either there is an exception, or the view made from it is of no use, as every operation with
it is an exception and changes nothing. Missing: that the slice itself is rejected (`C70_empty_accepted`). -/
theorem C70_empty_partial (k : Kit α) (val : F32 → α) (bits : α → F32) (b : Buffer α) (start stop : Option ℤ)
    (hn : b.params.signalNumber < 2 ^ 31) (hne : ¬ ∃ i, InSlice b.params.signalNumber start stop i) :
    Py.getItem b start stop none = .throw ∨ ∃ v, Py.getItem b start stop none = .ok v ∧
      (∀ scale, Py.viewCompose k bits v b scale = .throw) ∧ ∀ a den, Py.viewDecompose k val v b a den = .throw b.decs := by
  obtain ⟨lo, hi, h1, h2, h3, h4⟩ := Py.getItem_eq b start stop none rfl
  by_cases he : lo = hi
  · left
    rw [h3, if_pos he]
  · right
    have hlt : hi < lo := by
      by_contra hcon
      exact hne ⟨lo, (h4 lo).2 ⟨le_refl _, by omega⟩⟩
    refine ⟨_, by rw [h3, if_neg he], fun scale => ?_, fun a den => ?_⟩
    · unfold Py.viewCompose
      split
      · rfl
      · unfold View.compose View.checkRange
        rw [if_pos (by simp only; omega), Outcome.bind_ok, if_pos (by simp only [decide_eq_true_eq]; omega)]
        unfold composeImpl
        rw [if_pos (by simp only; omega)]
        rfl
    · unfold Py.viewDecompose
      split
      · rfl
      · split
        · rfl
        · rw [if_pos (by simp only; omega)]

omit [Zero α] [Add α] [Mul α] [Neg α] [Inhabited α] in
/-- C70 is false for empty slices: `b[2:1]` of three channels is accepted. -/
theorem C70_empty_accepted (b : Buffer α) (h : b.params.signalNumber = 3) :
    (¬ ∃ i, InSlice b.params.signalNumber (some 2) (some 1) i) ∧ Py.getItem b (some 2) (some 1) none = .ok ⟨2, -1, false⟩ := by
  constructor
  · rintro ⟨i, _, h1, h2⟩
    have := h1 2 rfl
    have := h2 1 rfl
    omega
  · unfold Py.getItem Py.resolve
    rw [h]
    rfl

/-- C70: decomposing through a slice is decomposing through the C++ view of the same channels. -/
theorem C70_slice_decompose (k : Kit α) (val : F32 → α) (b : Buffer α) (a : Py.NpArray) (den : Denoiser α) (w h s c : ℕ)
    (hs : b.params.shape = [w, h]) (ha : Contiguous3 a c h w) (hw : a.writable = true)
    (h1 : c < 2 ^ 31) (h2 : h < 2 ^ 31) (h3 : w < 2 ^ 31) :
    ∃ ms, Represents a ms ∧ ∀ d, (View.mk s c false).decompose k b (ms.map (Mat.map val)) den = .ok d true →
      Py.viewDecompose k val ⟨s, c, false⟩ b a den = .ok d () := by
  obtain ⟨ms, e1, e2⟩ := Py.toSignal_ok ha hw h1 h2 h3
  have hd : b.params.dimension = 2 := by simp [Params.dimension, hs]
  have hsh := ha.1
  refine ⟨ms, e2, fun d hdec => ?_⟩
  unfold Py.viewDecompose
  rw [if_neg (by omega), hsh, hs, if_neg (by simp), if_neg (by simp), if_neg (by simp), if_neg (by simp), e1, Run.lift_ok, Run.bind_ok, hdec]
  rfl

/-- C70: a view that reaches beyond the channels is of no use in Python: composing and decomposing are exceptions and change nothing. -/
theorem C70_beyond (k : Kit α) (val : F32 → α) (bits : α → F32) (b : Buffer α) (v : View) (h0 : -2 ^ 31 ≤ v.start + v.count)
    (h1 : (b.params.signalNumber : ℤ) < v.start + v.count ∨ v.start + v.count < 0) (h2 : v.start + v.count < 2 ^ 31) :
    (∀ scale, Py.viewCompose k bits v b scale = .throw) ∧
    ∀ a den, a.shape.length ≠ 3 ∨ (∃ c h w, Contiguous3 a c h w ∧ a.writable = true ∧ c < 2 ^ 31 ∧ h < 2 ^ 31 ∧ w < 2 ^ 31) →
      Py.viewDecompose k val v b a den = .throw b.decs := by
  have hr : v.checkRange b.params.signalNumber = .ok false := by
    unfold View.checkRange
    rw [if_pos ⟨h0, h2⟩, decide_eq_false (by omega)]
  constructor
  · intro scale
    unfold Py.viewCompose
    split
    · rfl
    · unfold View.compose
      rw [hr]
      rfl
  · intro a den ha
    unfold Py.viewDecompose
    split_ifs with g1 g2 g3 g4 g5
    · rfl
    · rfl
    · rfl
    · rfl
    · rfl
    · rcases ha with ha | ⟨c, h, w, ha, hw, e1, e2, e3⟩
      · exact absurd ha g2
      · obtain ⟨ms, f1, -⟩ := Py.toSignal_ok ha hw e1 e2 e3
        rw [f1, Run.lift_ok, Run.bind_ok]
        unfold View.decompose
        rw [hr, Run.lift_ok, Run.bind_ok]
        rfl

end Ops

/-- A view of channels 2 to 4 of a buffer with three. -/
example : (((⟨[4, 4], 3, 1, 1⟩ : Params).signalNumber : ℕ) : ℤ) < (View.mk 2 3 false).start + (View.mk 2 3 false).count := by decide

/-- Channels 1 and 2 of four are selected by `b[-3:-1]`. -/
example : ∃ i, InSlice 4 (some (-3)) (some (-1)) i := ⟨1, by decide, by rintro x ⟨⟩; decide, by rintro x ⟨⟩; decide⟩

/-- C60: the level is an `int`, of which the lowest eight bits are used. -/
theorem C60_level_mod_256 (e : Ext) (b : Buffer F32) (level : ℤ) (h1 : -2 ^ 31 ≤ level) (h2 : level < 2 ^ 31) (n : ℕ) (hn : n < 256)
    (hm : (256 : ℤ) ∣ level - n) :
    (∀ blob, WB.serialize e b [] n = .ok (true, blob) → Py.serialize e b level = .ok blob) ∧
    (∀ blob, WB.serialize e b [] n = .ok (false, blob) → Py.serialize e b level = .throw) ∧
    (WB.serialize e b [] n = .throw → Py.serialize e b level = .throw) ∧ (WB.serialize e b [] n = .ub → Py.serialize e b level = .ub) := by
  have key : Py.serialize e b level = (WB.serialize e b [] n >>= fun r => if r.1 then .ok r.2 else .throw) := by
    unfold Py.serialize
    rw [if_neg (by omega), show (level % 256).toNat = n by omega]
  refine ⟨fun blob h => ?_, fun blob h => ?_, fun h => ?_, fun h => ?_⟩ <;> rw [key, h] <;> rfl

/-- C60: levels that are multiples of 256 switch compression off. -/
theorem C60_multiples_of_256 (e : Ext) (b : Buffer F32) (k : ℤ) (h1 : -2 ^ 31 ≤ 256 * k) (h2 : 256 * k < 2 ^ 31) :
    Py.serialize e b (256 * k) = Py.serialize e b 0 := by
  unfold Py.serialize
  rw [if_neg (by omega), if_neg (by omega), Int.mul_emod_right]
  rfl

/-- C60: a level that is no `int` is an error. -/
theorem C60_no_int (e : Ext) (b : Buffer F32) (level : ℤ) (h : level < -2 ^ 31 ∨ 2 ^ 31 ≤ level) : Py.serialize e b level = .throw := by
  unfold Py.serialize
  rw [if_pos (by omega)]

example : (256 : ℤ) ∣ (-250) - (6 : ℕ) := by decide

/-- C71: the subbands read in Python, given to the constructor together with the parameters, make the same buffer. -/
theorem C71_rebuild (b : Buffer F32) (hb : WellFormed b) (hr : RepresentableType b.params)
    (hsz : ∀ c ∈ b.decs, ∀ m ∈ c, m.rows < 2 ^ 31 ∧ m.cols < 2 ^ 31) : (Py.ofDecs b.decs >>= Py.init b.params) = .ok b := by
  obtain ⟨hv, hl, hc⟩ := hb
  obtain ⟨ds, e1, e2, e3⟩ := Py.ofDecs_ok hsz
  rw [e1, Outcome.bind_ok]
  unfold Py.init
  cases hds : ds with
  | nil =>
    rw [hds] at e3
    have h0 : b.decs = [] := List.length_eq_zero_iff.1 e3.symm
    rw [if_pos (by simp), ctor_ok_of_valid hv hr]
    unfold emptyBuffer
    rw [h0] at hl
    rw [← hl, List.length_nil, List.replicate_zero, ← h0]
  | cons x xs =>
    rw [if_neg (by simp), ← hds, e2, Outcome.bind_ok]
    exact (ctorWith_ok_iff hr _ _).2 ⟨hv, hl, hc, rfl⟩

/-- Its hypotheses hold for a buffer of two channels with one step. -/
example : WellFormed (⟨⟨[4], 2, 1, 1⟩, [[Mat.empty, Mat.empty], [Mat.empty, Mat.empty]]⟩ : Buffer F32) := by
  refine ⟨⟨by simp, by simp, by simp⟩, rfl, by simp [subbandCount, detailsPerStep]⟩

/-- C71: the arrays that Python reads are the subbands, element by element. -/
theorem C71_read (b : Buffer F32) (hsz : ∀ c ∈ b.decs, ∀ m ∈ c, m.rows < 2 ^ 31 ∧ m.cols < 2 ^ 31) :
    ∃ ds, Py.ofDecs b.decs = .ok ds ∧ ds.length = b.decs.length ∧
      ∀ (ch : ℕ) (c : Channel F32) (s : ℕ) (m : Mat F32), b.decs[ch]? = some c → c[s]? = some m → ∃ (ac : List Py.NpArray) (a : Py.NpArray), ds[ch]? = some ac ∧ ac.length = c.length ∧ ac[s]? = some a ∧ RepresentsMat a m := by
  obtain ⟨ds, e1, _, e3⟩ := Py.ofDecs_ok hsz
  refine ⟨ds, e1, e3, fun ch c s m hc hm => ?_⟩
  unfold Py.ofDecs at e1
  obtain ⟨_, f2⟩ := Py.mapM_inv e1
  obtain ⟨ac, g1, g2⟩ := f2 ch c hc
  obtain ⟨g3, g4⟩ := Py.mapM_inv g2
  obtain ⟨a, i1, i2⟩ := g4 s m hm
  obtain ⟨a', j1, _, j3, _⟩ := Py.ofSubband_ok (hsz c (List.mem_of_getElem? hc) m (List.mem_of_getElem? hm)).1
    (hsz c (List.mem_of_getElem? hc) m (List.mem_of_getElem? hm)).2
  rw [i2] at j1
  cases j1
  exact ⟨ac, a, g1, g3, i1, j3⟩

/-- C71 is false for subbands of another layout: the transposed 2 × 2 array is read as if it was not transposed. -/
theorem C71_layout_matters : ∃ (a : Py.NpArray) (m m' : Mat F32), RepresentsMat a m ∧ Py.toSubband a = .ok m' ∧ m ≠ m' := by
  refine ⟨⟨[0, 0, 0, 0, 1, 0, 0, 0, 2, 0, 0, 0, 3, 0, 0, 0], 0, [2, 2], [4, 8], 4, true⟩, Mat.ofFn 2 2 fun i j => BitVec.ofNat 32 (i + 2 * j),
    Mat.ofFn 2 2 fun i j => BitVec.ofNat 32 (2 * i + j), ⟨rfl, ?_⟩, ?_, ?_⟩
  · intro i hi j hj
    change i < 2 at hi
    change j < 2 at hj
    unfold HasElement
    rw [Py.elementPos2 _ 4 8 rfl]
    apply Py.has_of_floatAt
    rw [Mat.get_ofFn hi hj]
    interval_cases i <;> interval_cases j <;> decide
  · unfold Py.toSubband
    simp only
    rw [if_neg (by simp), if_neg (by norm_num)]
    refine Py.fillMat_ok fun i hi j hj => ?_
    interval_cases i <;> interval_cases j <;> decide
  · intro h
    have := congrArg (fun m => m.get 0 1) h
    revert this
    decide

end WB.Props
