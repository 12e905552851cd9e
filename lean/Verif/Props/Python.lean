import Verif.Proof.Python
import Verif.Props.Views

/-! Properties C53, C60 and C70 to C72: the Python bindings. -/

namespace WB.Props

open WB WB.Spec

section Arrays

/-- C53, part that holds for image data coming in: a writable array whose floats lie one after the other is read as the channels it stands for.
Missing: other memory layouts (`C53_layout_matters`), read-only arrays (`C53_read_only`) and other element types (`C53_element_type`). -/
theorem C53_from_numpy_partial (a : Py.NpArray) (c h w : ℕ) (ha : Contiguous3 a c h w) (hw : a.writable = true) (h1 : c < 2 ^ 31)
    (h2 : h < 2 ^ 31) (h3 : w < 2 ^ 31) : ∃ ms, Py.toSignal a = .ok ms ∧ Represents a ms := Py.toSignal_ok ha hw h1 h2 h3

/-- C53, image data going out: channels of equal size become an array that is, element by element, these channels; its floats lie one
after the other. -/
theorem C53_to_numpy (ms : List (Mat F32)) (h w : ℕ) (hne : ms ≠ []) (hsz : ∀ m ∈ ms, m.rows = h ∧ m.cols = w) (h1 : ms.length < 2 ^ 31)
    (h2 : h < 2 ^ 31) (h3 : w < 2 ^ 31) :
    ∃ a, Py.ofSignal ms = .ok a ∧ Contiguous3 a ms.length h w ∧ a.writable = true ∧ Represents a ms := Py.ofSignal_ok hne hsz h1 h2 h3

/-- C53, there and back. -/
theorem C53_round_trip (ms : List (Mat F32)) (h w : ℕ) (hne : ms ≠ []) (hsz : ∀ m ∈ ms, m.rows = h ∧ m.cols = w) (h1 : ms.length < 2 ^ 31)
    (h2 : h < 2 ^ 31) (h3 : w < 2 ^ 31) : (Py.ofSignal ms >>= Py.toSignal) = .ok ms := by
  obtain ⟨a, e1, e2, e3, e4⟩ := Py.ofSignal_ok hne hsz h1 h2 h3
  obtain ⟨ms', f1, f2⟩ := Py.toSignal_ok e2 e3 h1 h2 h3
  rw [e1, Outcome.bind_ok, f1, Py.represents_unique f2 e4]

/-- Two channels of 1 × 2 samples. -/
example : (Py.ofSignal [Mat.ofFn 1 2 fun _ j => BitVec.ofNat 32 (j + 7), Mat.ofFn 1 2 fun _ _ => 0x3f800000#32] >>= Py.toSignal) =
    .ok [Mat.ofFn 1 2 fun _ j => BitVec.ofNat 32 (j + 7), Mat.ofFn 1 2 fun _ _ => 0x3f800000#32] :=
  C53_round_trip _ 1 2 (by simp) (by simp) (by simp) (by norm_num) (by norm_num)

/-- An array of 1 × 1 × 2 floats in the middle of some memory. -/
example : Contiguous3 ⟨[9, 9, 9, 9, 0, 0, 128, 63, 0, 0, 0, 64], 4, [1, 1, 2], [8, 8, 4], 4, true⟩ 1 1 2 := by
  refine ⟨rfl, rfl, by decide, by decide⟩

theorem layout_aux {n : ℕ} {P R : ℤ} (hne : P ≠ R) (h0 : 0 ≤ P) :
    ∃ mem : Bytes, mem.length = n ∧ ∀ x, HasFloat mem P x → ¬ HasFloat mem R x := by
  obtain ⟨q, hq⟩ : ∃ q : ℕ, (q : ℤ) = if R < P then P + 3 else P := by
    split
    · exact ⟨(P + 3).toNat, by omega⟩
    · exact ⟨P.toNat, by omega⟩
  refine ⟨(List.range n).map fun p => if p = q then 1 else 0, by simp, fun x hP hR => ?_⟩
  have hmem : ∀ (i : ℕ) (b : UInt8), ((List.range n).map fun p => if p = q then (1 : UInt8) else 0)[i]? = some b →
      b = if i = q then 1 else 0 := by
    intro i b hb
    rw [List.getElem?_map] at hb
    cases hi : (List.range n)[i]? with
    | none => rw [hi] at hb; cases hb
    | some j =>
      rw [hi] at hb
      obtain ⟨hlt, hj⟩ := List.getElem?_eq_some_iff.1 hi
      rw [List.getElem_range] at hj
      subst hj
      simpa using hb.symm
  have hne1 : x.toNat ≠ 0 := by
    obtain ⟨k, b0, b1, b2, b3, hk, e0, e1, e2, e3, hx⟩ := hP
    have f0 := hmem _ _ e0
    have f3 := hmem _ _ e3
    by_cases hlt : R < P
    · rw [if_pos hlt] at hq
      rw [if_pos (by omega)] at f3
      rw [hx, f3, show (1 : UInt8).toNat = 1 by decide]
      omega
    · rw [if_neg hlt] at hq
      rw [if_pos (by omega)] at f0
      rw [hx, f0, show (1 : UInt8).toNat = 1 by decide]
      omega
  obtain ⟨k, b0, b1, b2, b3, hk, e0, e1, e2, e3, hx⟩ := hR
  have f0 := hmem _ _ e0
  have f1 := hmem _ _ e1
  have f2 := hmem _ _ e2
  have f3 := hmem _ _ e3
  have hout : (k : ℤ) + 3 < q ∨ (q : ℤ) < k := by
    split at hq <;> omega
  rw [if_neg (by omega)] at f0 f1 f2 f3
  rw [f0, f1, f2, f3] at hx
  exact hne1 (by rw [hx]; decide)

/-- C53 is false for every other layout: whatever the strides, if they are not those of floats one after the other, there are contents for which
the array is not read as the channels it stands for (or not read at all). -/
theorem C53_layout_matters (c h w n : ℕ) (start : ℤ) (strides : List ℤ) (hc : 2 ≤ c) (hh : 2 ≤ h) (hw : 2 ≤ w) (hl : strides.length = 3)
    (hne : ¬ strides = ([4 * (h * w : ℕ), 4 * (w : ℕ), 4] : List ℤ))
    (hin : ∀ ch < c, ∀ i < h, ∀ j < w, ∀ mem, 0 ≤ elementPos ⟨mem, start, [c, h, w], strides, 4, true⟩ [ch, i, j] ∧
      elementPos ⟨mem, start, [c, h, w], strides, 4, true⟩ [ch, i, j] + 4 ≤ n) :
    ∃ mem : Bytes, mem.length = n ∧ ∀ ms, Py.toSignal ⟨mem, start, [c, h, w], strides, 4, true⟩ = .ok ms →
      ¬ Represents ⟨mem, start, [c, h, w], strides, 4, true⟩ ms := by
  obtain ⟨s0, s1, s2, rfl⟩ := List.length_eq_three.1 hl
  have key : ∀ ch < c, ∀ i < h, ∀ j < w, s0 * ch + (s1 * i + s2 * j) ≠ 4 * ((h * w * ch + w * i + j : ℕ) : ℤ) →
      ∃ mem : Bytes, mem.length = n ∧ ∀ ms, Py.toSignal ⟨mem, start, [c, h, w], [s0, s1, s2], 4, true⟩ = .ok ms →
        ¬ Represents ⟨mem, start, [c, h, w], [s0, s1, s2], 4, true⟩ ms := by
    intro ch hch i hi j hj hne
    have hb := fun mem => hin ch hch i hi j hj mem
    simp only [fun mem => Py.elementPos3 ⟨mem, start, [c, h, w], [s0, s1, s2], 4, true⟩ s0 s1 s2 rfl ch i j] at hb
    obtain ⟨mem, hm, hx⟩ := layout_aux (n := n) (P := start + (s0 * ch + (s1 * i + s2 * j)))
      (R := start + 4 * ((h * w * ch + w * i + j : ℕ) : ℤ)) (by omega) (hb []).1
    refine ⟨mem, hm, fun ms hms hrep => ?_⟩
    obtain ⟨e1, e2⟩ := Py.toSignal_inv rfl hms
    have hlt : ch < ms.length := by omega
    obtain ⟨f1, f2, f3⟩ := e2 ch _ (List.getElem?_eq_getElem hlt)
    obtain ⟨h', w', g1, g2⟩ := hrep
    simp only [List.cons.injEq, and_true] at g1
    obtain ⟨_, rfl, rfl⟩ := g1
    obtain ⟨_, _, g3⟩ := g2 ch _ (List.getElem?_eq_getElem hlt)
    have hP := g3 i hi j hj
    unfold HasElement at hP
    rw [Py.elementPos3 _ s0 s1 s2 rfl] at hP
    exact hx _ hP (Py.has_of_floatAt (f3 i hi j hj))
  by_cases e0 : s0 = 4 * (h * w : ℕ)
  · by_cases e1 : s1 = 4 * (w : ℕ)
    · refine key 0 (by omega) 0 (by omega) 1 (by omega) ?_
      intro h2
      apply hne
      push_cast at h2
      rw [e0, e1, show s2 = 4 by omega]
    · refine key 0 (by omega) 1 (by omega) 0 (by omega) ?_
      push_cast
      omega
  · refine key 1 (by omega) 0 (by omega) 0 (by omega) ?_
    push_cast
    push_cast at e0
    omega

/-- The layout of a transposed array of 2 × 2 × 2 floats. -/
example : ∃ mem : Bytes, mem.length = 32 ∧ ∀ ms, Py.toSignal ⟨mem, 0, [2, 2, 2], [4, 8, 16], 4, true⟩ = .ok ms →
    ¬ Represents ⟨mem, 0, [2, 2, 2], [4, 8, 16], 4, true⟩ ms := by
  refine C53_layout_matters 2 2 2 32 0 [4, 8, 16] (by omega) (by omega) (by omega) rfl (by decide) ?_
  intro ch hch i hi j hj mem
  rw [Py.elementPos3 _ 4 8 16 rfl]
  simp only
  omega

/-- C53 is false for read-only arrays: they are rejected whatever they contain. -/
theorem C53_read_only (a : Py.NpArray) (h : a.shape.length = 3) (hw : a.writable = false) : Py.toSignal a = .throw := by
  obtain ⟨c, h', w, hs⟩ := List.length_eq_three.1 h
  unfold Py.toSignal
  rw [hs]
  simp [hw]

/-- C53 is false for other element types: an array of bytes (here 1 × 1 × 4 of them) is read beyond its end. -/
theorem C53_element_type (mem : Bytes) (h : mem.length = 4) : Py.toSignal ⟨mem, 0, [1, 1, 4], [4, 4, 1], 1, true⟩ = .ub := by
  unfold Py.toSignal
  simp only
  rw [if_neg (by simp), if_neg (by norm_num)]
  have h1 : Py.NpArray.float ⟨mem, 0, [1, 1, 4], [4, 4, 1], 1, true⟩ (1 * 4 * 0 + 4 * 0 + 1) = .ub := by
    unfold Py.NpArray.float Py.floatAt
    rw [if_neg (by simp [h])]
  obtain ⟨x, h0⟩ := Py.floatAt_ok (mem := mem) (pos := 0) (by omega) (by omega)
  have h0' : Py.NpArray.float ⟨mem, 0, [1, 1, 4], [4, 4, 1], 1, true⟩ (1 * 4 * 0 + 4 * 0 + 0) = .ok x := by
    unfold Py.NpArray.float
    simpa using h0
  rw [List.range_succ, List.range_zero, List.nil_append, List.mapM_cons]
  unfold Py.fillMat
  rw [show List.range (1 * 4) = [0, 1, 2, 3] by decide, List.mapM_cons, List.mapM_cons]
  show (((Py.NpArray.float ⟨mem, 0, [1, 1, 4], [4, 4, 1], 1, true⟩ (1 * 4 * 0 + 4 * 0 + 0) >>= fun b =>
    (Py.NpArray.float ⟨mem, 0, [1, 1, 4], [4, 4, 1], 1, true⟩ (1 * 4 * 0 + 4 * 0 + 1) >>= _) >>= _) >>= _) >>= _) = _
  rw [h0', Outcome.bind_ok, h1]
  rfl

/-- C53, one dimension: the samples are read correctly whatever the stride, also from read-only arrays. -/
theorem C53_one_dimensional (a : Py.NpArray) (n : ℕ) (s : ℤ) (hs : a.shape = [n]) (hst : a.strides = [s])
    (hin : ∀ i < n, 0 ≤ elementPos a [i] ∧ elementPos a [i] + 4 ≤ a.mem.length) :
    ∃ xs, Py.items a = .ok xs ∧ xs.length = n ∧ ∀ i x, xs[i]? = some x → HasElement a [i] x := by
  have hpos : ∀ i : ℕ, elementPos a [i] = a.start + s * i := by
    intro i
    unfold elementPos
    rw [hst]
    simp
  have hval : ∀ i : ℕ, ∃ x, i < n → Py.floatAt a.mem (a.start + s * i) = .ok x := by
    intro i
    by_cases hi : i < n
    · have := hin i hi
      rw [hpos] at this
      obtain ⟨x, hx⟩ := Py.floatAt_ok this.1 this.2
      exact ⟨x, fun _ => hx⟩
    · exact ⟨0, fun h => absurd h hi⟩
  choose v hv using hval
  refine ⟨(List.range n).map v, ?_, by simp, fun i x hx => ?_⟩
  · unfold Py.items
    rw [hs, hst]
    exact Outcome.mapM_ok fun i hi => hv i (List.mem_range.1 hi)
  · unfold HasElement
    rw [hpos]
    have hi : i < n := by
      have := (List.getElem?_eq_some_iff.1 hx).1
      simpa using this
    rw [List.getElem?_map, List.getElem?_range hi] at hx
    cases hx
    exact Py.has_of_floatAt (hv i hi)

/-- A reversed array of two floats: stride -4. -/
example : ∃ xs, Py.items ⟨[0, 0, 128, 63, 0, 0, 0, 64], 4, [2], [-4], 4, false⟩ = .ok xs ∧ xs.length = 2 ∧
    ∀ i x, xs[i]? = some x → HasElement ⟨[0, 0, 128, 63, 0, 0, 0, 64], 4, [2], [-4], 4, false⟩ [i] x := by
  refine C53_one_dimensional _ 2 (-4) rfl rfl fun i hi => ?_
  simp [elementPos]
  omega

end Arrays

end WB.Props
