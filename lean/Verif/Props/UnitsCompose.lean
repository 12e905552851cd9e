import Verif.Props.UnitsArchive

/-!
C149: compositions from coefficients, and from archives, in a unit that differs by a power of two.
-/

namespace WB.Props

open Spec

section
variable {r : Rounding} {o : FloatOps}

theorem unmark_plain (d : Decs F32) : unmark (plainDecs r o d) = d := by
  have hm : ∀ m : Mat F32, (m.map (Marked.plain : F32 → Marked r o)).map (Marked.bits : Marked r o → F32) = m := fun m => by
    rw [Mat.eq_iff]
    refine ⟨rfl, rfl, ?_⟩
    simp only [Mat.map, List.map_map]
    exact List.map_id _
  have hc : ∀ c : Channel F32, (c.map fun m => m.map (Marked.plain : F32 → Marked r o)).map (fun m => m.map (Marked.bits : Marked r o → F32)) = c := by
    intro c
    induction c with
    | nil => rfl
    | cons m c ih => rw [List.map_cons, List.map_cons, hm, ih]
  unfold unmark plainDecs
  induction d with
  | nil => rfl
  | cons c d ih => rw [List.map_cons, List.map_cons, hc, ih]

/-- What is composed with marks has the bits that the program computes. -/
theorem compose_bits {p : Params} (hv : ValidParams p) (hw : p.wtype ≤ 5) {d : Decs (Marked r o)} (hl : d.length = p.signalNumber)
    (hc : ∀ c ∈ d, SizedChan p c) {s : ℕ} (hs : s ≤ p.steps) {out : List (Mat (Marked r o))} (h : (Buffer.mk p d).compose (marksKit r o) s = .ok out) :
    Buffer.compose (α := Bits o) (bitsKit r o) ⟨p, unmark d⟩ s = .ok (out.map fun m => m.map Marked.bits) := by
  rw [compose_ok (b := ⟨p, d⟩) hv hl (marks_present r o hw) hc hs] at h
  injection h with h
  subst h
  have h := compose_ok (k := bitsKit r o) (b := (⟨p, d.map fun c => c.map fun m => m.map (Marked.bits : Marked r o → Bits o)⟩ : Buffer (Bits o))) hv
    (by show (d.map _).length = _; rw [List.length_map]; exact hl) (bitsKit_present (by show p.wtype ≤ _; omega)) (by
      intro c hc'
      obtain ⟨c0, h0, rfl⟩ := List.mem_map.1 hc'
      exact sized_hom _ _ (hc c0 h0)) hs
  refine Eq.trans h ?_
  congr 1
  simp only [List.map_map]
  exact List.map_congr_left fun c _ => out_hom (marks_hom (r := r) (o := o)) _ _ _

end

/-- C149: two sets of coefficients that are the same in units that differ by a power of two - decomposed, read from an archive or put together in any other
way - compose to signals that are the same in these units, at every scale, without any difference in rounding; every number that no overflow or
underflow went into. -/
theorem C149_compose (r : Rounding) (o : FloatOps) (ho : o.Correct r) (hu : UnitBlind r o) (e : ℤ) (p : Params) (d d' : Decs F32)
    (hb : WellFormed (Buffer.mk p d)) (hw : p.wtype ≤ 5) (hs : ∀ c ∈ d, PrescribedShapes p c) (h : RelatedDecs (InUnit e) d d') (s : ℕ) (hsc : s ≤ p.steps) :
    ∃ out out' : List (Mat (Marked r o)),
      (Buffer.mk p (plainDecs r o d)).compose (marksKit r o) s = .ok out ∧ (Buffer.mk p (plainDecs r o d')).compose (marksKit r o) s = .ok out' ∧
      Buffer.compose (α := Bits o) (bitsKit r o) ⟨p, d⟩ s = .ok (out.map fun m => m.map Marked.bits) ∧
      Buffer.compose (α := Bits o) (bitsKit r o) ⟨p, d'⟩ s = .ok (out'.map fun m => m.map Marked.bits) ∧
      List.Forall₂ (RelatedMats (InUnitOrMarked e)) out out' := by
  have hv : ValidParams p := hb.1
  have rel : RelatedDecs (InUnitOrMarked e) (plainDecs r o d) (plainDecs r o d') := by
    unfold RelatedDecs plainDecs
    rw [List.forall₂_map_left_iff, List.forall₂_map_right_iff]
    refine h.imp fun c c' g => ?_
    rw [List.forall₂_map_left_iff, List.forall₂_map_right_iff]
    refine g.imp fun m m' g => ⟨g.1, g.2.1, fun i hi j hj => Or.inr (Or.inr ?_)⟩
    have hi' : i < m'.rows := by rw [g.1]; exact hi
    have hj' : j < m'.cols := by rw [g.2.1]; exact hj
    rw [Mat.get_map _ m hi hj, Mat.get_map _ m' hi' hj']
    exact g.2.2 i hi j hj
  have sz0 : ∀ c ∈ d, SizedChan p c := fun c hc => (sized_iff hv c).2 (hs c hc)
  have same : ∀ {c c' : Channel F32}, List.Forall₂ (RelatedMats (InUnit e)) c c' → ∀ i, (c'.getD i default).rows = (c.getD i default).rows ∧
      (c'.getD i default).cols = (c.getD i default).cols := fun g i => ⟨(getD_mat_rel g i).1, (getD_mat_rel g i).2.1⟩
  have sz1 : ∀ c ∈ d', SizedChan p c := by
    intro c' hc'
    obtain ⟨n, hn, rfl⟩ := List.mem_iff_getElem.1 hc'
    have hn' : n < d.length := by rw [h.length_eq]; exact hn
    have g := h.get hn' hn
    simp only [List.get_eq_getElem] at g
    obtain ⟨t1, t2, t3⟩ := sz0 _ (List.getElem_mem hn')
    have fit : ∀ {q : ℕ} {m m' : Mat F32}, m'.rows = m.rows → m'.cols = m.cols → Fits p q m → Fits p q m' := by
      intro q m m' e1 e2 hf
      unfold Fits at *
      rw [e1, e2]
      exact hf
    exact ⟨g.length_eq.symm.trans t1, fun q hq j hj => fit (same g _).1 (same g _).2 (t2 q hq j hj), fit (same g _).1 (same g _).2 t3⟩
  have up : ∀ {dd : Decs F32}, (∀ c ∈ dd, SizedChan p c) → ∀ c ∈ plainDecs r o dd, SizedChan p c := by
    intro dd hdd c hc
    obtain ⟨c0, h0, rfl⟩ := List.mem_map.1 hc
    exact sized_hom _ _ (hdd c0 h0)
  have l0 : (plainDecs r o d).length = p.signalNumber := by unfold plainDecs; rw [List.length_map]; exact hb.2.1
  have l1 : (plainDecs r o d').length = p.signalNumber := by rw [← rel.length_eq]; exact l0
  obtain ⟨out, out', h1, h2, h3⟩ := compose_rel (marksKit r o) (InUnitOrMarked e) (unit_survives ho hu e) hv (marks_present r o hw) l0 (up sz0) (up sz1) rel hsc
  refine ⟨out, out', h1, h2, ?_, ?_, h3⟩
  · have := compose_bits hv hw l0 (up sz0) hsc h1
    rwa [unmark_plain] at this
  · have := compose_bits hv hw l1 (up sz1) hsc h2
    rwa [unmark_plain] at this

/-- The hypotheses can be met: one Haar step, an average of 1 and a difference of 1, and the same with 2. -/
example : let p : Params := ⟨[2], 1, 1, 1⟩
    let d : F32 → Decs F32 := fun x => [[Mat.ofFn 1 1 fun _ _ => x, Mat.ofFn 1 1 fun _ _ => x]]
    WellFormed (Buffer.mk p (d 0x3f800000#32)) ∧ (∀ c ∈ d 0x3f800000#32, PrescribedShapes p c) ∧
      RelatedDecs (InUnit 1) (d 0x3f800000#32) (d 0x40000000#32) := by
  intro p d
  have wf : WellFormed (Buffer.mk p (d 0x3f800000#32)) := by
    refine ⟨⟨?_, ?_, ?_⟩, ?_, ?_⟩ <;> simp [p, d, subbandCount, detailsPerStep]
  refine ⟨wf, fun c hc => ?_, ?_⟩
  · rw [← sized_iff wf.1]
    obtain rfl : c = [Mat.ofFn 1 1 fun _ _ => 0x3f800000#32, Mat.ofFn 1 1 fun _ _ => 0x3f800000#32] := List.mem_singleton.1 hc
    refine ⟨by decide, fun s hs j hj => ?_, by show Fits ⟨[2], 1, 1, 1⟩ 1 (Mat.ofFn 1 1 fun _ _ => (0x3f800000#32 : F32)); unfold Fits; decide +kernel⟩
    obtain rfl : s = 0 := by have : s < 1 := hs; omega
    obtain rfl : j = 0 := by have : j < 1 := hj; omega
    show Fits ⟨[2], 1, 1, 1⟩ 1 (Mat.ofFn 1 1 fun _ _ => (0x3f800000#32 : F32))
    unfold Fits
    decide +kernel
  · have one : RelatedMats (InUnit 1) (Mat.ofFn 1 1 fun _ _ => (0x3f800000#32 : F32)) (Mat.ofFn 1 1 fun _ _ => (0x40000000#32 : F32)) := by
      refine ⟨rfl, rfl, fun i hi j hj => ?_⟩
      rw [Mat.get_ofFn (r := 1) (c := 1) hi hj, Mat.get_ofFn (r := 1) (c := 1) hi hj]
      exact one_two_unit.1
    exact .cons (.cons one (.cons one .nil)) .nil

/-- C149: in particular previews and signals composed from archives, written with any levels up to 24 any number of times. -/
theorem C149_archived (r : Rounding) (o : FloatOps) (ho : o.Correct r) (hu : UnitBlind r o) (e : Ext) (Mem : ℕ) (hcw : CodecsWork e truncBits)
    (hM : Room e Mem) (ls : List ℕ) (h24 : ∀ l ∈ ls, l ≤ 24) (u : ℤ) (b b' : Buffer F32) (hb : WellFormed b) (hw : b.params.wtype ≤ 5)
    (hs : ∀ c ∈ b.decs, PrescribedShapes b.params c) (hf : FitsFormat b) (hc : Compressible b) (hm : FitsMemory b Mem) (hp : b'.params = b.params)
    (h : RelatedDecs (NormalInUnit u) b.decs b'.decs) (c c' : Buffer F32) (g : Generations e Mem ls b c) (g' : Generations e Mem ls b' c')
    (s : ℕ) (hsc : s ≤ b.params.steps) :
    ∃ out out' : List (Mat (Marked r o)),
      (Buffer.mk c.params (plainDecs r o c.decs)).compose (marksKit r o) s = .ok out ∧
      (Buffer.mk c'.params (plainDecs r o c'.decs)).compose (marksKit r o) s = .ok out' ∧
      Buffer.compose (α := Bits o) (bitsKit r o) c s = .ok (out.map fun m => m.map Marked.bits) ∧
      Buffer.compose (α := Bits o) (bitsKit r o) c' s = .ok (out'.map fun m => m.map Marked.bits) ∧
      List.Forall₂ (RelatedMats (InUnitOrMarked u)) out out' := by
  obtain ⟨k1, k2⟩ := C148_archives e Mem hcw hM ls h24 u b b' hb hf hc hm hp h c c' g g'
  have cut := C108_generations e Mem hcw hM ls b c hb hf hc hm g
  have a := cut.alike
  have wf := a.wf hb
  have sh : ∀ x ∈ c.decs, PrescribedShapes c.params x := by
    intro x hx
    rw [← sized_iff wf.1, cut.1]
    obtain ⟨n, hn, rfl⟩ := List.mem_iff_getElem.1 hx
    have hn' : n < b.decs.length := by rw [a.2.length_eq]; exact hn
    have g := a.2.get hn' hn
    simp only [List.get_eq_getElem] at g
    obtain ⟨t1, t2, t3⟩ := (sized_iff hb.1 _).2 (hs _ (List.getElem_mem hn'))
    have rl : List.Forall₂ (RelatedMats fun _ _ : F32 => True) b.decs[n] c.decs[n] := g.imp fun _ _ g => ⟨g.1, g.2, fun _ _ _ _ => trivial⟩
    have fit : ∀ {q : ℕ} {m m' : Mat F32}, m'.rows = m.rows → m'.cols = m.cols → Fits b.params q m → Fits b.params q m' := by
      intro q m m' e1 e2 hf
      unfold Fits at *
      rw [e1, e2]
      exact hf
    exact ⟨g.length_eq.symm.trans t1, fun q hq j hj => fit (getD_mat_rel rl _).1 (getD_mat_rel rl _).2.1 (t2 q hq j hj),
      fit (getD_mat_rel rl _).1 (getD_mat_rel rl _).2.1 t3⟩
  obtain ⟨p, d⟩ := c
  obtain ⟨p', d'⟩ := c'
  obtain rfl : p' = p := k1
  exact C149_compose r o ho hu u p' d d' wf (by rw [show p' = b.params from cut.1]; exact hw) sh (k2.imp fun _ _ g => g.imp fun _ _ g => ⟨g.1, g.2.1, fun i hi j hj => (g.2.2 i hi j hj).1⟩)
    s (by rw [show p' = b.params from cut.1]; exact hsc)

/-- The hypotheses can be met: 1 and 2 in archives written with all levels up to 24, and an arithmetic that rounds to significant bits. -/
example : ∃ (r : Rounding) (o : FloatOps) (e : Ext) (Mem : ℕ) (b b' c c' : Buffer F32), o.Correct r ∧ UnitBlind r o ∧ CodecsWork e truncBits ∧ Room e Mem ∧
    WellFormed b ∧ b.params.wtype ≤ 5 ∧ (∀ c ∈ b.decs, PrescribedShapes b.params c) ∧ FitsFormat b ∧ Compressible b ∧ FitsMemory b Mem ∧
    b'.params = b.params ∧ RelatedDecs (NormalInUnit 1) b.decs b'.decs ∧ Generations e Mem (List.range 25) b c ∧ Generations e Mem (List.range 25) b' c' := by
  obtain ⟨r, o, _, h1, h2⟩ := unit_blind_exist
  obtain ⟨k1, k2, k3⟩ := oneSample_ok 0x3f800000#32
  obtain ⟨M, c, c', m, -, g, g'⟩ := two_runs (List.range 25)
  refine ⟨r, o, exExt, M, _, oneSample 0x40000000#32, c, c', h1, h2, exTrunc_eq ▸ exExt_works, fun _ _ _ => rfl, k1, Nat.zero_le _, ?_, k2, k3, m, rfl,
    one_sample_related one_two_unit, g, g'⟩
  intro c hc
  rw [← sized_iff k1.1]
  obtain rfl : c = [Mat.ofFn 1 1 fun _ _ => 0x3f800000#32] := List.mem_singleton.1 hc
  refine ⟨by decide, fun s hs => absurd hs (Nat.not_lt_zero _), ?_⟩
  exact ⟨rfl, rfl⟩

end WB.Props
