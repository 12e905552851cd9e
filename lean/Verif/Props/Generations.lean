import Verif.Proof.Generations
import Verif.Props.Lossy

/-!
C108: archiving again and again.
-/

namespace WB.Props

open Spec

/-- C108. However often a buffer is written and read again, with whatever levels, the values are those of the original cut once to the number of bits of the
highest level. -/
theorem C108_generations (e : Ext) (Mem : ℕ) (hw : CodecsWork e truncBits) (hM : Room e Mem) (ls : List ℕ) (b b' : Buffer F32) (hb : WellFormed b)
    (hf : FitsFormat b) (hc : Compressible b) (hm : FitsMemory b Mem) (h : Generations e Mem ls b b') :
    CutTo (33 - min 31 (ls.foldr max 0)) b b' := by
  induction h with
  | none b => exact cutTo_self (by simp) b
  | @more level ls b b1 b2 old blob h1 h2 h3 _ ih =>
    have c := one_cut hw hM hb hf hc hm h1 h2 h3
    have a := c.alike
    have := c.trans (by omega) (ih (a.wf hb) (a.fits hf) (a.compressible hc) (a.memory hm))
    rw [List.foldr_cons]
    rwa [show 33 - min 31 (max level (ls.foldr max 0)) = min (33 - min 31 (ls.foldr max 0)) (33 - min 31 level) by omega]

/-- C108. Two ways of archiving with the same highest level give the same values, up to signs of zeros: in particular writing and reading again with the same
level loses nothing more, and a copy of a copy is as good as a copy. -/
theorem C108_same_values (e : Ext) (Mem : ℕ) (hw : CodecsWork e truncBits) (hM : Room e Mem) (ls ls' : List ℕ) (b b1 b2 : Buffer F32) (hb : WellFormed b)
    (hf : FitsFormat b) (hc : Compressible b) (hm : FitsMemory b Mem) (h1 : Generations e Mem ls b b1) (h2 : Generations e Mem ls' b b2)
    (hl : min 31 (ls.foldr max 0) = min 31 (ls'.foldr max 0)) :
    b1.params = b2.params ∧ List.Forall₂ (List.Forall₂ fun m m' => m.rows = m'.rows ∧ m.cols = m'.cols ∧
      ∀ i < m.rows, ∀ j < m.cols, SameExceptZeroSign (m.get i j) (m'.get i j)) b1.decs b2.decs := by
  have k1 := C108_generations e Mem hw hM ls b b1 hb hf hc hm h1
  have k2 := C108_generations e Mem hw hM ls' b b2 hb hf hc hm h2
  rw [hl] at k1
  refine ⟨k1.1.trans k2.1.symm, ?_⟩
  refine forall₂_trans (R := List.Forall₂ _) (fun _ _ _ hx hy => forall₂_trans (fun x y z g1 g2 => ?_) hx hy) (k1.2.flip.imp fun _ _ g => g.flip) k2.2
  exact ⟨g1.1.trans g2.1.symm, g1.2.1.trans g2.2.1.symm, fun i hi j hj =>
    (g1.2.2 i (by rw [← g1.1]; exact hi) j (by rw [← g1.2.1]; exact hj)).trans (g2.2.2 i (by rw [← g1.1]; exact hi) j (by rw [← g1.2.1]; exact hj)).symm⟩

/-- C108. The third copy with the same level equals the second one bit by bit, with level 1 already the second equals the first, and with level 0 the first
equals the original. -/
theorem C108_copies_settle (e : Ext) (Mem : ℕ) (hw : CodecsWork e truncBits) (hM : Room e Mem) (level : ℕ) (b b1 b2 b3 : Buffer F32) (hb : WellFormed b)
    (hf : FitsFormat b) (hc : Compressible b) (hm : FitsMemory b Mem) (h1 : Generations e Mem [level] b b1) (h2 : Generations e Mem [level] b1 b2)
    (h3 : Generations e Mem [level] b2 b3) : b3 = b2 ∧ (level ≤ 1 → b2 = b1) ∧ (level = 0 → b1 = b) := by
  have gen : ∀ {b b1 : Buffer F32}, WellFormed b → FitsFormat b → Compressible b → FitsMemory b Mem → Generations e Mem [level] b b1 →
      (level = 0 → b1 = b) ∧ (1 ≤ level → b1.params = b.params ∧
        List.Forall₂ (List.Forall₂ (MappedNonzeros (truncBits (33 - min 31 level)))) b.decs b1.decs) ∧ Alike b b1 := by
    intro b b1 hb hf hc hm h
    cases h with
    | more k1 k2 k3 k4 =>
      cases k4
      obtain ⟨g0, g1⟩ := one_generation hw hM hb hf hc hm k1 k2 k3
      exact ⟨g0, g1, (one_cut hw hM hb hf hc hm k1 k2 k3).alike⟩
  obtain ⟨p0, p1, pa⟩ := gen hb hf hc hm h1
  obtain ⟨q0, q1, qa⟩ := gen (pa.wf hb) (pa.fits hf) (pa.compressible hc) (pa.memory hm) h2
  obtain ⟨s0, s1, _⟩ := gen (qa.wf (pa.wf hb)) (qa.fits (pa.fits hf)) (qa.compressible (pa.compressible hc)) (qa.memory (pa.memory hm)) h3
  refine ⟨?_, fun hl => ?_, p0⟩
  · rcases Nat.eq_zero_or_pos level with hl | hl
    · exact s0 hl
    · refine buffer_eq (s1 hl).1 ?_
      rw [mapped_eq (s1 hl).2, mapped_eq (q1 hl).2, mapped_eq (p1 hl).2, map_deep, map_deep, map_deep]
      exact map_deep_congr fun x => storedBits_settles _ x
  · rcases Nat.eq_zero_or_pos level with h0 | h0
    · exact q0 h0
    · obtain rfl : level = 1 := by omega
      refine buffer_eq (q1 h0).1 ?_
      rw [mapped_eq (q1 h0).2, mapped_eq (p1 h0).2, map_deep]
      exact map_deep_congr fun x => storedBits_one x

/-- Every list of levels has a run, when there is memory enough for the archives. -/
theorem generations_exist (e : Ext) (hw : CodecsWork e truncBits) (hM : ∀ M, Room e M) (ls : List ℕ) :
    ∀ b : Buffer F32, WellFormed b → FitsFormat b → Compressible b → ∃ Mem b', FitsMemory b Mem ∧ Generations e Mem ls b b' := by
  have big : ∀ b : Buffer F32, Compressible b → ∃ M, FitsMemory b M := by
    intro b hc
    exact ⟨b.params.signalNumber * subbandCount b.params + 2 ^ 31, by omega, fun c h m hm => by have := (hc c h m hm).2; omega⟩
  have up : ∀ {ls : List ℕ} {M M' : ℕ} {b b' : Buffer F32}, M ≤ M' → Generations e M ls b b' → Generations e M' ls b b' := by
    intro ls M M' b b' h g
    induction g with
    | none b => exact .none b
    | more h1 h2 h3 _ ih => exact .more h1 (h2.trans h) h3 ih
  induction ls with
  | nil =>
    intro b _ _ hc
    obtain ⟨M, hm⟩ := big b hc
    exact ⟨M, b, hm, .none b⟩
  | cons level ls ih =>
    intro b hb hf hc
    obtain ⟨M0, hm0⟩ := big b hc
    have one : ∀ M, M0 ≤ M → ∃ blob b1, serialize e b [] level = .ok (true, blob) ∧ (blob.length ≤ M → parse e blob = .ok (some b1)) := by
      intro M h
      have hm : FitsMemory b M := ⟨hm0.1.trans h, fun c hc m hm => (hm0.2 c hc m hm).trans h⟩
      rcases Nat.eq_zero_or_pos level with rfl | hl
      · obtain ⟨blob, h1, h2⟩ := C27_uncompressed_round_trip e M b [] hb hf (hM M) hm
        exact ⟨blob, b, h1, h2⟩
      · obtain ⟨blob, d', h1, h2, _⟩ := C28_compressed_round_trip e truncBits M level b [] hb hf hw hc (hM M) hm hl
        exact ⟨blob, _, h1, h2⟩
    obtain ⟨blob, _, h1, _⟩ := one M0 le_rfl
    obtain ⟨blob', b1, h1', h2⟩ := one (M0 + blob.length) (by omega)
    rw [h1] at h1'
    cases h1'
    have h2 := h2 (by omega)
    have hm : FitsMemory b (M0 + blob.length) := ⟨hm0.1.trans (by omega), fun c hc m hm => (hm0.2 c hc m hm).trans (by omega)⟩
    have a := (one_cut hw (hM _) hb hf hc hm h1 (by omega) h2).alike
    obtain ⟨M2, b2, _, g⟩ := ih b1 (a.wf hb) (a.fits hf) (a.compressible hc)
    refine ⟨M0 + blob.length + M2, b2, ⟨hm0.1.trans (by omega), fun c hc m hm => (hm0.2 c hc m hm).trans (by omega)⟩, .more h1 (by omega) h2 (up (by omega) g)⟩

/-- One sample, no decomposition. -/
def oneSample (x : F32) : Buffer F32 := ⟨⟨[1], 1, 0, 0⟩, [[Mat.ofFn 1 1 fun _ _ => x]]⟩

theorem oneSample_ok (x : F32) : WellFormed (oneSample x) ∧ FitsFormat (oneSample x) ∧ Compressible (oneSample x) := by
  refine ⟨⟨⟨?_, ?_, ?_⟩, ?_, ?_⟩, ⟨?_, ?_, ?_, ?_⟩, ?_⟩ <;> simp [oneSample, subbandCount, detailsPerStep, Compressible]

/-- C108. The second copy can differ from the first in the sign of a zero: a negative value that is cut to `-0` is stored as `+0` the next time. -/
theorem C108_second_copy_differs : ∃ (e : Ext) (Mem level : ℕ) (b b1 b2 : Buffer F32), CodecsWork e truncBits ∧ Room e Mem ∧ WellFormed b ∧ FitsFormat b ∧
    Compressible b ∧ FitsMemory b Mem ∧ Generations e Mem [level] b b1 ∧ Generations e Mem [level] b1 b2 ∧ b1 ≠ b2 := by
  have hw : CodecsWork exExt truncBits := exTrunc_eq ▸ exExt_works
  have hM : ∀ M, Room exExt M := fun _ _ _ _ => rfl
  obtain ⟨k1, k2, k3⟩ := oneSample_ok 0x80000001#32
  obtain ⟨Mem, b2, hm, g⟩ := generations_exist exExt hw hM [10, 10] (oneSample 0x80000001#32) k1 k2 k3
  cases g with
  | @more _ _ _ b1 _ old blob h1 h2 h3 g =>
    refine ⟨exExt, Mem, 10, _, b1, b2, hw, hM _, k1, k2, k3, hm, .more h1 h2 h3 (.none _), g, ?_⟩
    have a := (one_cut hw (hM _) k1 k2 k3 hm h1 h2 h3).alike
    have e1 := ((one_generation hw (hM _) k1 k2 k3 hm h1 h2 h3).2 (by norm_num)).2
    cases g with
    | @more _ _ _ b1' _ old' blob' j1 j2 j3 g =>
      cases g
      have e2 := ((one_generation hw (hM _) (a.wf k1) (a.fits k2) (a.compressible k3) (a.memory hm) j1 j2 j3).2 (by norm_num)).2
      intro h
      rw [← h] at e2
      have e2 := mapped_eq e2
      rw [mapped_eq e1, map_deep] at e2
      have := congrArg (fun d : Decs F32 => d.map fun c => c.map fun m => m.data) e2
      revert this
      decide

/-- The hypotheses of C108 can be met for every list of levels. -/
example (ls : List ℕ) : ∃ (Mem : ℕ) (b' : Buffer F32), CodecsWork exExt truncBits ∧ Room exExt Mem ∧ WellFormed (oneSample 0x3f9e0652#32) ∧
    FitsFormat (oneSample 0x3f9e0652#32) ∧ Compressible (oneSample 0x3f9e0652#32) ∧ FitsMemory (oneSample 0x3f9e0652#32) Mem ∧
    Generations exExt Mem ls (oneSample 0x3f9e0652#32) b' := by
  have hw : CodecsWork exExt truncBits := exTrunc_eq ▸ exExt_works
  obtain ⟨k1, k2, k3⟩ := oneSample_ok 0x3f9e0652#32
  obtain ⟨Mem, b', hm, g⟩ := generations_exist exExt hw (fun _ _ _ _ => rfl) ls (oneSample 0x3f9e0652#32) k1 k2 k3
  exact ⟨Mem, b', hw, fun _ _ _ => rfl, k1, k2, k3, hm, g⟩

end WB.Props
