import Verif.Proof.Rewrite
import Verif.Props.Serialize

/-!
C127: archiving again what `Parse` has returned.
-/

namespace WB.Props

open WB WB.Spec

theorem rewrite_core {e : Ext} {M : ℕ} {b : Buffer F32} (hb : WellFormed b) (hf : FitsFormat b) (hM : Room e M)
    (hm : FitsMemory b M) (old : Bytes) :
    ∃ blob', serialize e b old 0 = .ok (true, blob') ∧
      blob' = [3] ++ encodeParams b.params ++ [0] ++ b.decs.flatten.flatMap archiveMatrix ∧
      (blob'.length ≤ M → parse e blob' = .ok (some b)) := by
  obtain ⟨blob', h1, h2⟩ := C27_uncompressed_round_trip e M b old hb hf hM hm
  refine ⟨blob', h1, ?_, h2⟩
  have h0 : effectiveLevel b 0 = 0 := by unfold effectiveLevel; split <;> rfl
  have h3 := serialize_eq (e := e) hb hf.2.2.1 old 0 (by rw [h0]; exact serSubbands_zero e _)
  rw [h1, h0] at h3
  cases h3
  simp [blob3, startBytes, encodeParams_eq, funext archiveMatrix_eq]

theorem oldPlain_of_layout {e : Ext} {blob : Bytes} {b : Buffer F32} (h : parse e blob = .ok (some b))
    (hb : ¬ WellFormed b) : OldPlain blob b.params := by
  obtain ⟨_, v, level, rest, ⟨h1, _⟩, h3⟩ := C59_parsed_parameters_valid_partial e blob b h
  have hv : v ≠ 3 := fun hv => hb (h3 (.inl hv))
  have hl : level = [0] := by
    by_contra hne
    exact hb (h3 (.inr hne))
  exact ⟨v, rest, hv, by rw [h1, hl]⟩

/-- C127. Whatever the bytes, a buffer returned by `Parse` has only numbers that fit the fields of the format. -/
theorem C127_parsed_fits (e : Ext) (blob : Bytes) (b : Buffer F32) (he : SidesInRange e)
    (hl : e.legacySubband = Sf.legacySubband e.alloc) (h : parse e blob = .ok (some b)) : FitsFormat b :=
  parse_fits he hl h

/-- C127. Whatever the bytes, unless they are an archive of the old format without compression, a buffer returned by `Parse`
can be archived again without compression, in the present format, and reading that archive gives the same buffer bit by bit.
The new archive depends on the buffer only. -/
theorem C127_rewrite (e : Ext) (M : ℕ) (blob old : Bytes) (b : Buffer F32) (he : SidesInRange e)
    (hl : e.legacySubband = Sf.legacySubband e.alloc) (h : parse e blob = .ok (some b)) (ho : ¬ OldPlain blob b.params)
    (hM : Room e M) (hm : FitsMemory b M) :
    ∃ blob', serialize e b old 0 = .ok (true, blob') ∧
      blob' = [3] ++ encodeParams b.params ++ [0] ++ b.decs.flatten.flatMap archiveMatrix ∧
      (blob'.length ≤ M → parse e blob' = .ok (some b)) := by
  have hb : WellFormed b := by
    by_contra hb
    exact ho (oldPlain_of_layout h hb)
  exact rewrite_core hb (parse_fits he hl h) hM hm old

/-- C127. For archives of the old format without compression `Parse` does not compare the layout with the parameters. If it
is the right one, the buffer can be archived again without loss; if not, `Serialize` throws, for every level, whatever the
output string held. -/
theorem C127_old_plain (e : Ext) (M : ℕ) (blob old : Bytes) (b : Buffer F32) (he : SidesInRange e)
    (hl : e.legacySubband = Sf.legacySubband e.alloc) (h : parse e blob = .ok (some b))
    (hM : Room e M) (hm : FitsMemory b M) :
    (WellFormed b ∧ ∃ blob', serialize e b old 0 = .ok (true, blob') ∧
      blob' = [3] ++ encodeParams b.params ++ [0] ++ b.decs.flatten.flatMap archiveMatrix ∧
      (blob'.length ≤ M → parse e blob' = .ok (some b))) ∨
    (¬ WellFormed b ∧ OldPlain blob b.params ∧ ∀ level, serialize e b old level = .throw) := by
  have hf := parse_fits he hl h
  by_cases hb : WellFormed b
  · exact .inl ⟨hb, rewrite_core hb hf hM hm old⟩
  · refine .inr ⟨hb, oldPlain_of_layout h hb, fun level => ?_⟩
    unfold serialize
    rw [ctorWith_throw (by have := hf.2.2.1; unfold RepresentableType; omega) b.decs hb]
    rfl

/-! ### The hypotheses can be met -/

/-- `exExt` with the decoder of the old compression. -/
private def rwExt : Ext := { exExt with legacySubband := Sf.legacySubband exExt.alloc }

private theorem rwExt_sides : SidesInRange rwExt :=
  ⟨fun _ _ _ _ _ _ _ h => (by cases h), fun _ _ _ _ _ _ h => (by cases h), fun _ _ _ _ _ _ h => (by cases h)⟩

/-- An archive of the old format, with two subbands of one element, comes out in the present format. -/
example : ∃ blob b blob', (blob : Bytes).head? = some 2 ∧ parse rwExt blob = .ok (some b) ∧
    serialize rwExt b [7] 0 = .ok (true, blob') ∧ blob'.head? = some 3 ∧ parse rwExt blob' = .ok (some b) := by
  have h := C59_version2_layout_unchecked rwExt 1000 ⟨[4], 1, 1, 1⟩ [[⟨1, 1, [5], rfl⟩, ⟨1, 1, [6], rfl⟩]]
    (by simp [ValidParams]) (by simp) (by simp) (by simp) (fun _ _ _ => rfl) (by norm_num)
    (by simp [subbandCount, detailsPerStep]) (by norm_num) (by simp) (by simp)
  rcases C127_old_plain rwExt 1000 _ [7] _ rwExt_sides rfl h (fun _ _ _ => rfl)
    ⟨by simp [subbandCount, detailsPerStep], by simp⟩ with ⟨_, blob', h1, h2, h3⟩ | ⟨hb, _⟩
  · refine ⟨_, _, blob', ?_, h, h1, ?_, h3 ?_⟩
    · simp
    · rw [h2]; simp
    · rw [h2]
      simp [encodeParams_eq, length_serParams, archiveMatrix_eq, length_serMat]
  · exact absurd ⟨by simp [ValidParams], by simp, by simp [subbandCount, detailsPerStep]⟩ hb

/-- An archive of the old format for one channel that carries none: it is read, but cannot be archived again. -/
example : ∃ b : Buffer F32, parse rwExt ([2] ++ encodeParams ⟨[4], 1, 1, 1⟩ ++ [0] ++
    archiveVector 24 (archiveVector 40 archiveMatrix) []) = .ok (some b) ∧ ∀ level, serialize rwExt b [7] level = .throw := by
  have h := C59_version2_layout_unchecked rwExt 1000 ⟨[4], 1, 1, 1⟩ [] (by simp [ValidParams]) (by simp) (by simp)
    (by simp) (fun _ _ _ => rfl) (by norm_num) (by simp [subbandCount, detailsPerStep]) (by norm_num) (by simp)
    (by simp)
  refine ⟨_, h, ?_⟩
  rcases C127_old_plain rwExt 1000 _ [7] _ rwExt_sides rfl h (fun _ _ _ => rfl)
    ⟨by simp [subbandCount, detailsPerStep], by simp⟩ with ⟨hb, _⟩ | ⟨_, _, h1⟩
  · have := hb.2.1
    simp at this
  · exact h1

end WB.Props
