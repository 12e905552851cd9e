import Verif.Proof.SfOverflow
import Verif.Props.SfParse

/-! Property C76: the code lengths that the version-2 compressor chooses itself. -/

namespace WB.Props

open WB WB.Spec WB.Sf

/-- C76, the part that holds: the round trip of C52 with the code lengths that `Compress` chooses itself, for every rounding of `double`
arithmetic to nearest and whatever code lengths an earlier call left in the object, if every run of zeros before a value has length at most
`G ≤ 65536`, there are at most 16000000 values and `(3 G + 2) (n + 1) ≤ 2^33` (or at most 65534 values). Missing: longer runs, for which it is
false, see `C76_code_overflow_counterexample`, and large matrices between the two. -/
theorem C76_round_trip_partial (r : Rounding) (hr : RoundsToNearest (FloatNumbers 53 (-1074)) r.toDouble) (old : Bool → ℕ → ℕ) (o : Origin) (cap G : ℕ)
    (hfrag : 7 ≤ o.frag ∧ o.frag ≤ 23 ∧ o.frag ≠ 22)
    (hlen : o.indexes.length = o.values.length) (hne : o.indexes ≠ []) (hinc : o.indexes.Pairwise (· < ·))
    (hlt : ∀ i ∈ o.indexes, i < o.rows * o.cols) (hsz : o.rows * o.cols < 2 ^ 31)
    (hval : ∀ x ∈ o.values, x.toNat % 2 ^ 31 ≠ 0 ∧ RoundsFinite o.frag x)
    (hG : ∀ z ∈ zeroRuns 0 o.indexes, z ≤ G) (hG1 : G ≤ 65536) (hn1 : o.indexes.length ≤ 16000000)
    (hn2 : (3 * G + 2) * (o.indexes.length + 1) ≤ 2 ^ 33 ∨ o.indexes.length ≤ 65534)
    (hcap : 296 + 12 * o.indexes.length ≤ cap) :
    ∃ blob, Sf.compress cap (codeChoose r old) o = .ok (some blob) ∧
      ∀ buf : Bytes, blob.length ≤ buf.length → o.indexes.length ≤ buf.length →
        ∃ p, Sf.decompress .fresh buf blob =
          .ok (some ⟨o.frag, o.rowBased, o.rows, o.cols, o.indexes, o.values.map (roundTo o.frag)⟩, p) :=
  C52_decompress_of_compress _ o cap hfrag hlen hne hinc hlt hsz hval
    (codeChoose_works hr old hlen hne hinc (fun i hi => (hlt i hi).trans hsz) hG hG1 hn1 hn2) hcap

theorem codeChoose_small {r : Rounding} (hr : RoundsToNearest (FloatNumbers 53 (-1074)) r.toDouble) (old : Bool → ℕ → ℕ) {o : Origin}
    (hlen : o.indexes.length = o.values.length) (hne : o.indexes ≠ []) (hinc : o.indexes.Pairwise (· < ·))
    (hlt : ∀ i ∈ o.indexes, i < o.rows * o.cols) (hsz : o.rows * o.cols ≤ 65536) (slots : List Sf.Slot)
    (hs : timeline o.frag none 127 (o.indexes.zip o.values) = .ok slots) (exp : Bool) :
    ∃ lens, codeChoose r old exp o.indexes.length (dsQty exp slots) = .ok lens ∧ CompleteCode (codeQty exp) (poolsUsed exp slots) lens := by
  have hruns := zeroRuns_le (N := o.rows * o.cols) o.indexes 0 hinc fun i hi => ⟨Nat.zero_le _, hlt i hi⟩
  have hpos : 0 < o.indexes.length := List.length_pos_iff.2 hne
  have hn := (length_le_of_pairwise hinc hlt).trans hsz
  refine codeChoose_works hr old hlen hne hinc (fun i hi => lt_of_lt_of_le (hlt i hi) (hsz.trans (by norm_num))) (G := 65536 - o.indexes.length)
    (fun z hz => by have := hruns z hz; omega) (by omega) (by omega) ?_ slots hs exp
  by_cases h : o.indexes.length ≤ 65534
  · exact Or.inr h
  · left
    calc (3 * (65536 - o.indexes.length) + 2) * (o.indexes.length + 1) ≤ 8 * 65537 := Nat.mul_le_mul (by omega) (by omega)
      _ ≤ 2 ^ 33 := by norm_num

/-- C76 for every matrix of at most 65536 elements: the round trip of C52 without any condition on the positions of the values. -/
theorem C76_small_matrix (r : Rounding) (hr : RoundsToNearest (FloatNumbers 53 (-1074)) r.toDouble) (old : Bool → ℕ → ℕ) (o : Origin) (cap : ℕ)
    (hfrag : 7 ≤ o.frag ∧ o.frag ≤ 23 ∧ o.frag ≠ 22)
    (hlen : o.indexes.length = o.values.length) (hne : o.indexes ≠ []) (hinc : o.indexes.Pairwise (· < ·))
    (hlt : ∀ i ∈ o.indexes, i < o.rows * o.cols) (hsz : o.rows * o.cols ≤ 65536)
    (hval : ∀ x ∈ o.values, x.toNat % 2 ^ 31 ≠ 0 ∧ RoundsFinite o.frag x)
    (hcap : 296 + 12 * o.indexes.length ≤ cap) :
    ∃ blob, Sf.compress cap (codeChoose r old) o = .ok (some blob) ∧
      ∀ buf : Bytes, blob.length ≤ buf.length → o.indexes.length ≤ buf.length →
        ∃ p, Sf.decompress .fresh buf blob =
          .ok (some ⟨o.frag, o.rowBased, o.rows, o.cols, o.indexes, o.values.map (roundTo o.frag)⟩, p) :=
  C52_decompress_of_compress _ o cap hfrag hlen hne hinc hlt (lt_of_le_of_lt hsz (by norm_num)) hval
    (codeChoose_small hr old hlen hne hinc hlt hsz) hcap

/-- The hypotheses hold for `exOrigin`, a matrix of 8 elements. -/
example (r : Rounding) (hr : RoundsToNearest (FloatNumbers 53 (-1074)) r.toDouble) (old : Bool → ℕ → ℕ) :
    ∃ blob, Sf.compress 400 (codeChoose r old) exOrigin = .ok (some blob) := by
  obtain ⟨blob, h, -⟩ := C76_small_matrix r hr old exOrigin 400 (by decide) rfl (by decide) (by decide) (by decide) (by decide) (by
    simp [exOrigin, RoundsFinite, expBits, roundBits]) (by decide)
  exact ⟨blob, h⟩

/-- A matrix of 2^30 elements with runs of 4, 65536 and 0 zeros. -/
example : zeroRuns 0 [4, 65541, 65542] = [4, 65536, 0] := rfl

/-- C65 for streams that the program itself has written: a version-2 stream of a subband of at most 65536 elements, made with the code lengths
that `Compress` chooses, is one of the streams that `C65_version2_compressed` is about. -/
theorem C76_own_stream (r : Rounding) (hr : RoundsToNearest (FloatNumbers 53 (-1074)) r.toDouble) (old : Bool → ℕ → ℕ) (frag cap : ℕ) (m : Mat F32)
    (rowBased : Bool) (indexes : List ℕ) (values : List F32) (stream : Bytes)
    (hsz : m.rows * m.cols ≤ 65536) (hfin : ∀ x ∈ m.data, RoundsFinite frag x) (hnz : ∃ x ∈ m.data, ¬ isZeroPattern x)
    (hcsr : toCSR m = .ok (indexes, values)) (hcap : 296 + 12 * indexes.length ≤ cap)
    (h : Sf.compress cap (codeChoose r old) ⟨frag, rowBased, m.rows, m.cols, indexes, values⟩ = .ok (some stream)) : StreamOf frag m stream := by
  have hsmall : m.rows * m.cols < 2 ^ 31 := lt_of_le_of_lt hsz (by norm_num)
  refine ⟨hsmall, hfin, hnz, cap, codeChoose r old, rowBased, indexes, values, hcsr, hcap, ?_, h⟩
  obtain ⟨x, hx, hxz⟩ := hnz
  have hpos : 0 < m.rows * m.cols := by
    rw [← m.wf]; exact List.length_pos_of_mem hx
  rw [toCSR_ok hpos hsmall] at hcsr
  cases hcsr
  refine codeChoose_small hr old (o := ⟨frag, rowBased, m.rows, m.cols, (entries m).map Prod.fst, (entries m).map Prod.snd⟩) (by simp) ?_
    (entries_sorted m) (by intro i hi; obtain ⟨y, hy, rfl⟩ := List.mem_map.1 hi; exact entries_lt hy) hsz
  intro hh
  have : (entries m).map Prod.snd ≠ [] := by
    rw [entries_values]
    exact List.ne_nil_of_mem (List.mem_filter.2 ⟨hx, by simpa using hxz⟩)
  apply this
  simpa using hh

/-- C76, negated: three values 1 with runs of 402653185, 402653185 and 1073741825 zeros, in a matrix of 1879048198 elements (fewer than 2^31). `Compress`
succeeds, but its code lengths for the zeros use more than the code space, and `Decompress` of the stream has undefined behaviour. -/
theorem C76_code_overflow_counterexample (r : Rounding) (hr : RoundsToNearest (FloatNumbers 53 (-1074)) r.toDouble) (old : Bool → ℕ → ℕ) :
    ∃ (o : Origin) (blob buf : Bytes), (7 ≤ o.frag ∧ o.frag ≤ 23 ∧ o.frag ≠ 22) ∧ o.indexes.length = o.values.length ∧ o.indexes ≠ [] ∧
      o.indexes.Pairwise (· < ·) ∧ (∀ i ∈ o.indexes, i < o.rows * o.cols) ∧ o.rows * o.cols < 2 ^ 31 ∧
      (∀ x ∈ o.values, x.toNat % 2 ^ 31 ≠ 0 ∧ RoundsFinite o.frag x) ∧
      Sf.compress 400 (codeChoose r old) o = .ok (some blob) ∧ blob.length ≤ buf.length ∧ o.indexes.length ≤ buf.length ∧
      Sf.decompress .fresh buf blob = .ub := by
  refine ⟨⟨10, true, 1, 1879048198, [402653185, 805306371, 1879048197], [0x3f800000#32, 0x3f800000#32, 0x3f800000#32]⟩,
    [63, 0, 0, 0, 3, 192, 0, 0, 25, 16, 0, 0, 8, 199, 189, 216, 0, 0, 1, 0, 24, 0, 0, 1, 0, 48, 0, 0, 1, 0, 0], List.replicate 50 0,
    by decide, rfl, by decide, by decide, ?_, by norm_num, ?_, ?_, by decide, by decide, ?_⟩
  · intro i hi
    simp only [List.mem_cons, List.not_mem_nil, or_false] at hi
    show i < 1 * 1879048198
    omega
  · simp [RoundsFinite, expBits, roundBits]
  · obtain ⟨lz, hz1, hz2⟩ := choose_big hr old
    have hs : timeline 10 none 127 ((([402653185, 805306371, 1879048197] : List ℕ).zip [0x3f800000#32, 0x3f800000#32, 0x3f800000#32]).take (u32 3)) =
      .ok [⟨402653185, 0, 0, 0⟩, ⟨402653185, 0, 0, 0⟩, ⟨1073741825, 0, 0, 0⟩] := by decide +kernel
    have hq : dsQty false [⟨402653185, 0, 0, 0⟩, ⟨402653185, 0, 0, 0⟩, ⟨1073741825, 0, 0, 0⟩] = bigQty := by
      funext t
      have h1 : findSrc false 402653185 = 58 := by decide +kernel
      have h2 : findSrc false 1073741825 = 61 := by decide +kernel
      unfold dsQty bigQty
      simp only [List.filter_cons, List.filter_nil, Slot.sym, Bool.false_eq_true, if_false, h1, h2]
      by_cases e1 : 58 = t
      · subst e1; rfl
      · by_cases e2 : 61 = t
        · subst e2; rfl
        · simp [e1, e2, Ne.symm e1, Ne.symm e2]
    obtain ⟨lj, hj1, hj2⟩ := codeChoose_complete hr old true (n := 3) (by norm_num)
      (dsQty_sum true [⟨402653185, 0, 0, 0⟩, ⟨402653185, 0, 0, 0⟩, ⟨1073741825, 0, 0, 0⟩]) (T := 257) (before_jumps _) (by norm_num) (by norm_num)
    have hu : poolsUsed true [⟨402653185, 0, 0, 0⟩, ⟨402653185, 0, 0, 0⟩, ⟨1073741825, 0, 0, 0⟩] = 1 := by decide +kernel
    have hj0 : lj 0 = 0 := by
      have h := hj2.kraft
      rw [show topUsed _ _ = 1 from hu] at h
      simp only [Finset.sum_range_one] at h
      rw [show codeQty true 0 = 1 from rfl] at h
      by_contra hc
      have : (2 : ℚ) ≤ 2 ^ lj 0 := by
        calc (2 : ℚ) = 2 ^ 1 := by norm_num
          _ ≤ 2 ^ lj 0 := pow_le_pow_right₀ (by norm_num) (by omega)
      rw [div_eq_one_iff_eq (by positivity)] at h
      norm_num at h
      linarith
    rw [compress_congr (c' := fun exp _ _ => .ok fun t => if exp then 0 else bigLens t) hs ?_]
    · decide +kernel
    · intro exp
      cases exp with
      | true => exact ⟨lj, _, hj1, rfl, fun s hs => by
          rw [hu] at hs
          obtain rfl : s = 0 := by omega
          exact hj0⟩
      | false =>
        refine ⟨lz, _, ?_, rfl, fun s hs => ?_⟩
        · rw [hq]; exact hz1
        · have hu' : poolsUsed false [⟨402653185, 0, 0, 0⟩, ⟨402653185, 0, 0, 0⟩, ⟨1073741825, 0, 0, 0⟩] = 62 := by decide +kernel
          rw [hu'] at hs
          exact hz2 s hs
  · have h : ∀ x : Outcome (Option Origin × Pools), (match x with | .ub => true | _ => false) = true → x = .ub := by
      intro x hx
      cases x <;> simp at hx ⊢
    exact h _ (by decide +kernel)

end WB.Props
