import Verif.Proof.SfCompressor
import Verif.Proof.SfReuse
import Verif.Proof.SfRound

/-! Properties C52 and C66 to C69: the version-2 compressor. -/

namespace WB.Props

open WB WB.Spec WB.Sf

/-- C52: for every input with at least one value, strictly increasing indexes inside a matrix of fewer than 2^31 elements, and finite nonzero
values that stay finite when rounded, and for every choice of code lengths that gives complete monotone codes for this input: compression
succeeds with a buffer of `296 + 12 n` bytes, and decompression of the stream with a new object, in any buffer that holds the stream and
`n` values, returns the same header data and indexes, and the values rounded to `frag` fraction bits. -/
theorem C52_decompress_of_compress (choose : Choose) (o : Origin) (cap : ℕ) (hfrag : 7 ≤ o.frag ∧ o.frag ≤ 23 ∧ o.frag ≠ 22)
    (hlen : o.indexes.length = o.values.length) (hne : o.indexes ≠ []) (hinc : o.indexes.Pairwise (· < ·))
    (hlt : ∀ i ∈ o.indexes, i < o.rows * o.cols) (hsz : o.rows * o.cols < 2 ^ 31)
    (hval : ∀ x ∈ o.values, x.toNat % 2 ^ 31 ≠ 0 ∧ RoundsFinite o.frag x)
    (hcode : ∀ slots, timeline o.frag none 127 (o.indexes.zip o.values) = .ok slots →
      ∀ exp, ∃ lens, choose exp o.indexes.length (dsQty exp slots) = .ok lens ∧ CompleteCode (codeQty exp) (poolsUsed exp slots) lens)
    (hcap : 296 + 12 * o.indexes.length ≤ cap) :
    ∃ blob, Sf.compress cap choose o = .ok (some blob) ∧
      ∀ buf : Bytes, blob.length ≤ buf.length → o.indexes.length ≤ buf.length →
        ∃ p, Sf.decompress .fresh buf blob =
          .ok (some ⟨o.frag, o.rowBased, o.rows, o.cols, o.indexes, o.values.map (roundTo o.frag)⟩, p) := by
  obtain ⟨h7, h23, h22⟩ := hfrag
  have hL : FragOk o.frag := ⟨h7, h23⟩
  norm_num at hsz
  have hn := length_le_of_pairwise hinc hlt
  have hpos : 0 < o.indexes.length := List.length_pos_iff.2 hne
  have hrows : 0 < o.rows := Nat.pos_of_ne_zero (by rintro h; rw [h, Nat.zero_mul] at hn; omega)
  have hcols : 0 < o.cols := Nat.pos_of_ne_zero (by rintro h; rw [h, Nat.mul_zero] at hn; omega)
  have hr1 : o.rows ≤ o.rows * o.cols := Nat.le_mul_of_pos_right _ hcols
  have hc1 : o.cols ≤ o.rows * o.cols := Nat.le_mul_of_pos_left _ hrows
  have hu1 : u32 o.indexes.length = o.indexes.length := u32_eq (by omega)
  have hu2 : u32 o.rows = o.rows := u32_eq (by omega)
  have hu3 : u32 o.cols = o.cols := u32_eq (by omega)
  have hzl : (o.indexes.zip o.values).length = o.indexes.length := by rw [List.length_zip, hlen]; simp
  have hvz : ∀ a ∈ o.indexes.zip o.values, F32.isZero a.2 = false ∧ expBits a.2 < 255 := by
    rintro ⟨i, x⟩ ha
    obtain ⟨h1, h2⟩ := hval x (List.of_mem_zip ha).2
    refine ⟨?_, h2.1⟩
    unfold F32.isZero
    simpa using h1
  have htl := timeline_eq hL (o.indexes.zip o.values) none 127 hvz
  have hslots : slotsOf o.frag none 127 (o.indexes.zip o.values) = inputSlots o := rfl
  rw [hslots] at htl
  obtain ⟨lj, cj, hcj⟩ := hcode _ htl true
  obtain ⟨lz, cz, hcz⟩ := hcode _ htl false
  have hsl : (inputSlots o).length = o.indexes.length := by rw [← hslots, slotsOf_length, hzl]
  have hsne : inputSlots o ≠ [] := List.length_pos_iff.1 (by omega)
  obtain ⟨j1, j2, -⟩ := poolsUsed_spec true (inputSlots o) hsne
  obtain ⟨z1, z2, -⟩ := poolsUsed_spec false (inputSlots o) hsne
  have hkj := (taken_sum true lj _ j2).trans hcj.kraft
  have hkz := (taken_sum false lz _ z2).trans hcz.kraft
  obtain ⟨jumps, J1, J2, J3, J4, J5⟩ := outPool_good true _ _ j1 j2 hcj.mono hcj.le31 hkj
  obtain ⟨zeros, Z1, Z2, Z3, Z4, Z5⟩ := outPool_good false _ _ z1 z2 hcz.mono hcz.le31 hkz
  have hl2 := first_jump_len j1 j2 hcj.mono hkj
  have hl3 : lz 0 < 32 := by have := hcz.le31 0 (by omega); omega
  -- the fields do not depend on the buffer
  obtain ⟨fs, -, F1, F2, F3, -⟩ := fields_read (cap := cap) h7 h23 h22 hlen hne hinc hlt hsz (fun x hx => (hval x hx).2)
    (by omega) J2 J4 J3 hl2 J5 Z2 Z4 Z3 hl3 Z5
  obtain ⟨s, S1, S2⟩ := put_fields cap ((0, 4) :: fs) (by
      intro f hf
      rcases List.mem_cons.1 hf with rfl | hf
      · exact ⟨by norm_num, by norm_num⟩
      · exact F3 f hf) (by simp only [List.length_cons]; omega)
  refine ⟨s.rev.reverse, ?_, ?_⟩
  · unfold Sf.compress
    rw [if_neg (by omega), if_neg (by rw [Nat.mul_comm, Nat.mod_eq_of_lt (by omega)]; omega), if_neg (by omega)]
    simp only [hu1, hu2, hu3]
    rw [if_neg (by omega), List.take_of_length_le (by omega), htl]
    show (if poolsUsed true (inputSlots o) = 0 ∨ poolsUsed false (inputSlots o) = 0 then Outcome.ub else _) = _
    rw [if_neg (by omega), cj, Outcome.bind_ok, cz, Outcome.bind_ok, J1, Z1]
    show (if 2147483648 < o.rows * o.cols then Outcome.ok none else _) = _
    rw [if_neg (by omega), F1]
    show (((0, 4) :: fs).foldlM (putSel cap) ⟨[], 0⟩ >>= _) = _
    rw [S1]
    rfl
  · intro buf hb hb2
    obtain ⟨fs', p, F1', -, -, F4'⟩ := fields_read (cap := buf.length) h7 h23 h22 hlen hne hinc hlt hsz (fun x hx => (hval x hx).2)
      hb2 J2 J4 J3 hl2 J5 Z2 Z4 Z3 hl3 Z5
    have hfs : fs' = fs := by
      rw [F1] at F1'
      cases F1'; rfl
    subst hfs
    refine ⟨p, ?_⟩
    unfold Sf.decompress
    rw [if_neg (by omega)]
    have hahead : Ahead ⟨s.rev.reverse ++ buf.drop s.rev.reverse.length, 8⟩
        (bitsOf 2 0 ++ (bitsOfFields fs' ++ (List.replicate s.free false ++ byteBits (buf.drop s.rev.reverse.length)))) := by
      refine ⟨by simp, ?_⟩
      have : bitsOf 2 0 ++ (bitsOfFields fs' ++ (List.replicate s.free false ++ byteBits (buf.drop s.rev.reverse.length))) =
          byteBits (s.rev.reverse ++ buf.drop s.rev.reverse.length) := by
        rw [byteBits_append, S2, bitsOfFields_cons, show selBits 0 4 = bitsOf 2 0 from selBits_pow (m := 2) (by omega)]
        simp only [List.append_assoc]
      rw [this]
      cases s.rev.reverse ++ buf.drop s.rev.reverse.length <;> simp [remaining]
    obtain ⟨s1, e1, h1⟩ := fromBits_reads (k := 2) (v := 0) (by omega) (by omega) _ _ hahead
    obtain ⟨s2, e2, -⟩ := F4' s1 _ h1
    rw [e1]
    show (if (0 : ℕ) = 0 then (readBody buf.length Pools.fresh s1 >>= fun r => pure (some r.1.1, r.1.2)) else pure (none, Pools.fresh)) = _
    rw [if_pos rfl, e2]
    rfl

/-- Three values in a matrix of two rows and four columns: 2, about -3.5 and 1/4. -/
def exOrigin : Origin := ⟨10, true, 2, 4, [1, 3, 7], [0x40000000#32, 0xc0601900#32, 0x3e800000#32]⟩

/-- Complete codes for the jumps and the zeros of `exOrigin`. -/
def exChoose : Choose := fun exp _ _ => .ok fun t => if exp then [2, 2, 2, 4, 4].getD t 31 else 2

/-- The hypotheses of C52 hold for it. -/
example : (7 ≤ exOrigin.frag ∧ exOrigin.frag ≤ 23 ∧ exOrigin.frag ≠ 22) ∧ exOrigin.indexes.Pairwise (· < ·) ∧
    (∀ i ∈ exOrigin.indexes, i < exOrigin.rows * exOrigin.cols) ∧
    (∀ x ∈ exOrigin.values, x.toNat % 2 ^ 31 ≠ 0 ∧ RoundsFinite exOrigin.frag x) := by
  refine ⟨by decide, by decide, by decide, ?_⟩
  simp [exOrigin, RoundsFinite, expBits, roundBits]

example (slots : List Slot) (h : timeline exOrigin.frag none 127 (exOrigin.indexes.zip exOrigin.values) = .ok slots) (exp : Bool) :
    ∃ lens, exChoose exp 3 (dsQty exp slots) = .ok lens ∧ CompleteCode (codeQty exp) (poolsUsed exp slots) lens := by
  refine ⟨_, rfl, ?_⟩
  have h0 : timeline exOrigin.frag none 127 (exOrigin.indexes.zip exOrigin.values) =
    .ok [⟨1, 2, 0, 0⟩, ⟨1, 0, 1793, 1⟩, ⟨3, 5, 0, 0⟩] := by decide +kernel
  rw [h0] at h
  cases h
  cases exp
  · rw [show poolsUsed false _ = 4 by decide +kernel]
    exact ⟨fun _ _ => le_refl _, fun _ _ => show (2 : ℕ) ≤ 31 by decide, by decide +kernel⟩
  · rw [show poolsUsed true _ = 5 by decide +kernel]
    refine ⟨?_, ?_, by decide +kernel⟩
    · intro t ht
      have : t < 4 := by omega
      interval_cases t <;> decide
    · intro t ht
      interval_cases t <;> decide

/-- This is the stream. -/
example : Sf.compress 400 exChoose exOrigin = .ok (some [35, 83, 163, 66, 203, 176, 0, 78, 3, 240, 0]) := by decide +kernel

/-- The second value loses its last bits. -/
example : exOrigin.values.map (roundTo 10) = [0x40000000#32, 0xc0602000#32, 0x3e800000#32] := by decide +kernel

/-- C69: under the hypotheses of C52 the indexes come back as they were, every value comes back with the same position and a relative error of
at most 2^-(frag+1), and a subnormal value with an absolute error of at most 2^-126. -/
theorem C69_rounding_error (choose : Choose) (o : Origin) (cap : ℕ) (hfrag : 7 ≤ o.frag ∧ o.frag ≤ 23 ∧ o.frag ≠ 22)
    (hlen : o.indexes.length = o.values.length) (hne : o.indexes ≠ []) (hinc : o.indexes.Pairwise (· < ·))
    (hlt : ∀ i ∈ o.indexes, i < o.rows * o.cols) (hsz : o.rows * o.cols < 2 ^ 31)
    (hval : ∀ x ∈ o.values, x.toNat % 2 ^ 31 ≠ 0 ∧ RoundsFinite o.frag x)
    (hcode : ∀ slots, timeline o.frag none 127 (o.indexes.zip o.values) = .ok slots →
      ∀ exp, ∃ lens, choose exp o.indexes.length (dsQty exp slots) = .ok lens ∧ CompleteCode (codeQty exp) (poolsUsed exp slots) lens)
    (hcap : 296 + 12 * o.indexes.length ≤ cap) :
    ∃ blob, Sf.compress cap choose o = .ok (some blob) ∧
      ∀ buf : Bytes, blob.length ≤ buf.length → o.indexes.length ≤ buf.length →
        ∃ o' p, Sf.decompress .fresh buf blob = .ok (some o', p) ∧ o'.indexes = o.indexes ∧
          List.Forall₂ (fun x y => (0 < expBits x → |number y - number x| ≤ |number x| / 2 ^ (o.frag + 1)) ∧
            (expBits x = 0 → |number y - number x| ≤ 2 ^ (-126 : ℤ))) o.values o'.values := by
  obtain ⟨blob, h1, h2⟩ := C52_decompress_of_compress choose o cap hfrag hlen hne hinc hlt hsz hval hcode hcap
  refine ⟨blob, h1, fun buf hb hi => ?_⟩
  obtain ⟨p, h3⟩ := h2 buf hb hi
  refine ⟨_, p, h3, rfl, ?_⟩
  rw [List.forall₂_map_right_iff, List.forall₂_same]
  intro x hx
  exact ⟨fun h => round_error hfrag.2.1 x (hval x hx).2 h, fun h => round_error_small hfrag.2.1 x (hval x hx).2 h⟩

/-- The second value of `exOrigin` is -3.5015… and comes back as -3.5019…. -/
example : number 0xc0601900#32 = -229476 / 65536 ∧ number (roundTo 10 0xc0601900#32) = -3586 / 1024 ∧ 0 < expBits 0xc0601900#32 := by
  refine ⟨?_, ?_, by decide⟩
  · simp [number, magnitude]
    norm_num
  · simp [number, magnitude, roundTo, roundBits]
    norm_num

/-- C66. The stream of a matrix without nonzero values ends after the sizes; decompressed with a new object in memory that is zero and has 6
bytes more than the stream, it gives the sizes and no values. -/
theorem C66_empty_matrix (rowBased : Bool) (rows cols cap mem : ℕ) (hpos : 0 < rows * cols) (hsz : rows * cols < 2 ^ 31) (hcap : 24 ≤ cap) :
    ∃ s, (emptyFields rowBased rows cols).foldlM (putSel cap) ⟨[], 0⟩ = .ok s ∧
      (s.rev.length + 6 ≤ mem →
        Sf.decompress .fresh (List.replicate mem 0) s.rev.reverse = .ok (some ⟨7, rowBased, rows, cols, [], []⟩, .fresh)) := by
  norm_num at hsz
  obtain ⟨k, fs, h1, h2, h3, h4⟩ := empty_reads (cap := mem) rowBased hpos hsz
  have hl : fs.length = 5 := by
    have : (emptyFields rowBased rows cols).length = 6 := rfl
    rw [h1] at this
    simpa using this
  obtain ⟨s, S1, S2⟩ := put_fields cap ((0, 4) :: fs) (by
      intro f hf
      rcases List.mem_cons.1 hf with rfl | hf
      · exact ⟨by norm_num, by norm_num⟩
      · exact h2 f hf) (by simp only [List.length_cons]; omega)
  refine ⟨s, by rw [h1]; exact S1, ?_⟩
  intro hmem
  unfold Sf.decompress
  rw [if_neg (by simp only [List.length_replicate, List.length_reverse]; omega)]
  obtain ⟨r, hr⟩ : ∃ r, 8 * (mem - s.rev.length) + s.free = k + r := ⟨8 * (mem - s.rev.length) + s.free - k, by omega⟩
  have hahead : Ahead ⟨s.rev.reverse ++ (List.replicate mem 0).drop s.rev.reverse.length, 8⟩
      (bitsOf 2 0 ++ ((bitsOfFields fs ++ List.replicate k false) ++ List.replicate r false)) := by
    refine ⟨by simp, ?_⟩
    have : bitsOf 2 0 ++ ((bitsOfFields fs ++ List.replicate k false) ++ List.replicate r false) =
        byteBits (s.rev.reverse ++ (List.replicate mem 0).drop s.rev.reverse.length) := by
      rw [byteBits_append, S2, bitsOfFields_cons, show selBits 0 4 = bitsOf 2 0 from selBits_pow (m := 2) (by omega),
        List.drop_replicate, byteBits_zeros, List.append_assoc, List.append_assoc, List.append_assoc, List.replicate_append_replicate,
        List.replicate_append_replicate, List.length_reverse, ← hr, Nat.add_comm s.free]
    rw [this]
    cases s.rev.reverse ++ (List.replicate mem 0).drop s.rev.reverse.length <;> simp [remaining]
  obtain ⟨s1, e1, a1⟩ := fromBits_reads (k := 2) (v := 0) (by omega) (by omega) _ _ hahead
  obtain ⟨s2, e2, -⟩ := h4 s1 _ a1
  rw [e1]
  show (if (0 : ℕ) = 0 then (readBody (List.replicate mem (0 : UInt8)).length Pools.fresh s1 >>= fun r => pure (some r.1.1, r.1.2))
    else pure (none, Pools.fresh)) = _
  rw [if_pos rfl, List.length_replicate, e2]
  rfl

/-- The stream of a zero matrix of three rows and five columns. -/
example : (emptyFields true 3 5).foldlM (putSel 24) ⟨[], 0⟩ = .ok ⟨[116, 35], 0⟩ := by decide +kernel

/-- C67, the part that holds: if a new object decompresses a stream that contains both code tables, every used object gives the same result.
Missing: streams that leave a table out, see `C67_reuse_counterexample`. -/
theorem C67_reuse_partial (p q : Pools) (buf blob : Bytes) (o : Origin) (h : Sf.decompress .fresh buf blob = .ok (some o, q))
    (hj : 0 < q.jumps.count) (hz : 0 < q.zeros.count) : ∃ q', Sf.decompress p buf blob = .ok (some o, q') := by
  unfold Sf.decompress at h ⊢
  split at h
  · cases h
  next hl =>
    rw [if_neg hl]
    cases hv : fromBits 2 ⟨blob ++ buf.drop blob.length, 8⟩ with
    | throw => rw [hv] at h; cases h
    | ub => rw [hv] at h; cases h
    | ok v =>
      rw [hv] at h
      simp only [Outcome.bind_ok] at h ⊢
      split at h
      next h0 =>
        rw [if_pos h0]
        cases hr : readBody buf.length .fresh v.2 with
        | throw => rw [hr] at h; cases h
        | ub => rw [hr] at h; cases h
        | ok r =>
          rw [hr] at h
          cases h
          obtain ⟨q', hq⟩ := readBody_used (s' := r.2) (o := r.1.1) (q := r.1.2) hr hj hz p
          exact ⟨q', by rw [hq]; rfl⟩
      · cases h

/-- The stream of `exOrigin` has both tables. -/
example : ∃ q, Sf.decompress .fresh (List.replicate 50 0) [35, 83, 163, 66, 203, 176, 0, 78, 3, 240, 0] =
    .ok (some { exOrigin with values := exOrigin.values.map (roundTo 10) }, q) ∧ 0 < q.jumps.count ∧ 0 < q.zeros.count := by
  have h : ∀ x : Outcome (Option Origin × Pools), (match x with
      | .ok (some o, q) => decide (o = { exOrigin with values := exOrigin.values.map (roundTo 10) }) && decide (0 < q.jumps.count) &&
        decide (0 < q.zeros.count)
      | _ => false) = true → ∃ q, x = .ok (some { exOrigin with values := exOrigin.values.map (roundTo 10) }, q) ∧ 0 < q.jumps.count ∧
        0 < q.zeros.count := by
    intro x hx
    split at hx
    · simp only [Bool.and_eq_true, decide_eq_true_eq] at hx
      obtain ⟨⟨rfl, h2⟩, h3⟩ := hx
      exact ⟨_, rfl, h2, h3⟩
    · cases hx
  exact h _ (by decide +kernel)

/-- C68, negated: whatever the buffer size and the choice of code lengths, `Compress` reads outside an array when there are no values. -/
theorem C68_no_values (cap : ℕ) (choose : Choose) (o : Origin) (hfrag : 7 ≤ o.frag ∧ o.frag ≤ 23 ∧ o.frag ≠ 22)
    (hi : o.indexes = []) (hv : o.values = []) : Sf.compress cap choose o = .ub := by
  have h0 : poolsUsed true [] = 0 := by decide +kernel
  unfold Sf.compress
  rw [if_neg (by omega), hi, hv, if_neg (by simp), if_neg (by simp)]
  simp only [List.length_nil, List.zip_nil_left, List.take_nil, u32, Nat.zero_mod]
  rw [if_neg (by omega)]
  simp only [timeline, Outcome.bind_ok]
  rw [if_pos (Or.inl h0)]

theorem timeline_zero {frag : ℕ} : ∀ (l : List (ℕ × F32)) (prev : Option ℕ) (last : ℕ), (∃ a ∈ l, a.2.toNat % 2 ^ 31 = 0) →
    timeline frag prev last l = .ub
  | [], _, _, h => by simp at h
  | (i, x) :: rest, prev, last, h => by
    unfold timeline
    cases hb : toBF frag x with
    | ub => rfl
    | throw =>
      unfold toBF at hb
      simp only at hb
      split_ifs at hb
    | ok b =>
      have : ∃ a ∈ rest, a.2.toNat % 2 ^ 31 = 0 := by
        obtain ⟨a, ha, h0⟩ := h
        rcases List.mem_cons.1 ha with rfl | ha
        · unfold toBF F32.isZero at hb
          rw [if_pos (by simpa using h0)] at hb
          cases hb
        · exact ⟨a, ha, h0⟩
      rw [Outcome.bind_ok, timeline_zero rest _ _ this]
      rfl

/-- C68, negated: a zero among the values makes `Compress` use an uninitialised variable. -/
theorem C68_zero_value (cap : ℕ) (choose : Choose) (o : Origin) (hfrag : 7 ≤ o.frag ∧ o.frag ≤ 23 ∧ o.frag ≠ 22)
    (hlen : o.values.length = o.indexes.length) (hn : o.indexes.length < 2 ^ 32) (hsz : o.values.length ≤ o.cols * o.rows % 2 ^ 64)
    (hz : ∃ x ∈ o.values, x.toNat % 2 ^ 31 = 0) : Sf.compress cap choose o = .ub := by
  norm_num at hn
  unfold Sf.compress
  rw [if_neg (by omega), if_neg (by omega), if_neg (by omega)]
  simp only
  split
  · rfl
  · rw [u32_eq hn, List.take_of_length_le (by simp), timeline_zero]
    · rfl
    · obtain ⟨x, hx, h0⟩ := hz
      rw [← List.map_snd_zip (l₁ := o.indexes) hlen.le] at hx
      obtain ⟨a, ha, rfl⟩ := List.mem_map.1 hx
      exact ⟨a, ha, h0⟩

/-- One zero, in a matrix of one element. -/
example : Sf.compress 400 exChoose ⟨10, true, 1, 1, [0], [0#32]⟩ = .ub :=
  C68_zero_value 400 exChoose _ (by decide) rfl (by decide) (by decide) ⟨0#32, by simp, by decide⟩

/-- No values, in a matrix of one element. -/
example : Sf.compress 400 exChoose ⟨10, true, 1, 1, [], []⟩ = .ub := C68_no_values 400 exChoose _ (by decide) rfl rfl

end WB.Props
