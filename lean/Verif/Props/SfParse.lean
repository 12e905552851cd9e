import Verif.Props.SfCompressor
import Verif.Proof.SfParse

/-! Properties C57 and C65: version-2 blobs with compressed subbands. -/

namespace WB.Props

open WB WB.Spec

/-- `stream` is what the version-2 compressor makes of the nonzero values of `m`, under the conditions of C52. -/
structure StreamOf (frag : ℕ) (m : Mat F32) (stream : Bytes) : Prop where
  small : m.rows * m.cols < 2 ^ 31
  finite : ∀ x ∈ m.data, RoundsFinite frag x
  nonzero : ∃ x ∈ m.data, ¬ isZeroPattern x
  made : ∃ (cap : ℕ) (choose : Sf.Choose) (rowBased : Bool) (indexes : List ℕ) (values : List F32),
    toCSR m = .ok (indexes, values) ∧ 296 + 12 * indexes.length ≤ cap ∧
    (∀ slots, Sf.timeline frag none 127 (indexes.zip values) = .ok slots →
      ∀ exp, ∃ lens, choose exp indexes.length (Sf.dsQty exp slots) = .ok lens ∧
        CompleteCode (Sf.codeQty exp) (Sf.poolsUsed exp slots) lens) ∧
    Sf.compress cap choose ⟨frag, rowBased, m.rows, m.cols, indexes, values⟩ = .ok (some stream)

theorem legacySubband_stream {alloc : ℕ → ℕ → Outcome Unit} {p : Params} {s frag : ℕ} {m : Mat F32} {stream : Bytes}
    (hfrag : 7 ≤ frag ∧ frag ≤ 23 ∧ frag ≠ 22) (h : StreamOf frag m stream) (ha : alloc 1 (Sf.memorySize p.shape s) = .ok ())
    (hm : Sf.memorySize p.shape s < 2 ^ 64) (hlen : stream.length ≤ Sf.memorySize p.shape s)
    (hnz : (m.data.filter fun x => !isZeroPattern x).length ≤ Sf.memorySize p.shape s) (hrc : alloc m.rows m.cols = .ok ()) :
    ∃ m', Sf.legacySubband alloc p s stream = .ok (some m') ∧ MappedNonzeros (roundTo frag) m m' := by
  obtain ⟨x, hx, hxz⟩ := h.nonzero
  have hpos : 0 < m.rows * m.cols := by
    rw [← m.wf]; exact List.length_pos_of_mem hx
  obtain ⟨cap, choose, rowBased, indexes, values, h1, h2, h3, h4⟩ := h.made
  rw [toCSR_ok hpos h.small] at h1
  have hmem : ∀ y ∈ (entries m).map Prod.snd, y ∈ m.data ∧ ¬ isZeroPattern y := by
    intro y hy
    rw [entries_values] at hy
    simpa using List.mem_filter.1 hy
  have hne : (entries m).map Prod.snd ≠ [] := by
    rw [entries_values]
    exact List.ne_nil_of_mem (List.mem_filter.2 ⟨hx, by simpa using hxz⟩)
  have hcount : (entries m).length = (m.data.filter fun x => !isZeroPattern x).length := by
    rw [← entries_values, List.length_map]
  cases h1
  obtain ⟨blob, hb, hd⟩ := C52_decompress_of_compress choose
    ⟨frag, rowBased, m.rows, m.cols, (entries m).map Prod.fst, (entries m).map Prod.snd⟩ cap hfrag (by simp)
    (by intro hh; apply hne; simpa using hh) (entries_sorted m)
    (by intro i hi; obtain ⟨y, hy, rfl⟩ := List.mem_map.1 hi; exact entries_lt hy) h.small
    (by
      intro y hy
      obtain ⟨hy1, hy2⟩ := hmem y hy
      refine ⟨?_, h.finite y hy1⟩
      rw [isZero_eq] at hy2
      unfold F32.isZero at hy2
      simpa using hy2) h3 h2
  rw [h4] at hb
  cases hb
  obtain ⟨q, hq⟩ := hd (List.replicate (Sf.memorySize p.shape s) 0) (by simpa using hlen) (by
    simp only [List.length_map, List.length_replicate]; omega)
  obtain ⟨m', hm1, hm2⟩ := fold_entries (m := m) (roundTo frag) hpos
  refine ⟨m', ?_, hm2⟩
  unfold Sf.legacySubband
  rw [if_neg (by omega), ha, Outcome.bind_ok, hq]
  show (alloc m.rows m.cols >>= _) = _
  rw [hrc, Outcome.bind_ok]
  have hz : ((entries m).map Prod.fst).zip (((entries m).map Prod.snd).map (roundTo frag)) =
      (entries m).map fun x => (x.1, roundTo frag x.2) := by
    rw [List.map_map, List.zip_map']
    rfl
  show (((entries m).map Prod.fst).zip (((entries m).map Prod.snd).map (roundTo frag))).foldlM putEntry
    (Mat.ofFn m.rows m.cols fun _ _ => 0) >>= _ = _
  rw [hz, hm1]
  rfl

/-- `stream` is the stream of a matrix `m` without nonzero values, see C66. -/
structure EmptyStreamOf (m : Mat F32) (stream : Bytes) : Prop where
  pos : 0 < m.rows * m.cols
  small : m.rows * m.cols < 2 ^ 31
  zero : ∀ x ∈ m.data, isZeroPattern x
  made : ∃ (cap : ℕ) (rowBased : Bool) (s : Sf.BitOut), 24 ≤ cap ∧
    (Sf.emptyFields rowBased m.rows m.cols).foldlM (Sf.putSel cap) ⟨[], 0⟩ = .ok s ∧ stream = s.rev.reverse

theorem legacySubband_empty {alloc : ℕ → ℕ → Outcome Unit} {p : Params} {s : ℕ} {m : Mat F32} {stream : Bytes} (f : F32 → F32)
    (h : EmptyStreamOf m stream) (ha : alloc 1 (Sf.memorySize p.shape s) = .ok ())
    (hm : Sf.memorySize p.shape s < 2 ^ 64) (hlen : stream.length + 6 ≤ Sf.memorySize p.shape s) (hrc : alloc m.rows m.cols = .ok ()) :
    ∃ m', Sf.legacySubband alloc p s stream = .ok (some m') ∧ MappedNonzeros f m m' := by
  obtain ⟨cap, rb, o, hcap, h1, h2⟩ := h.made
  obtain ⟨o', h3, h4⟩ := C66_empty_matrix rb m.rows m.cols cap (Sf.memorySize p.shape s) h.pos h.small hcap
  rw [h1] at h3
  cases h3
  rw [h2, List.length_reverse] at hlen
  refine ⟨Mat.ofFn m.rows m.cols fun _ _ => 0, ?_, rfl, rfl, ?_⟩
  · unfold Sf.legacySubband
    rw [if_neg (by omega), ha, Outcome.bind_ok, h2, h4 hlen]
    show (alloc m.rows m.cols >>= _) = _
    rw [hrc, Outcome.bind_ok]
    rfl
  · intro i hi j hj
    rw [Mat.get_ofFn hi hj, if_pos]
    refine h.zero _ ?_
    rw [data_eq_rows]
    exact List.mem_flatMap.2 ⟨i, List.mem_range.2 hi, List.mem_map.2 ⟨j, List.mem_range.2 hj, rfl⟩⟩

/-- C65. A version-2 blob with compression whose streams were made by the version-2 compressor from the subbands of a buffer, each
fitting the memory the parser sets aside for the subband, is parsed to that buffer with its values rounded to the fraction
bits kept (whatever follows the blob). -/
theorem C65_version2_compressed (e : Ext) (M : ℕ) (b : Buffer F32) (frag : ℕ) (level : UInt8) (streams : List (List Bytes)) (extra : Bytes)
    (hl : e.legacySubband = Sf.legacySubband e.alloc)
    (hb : WellFormed b) (hf : FitsFormat b) (hM : Room e M) (hm : FitsMemory b M) (h2 : 2 ≤ M) (hM64 : M < 2 ^ 64)
    (hmem : Sf.memorySize b.params.shape 0 ≤ M) (h0 : level ≠ 0) (hfrag : 7 ≤ frag ∧ frag ≤ 23 ∧ frag ≠ 22)
    (hlen : streams.length = b.decs.length)
    (hstreams : ∀ (n : ℕ) (c : List (Mat F32)) (bs : List Bytes), b.decs[n]? = some c → streams[n]? = some bs → bs.length = c.length ∧
      ∀ k m v, c[k]? = some m → bs[k]? = some v →
        (StreamOf frag m v ∧ v.length ≤ Sf.memorySize b.params.shape k ∧
          (m.data.filter fun x => !isZeroPattern x).length ≤ Sf.memorySize b.params.shape k) ∨
        (EmptyStreamOf m v ∧ v.length + 6 ≤ Sf.memorySize b.params.shape k)) :
    ∃ d, parse e (encodeV2Streams b.params level streams ++ extra) = .ok (some ⟨b.params, d⟩) ∧
      List.Forall₂ (List.Forall₂ (MappedNonzeros (roundTo frag))) b.decs d := by
  obtain ⟨d, h3, h4⟩ := rdLegacyDecs_archive (e := e) (p := b.params) (P := MappedNonzeros (roundTo frag)) b.decs
    (emptyBuffer (α := F32) b.params).decs streams (layout_lengths hb) hlen (by
      intro n c bs hc hbs
      obtain ⟨h5, h6⟩ := hstreams n c bs hc hbs
      refine ⟨h5, ?_⟩
      intro k m v hk hv
      have hle := memorySize_le b.params.shape k
      have hrc := hM _ _ (hm.2 c (List.mem_of_getElem? hc) m (List.mem_of_getElem? hk))
      rcases h6 k m v hk hv with ⟨h7, h8, h9⟩ | ⟨h7, h8⟩
      · refine ⟨by omega, hM _ _ (by omega), ?_⟩
        rw [hl]
        exact legacySubband_stream hfrag h7 (hM _ _ (by omega)) (by omega) h8 h9 hrc
      · refine ⟨by omega, hM _ _ (by omega), ?_⟩
        rw [hl]
        exact legacySubband_empty (roundTo frag) h7 (hM _ _ (by omega)) (by omega) h8 hrc)
  refine ⟨d, ?_, h4⟩
  rw [parse_streams_head hb.1 hf.1 hf.2.1 hf.2.2.1 hM hm.1 h2 level h0, h3]
  rfl

/-- The stream of the column 0.5, 0. -/
theorem exStream : StreamOf 23 (Mat.ofFn 2 1 fun i _ => if i = 0 then 0x3f000000#32 else 0) [34, 150, 242, 14, 0, 0, 0] := by
  have hd : (Mat.ofFn 2 1 fun i _ => if i = 0 then 0x3f000000#32 else 0).data = [0x3f000000#32, 0] := by decide +kernel
  refine ⟨by simp [Mat.ofFn], ?_, ?_, 308, fun exp _ _ => .ok fun _ => if exp then 1 else 0, true, [0], [0x3f000000#32], by decide +kernel, by decide, ?_, by decide +kernel⟩
  · rw [hd]
    simp [RoundsFinite, expBits, roundBits]
  · exact ⟨0x3f000000#32, by rw [hd]; simp, by decide⟩
  · intro slots hs exp
    have h0 : Sf.timeline 23 none 127 ([0].zip [0x3f000000#32]) = .ok [⟨0, 1, 0, 0⟩] := by decide +kernel
    rw [h0] at hs
    cases hs
    refine ⟨_, rfl, ?_⟩
    cases exp
    · rw [show Sf.poolsUsed false _ = 1 by decide +kernel]
      exact ⟨fun _ _ => le_refl _, fun _ _ => show (0 : ℕ) ≤ 31 by decide, by decide +kernel⟩
    · rw [show Sf.poolsUsed true _ = 2 by decide +kernel]
      exact ⟨fun _ _ => le_refl _, fun _ _ => show (1 : ℕ) ≤ 31 by decide, by decide +kernel⟩

/-- The stream of the column 0, 0. -/
theorem exEmptyStream : EmptyStreamOf (Mat.ofFn 2 1 fun _ _ => 0) [34, 144] :=
  ⟨by simp [Mat.ofFn], by simp [Mat.ofFn], by simp [Mat.ofFn, isZeroPattern], 24, true, ⟨[144, 34], 2⟩, by decide, by decide +kernel, rfl⟩

/-- Two channels with two samples each, the second zero. -/
example (e : Ext) (hl : e.legacySubband = Sf.legacySubband e.alloc) (ha : ∀ r c, e.alloc r c = .ok ()) :
    ∃ d, parse e (encodeV2Streams ⟨[2], 2, 0, 0⟩ 5 [[[34, 150, 242, 14, 0, 0, 0]], [[34, 144]]] ++ []) = .ok (some ⟨⟨[2], 2, 0, 0⟩, d⟩) ∧
      List.Forall₂ (List.Forall₂ (MappedNonzeros (roundTo 23)))
        [[Mat.ofFn 2 1 fun i _ => if i = 0 then 0x3f000000#32 else 0], [Mat.ofFn 2 1 fun _ _ => 0]] d := by
  refine C65_version2_compressed e 100 ⟨⟨[2], 2, 0, 0⟩, [[Mat.ofFn 2 1 fun i _ => if i = 0 then 0x3f000000#32 else 0],
    [Mat.ofFn 2 1 fun _ _ => 0]]⟩ 23 5 _ [] hl ⟨?_, rfl, ?_⟩ ⟨?_, ?_, ?_, ?_⟩ (fun _ _ _ => ha _ _) ⟨?_, ?_⟩ (by norm_num) (by norm_num)
    (by simp [Sf.memorySize]) (by decide) (by norm_num) rfl ?_
  · simp [ValidParams]
  · simp [subbandCount, detailsPerStep]
  · simp
  · simp
  · simp
  · simp [Mat.ofFn]
  · simp [subbandCount, detailsPerStep]
  · simp [Mat.ofFn]
  · intro n c bs hc hbs
    rcases n with _ | _ | n
    · cases hc; cases hbs
      refine ⟨rfl, ?_⟩
      intro k m v hm hv
      rcases k with _ | k
      · cases hm; cases hv
        exact Or.inl ⟨exStream, by simp [Sf.memorySize], by simp [Sf.memorySize, Mat.ofFn, isZeroPattern, List.range_succ]⟩
      · simp at hm
    · cases hc; cases hbs
      refine ⟨rfl, ?_⟩
      intro k m v hm hv
      rcases k with _ | k
      · cases hm; cases hv
        exact Or.inr ⟨exEmptyStream, by simp [Sf.memorySize]⟩
      · simp at hm
    · simp at hc

/-- C57, negated: for all parameters that describe a buffer with at least one channel and all levels other than 0, `Parse` writes outside its
memory on every version-2 blob with this header whose first stream is longer than the memory set aside. -/
theorem C57_legacy_overflow (e : Ext) (M : ℕ) (p : Params) (level : UInt8) (v : Bytes) (bs : List Bytes) (streams : List (List Bytes))
    (hl : e.legacySubband = Sf.legacySubband e.alloc) (hv : ValidParams p) (hs : ∀ n ∈ p.shape, n < 2 ^ 64)
    (hn : p.signalNumber < 2 ^ 64) (hn0 : 0 < p.signalNumber) (hw : p.wtype < 8) (hM : Room e M) (hm : p.signalNumber * subbandCount p ≤ M) (h2 : 2 ≤ M)
    (h0 : level ≠ 0) (hlong : Sf.memorySize p.shape 0 < v.length) (hvM : v.length ≤ M) (hM64 : M < 2 ^ 64) :
    parse e (encodeV2Streams p level ((v :: bs) :: streams)) = .ub := by
  have h := parse_streams_head hv hs hn hw hM hm h2 level h0 ((v :: bs) :: streams) []
  rw [List.append_nil] at h
  rw [h]
  have hsub : e.legacySubband p 0 v = .ub := by
    rw [hl]
    unfold Sf.legacySubband
    rw [if_neg (by omega), hM _ _ (by omega), Outcome.bind_ok]
    unfold Sf.decompress
    rw [if_pos (by simpa using hlong)]
    rfl
  have hdecs : ∃ (c : Mat F32) (cs : List (Mat F32)) (d : Decs F32), (emptyBuffer (α := F32) p).decs = (c :: cs) :: d := by
    obtain ⟨k, hk⟩ : ∃ k, subbandCount p = k + 1 := ⟨_, rfl⟩
    obtain ⟨n, hn⟩ : ∃ n, p.signalNumber = n + 1 := ⟨p.signalNumber - 1, by omega⟩
    refine ⟨Mat.empty, List.replicate k Mat.empty, List.replicate n (List.replicate (k + 1) Mat.empty), ?_⟩
    unfold emptyBuffer
    rw [hn, hk, List.replicate_succ, List.replicate_succ]
  obtain ⟨c, cs, d, hdecs⟩ := hdecs
  rw [hdecs, List.map_cons, List.flatten_cons, List.map_cons, List.flatten_cons, List.append_assoc, List.append_assoc]
  unfold rdLegacyDecs Rd.bind
  rw [List.length_cons]
  unfold rdLegacyChannel Rd.bind
  rw [rdLegacySubband_archive (by omega) (hM _ _ (by omega)), hsub]
  rfl

/-- One sample, one channel, no wavelet: 6 bytes are set aside, 7 are too many. -/
example (e : Ext) (hl : e.legacySubband = Sf.legacySubband e.alloc) (ha : ∀ r c, e.alloc r c = .ok ()) :
    parse e (encodeV2Streams ⟨[1], 1, 0, 0⟩ 5 [[[0, 0, 0, 0, 0, 0, 0]]]) = .ub := by
  refine C57_legacy_overflow e 100 ⟨[1], 1, 0, 0⟩ 5 _ [] [] hl ?_ ?_ ?_ ?_ ?_ (fun _ _ _ => ha _ _) ?_ ?_ ?_ ?_ ?_ ?_ <;>
    simp [ValidParams, subbandCount, detailsPerStep, Sf.memorySize]

end WB.Props
