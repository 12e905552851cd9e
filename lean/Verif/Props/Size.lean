import Verif.Proof.Size
import Verif.Props.Untrusted

/-!
Property C116: the size of archives, and of buffers made from them.
-/

namespace WB.Props

open WB WB.Spec

/-- **C116.** An archive without compression (level 0, or a buffer without samples at any level) has exactly 30 bytes, 8 for
every dimension, 28 for every subband and 4 for every sample. -/
theorem C116_plain_size (e : Ext) (b : Buffer F32) (old blob : Bytes) (level : ℕ)
    (h : serialize e b old level = .ok (true, blob)) (hl : level = 0 ∨ valueCount b.decs = 0) :
    blob.length = 30 + 8 * b.params.shape.length + 28 * bandCount b.decs + 4 * valueCount b.decs := by
  obtain ⟨body, h1, h2⟩ := serialize_true h
  have hz : effectiveLevel b level = 0 := by
    unfold effectiveLevel
    rcases hl with rfl | hv
    · split <;> simp
    · rw [if_pos]
      unfold Buffer.isEmpty
      unfold valueCount at hv
      simp only [List.sum_eq_zero_iff, List.mem_map, forall_exists_index, and_imp, forall_apply_eq_imp_iff₂] at hv
      simp only [List.all_eq_true, beq_iff_eq]
      exact fun c hc m hm => hv c hc m hm
  rw [hz] at h1
  rw [h2, serSubbands_plain h1, sum_flatten, sum_affine]
  unfold headerSize
  omega

/-- **C116.** With compression the size is bounded by the values that are not zero, whatever the sides of the subbands: 1104
bytes for every subband, and 8 and a quarter for every nonzero value. -/
theorem C116_packed_size (e : Ext) (he : CodecSizes e) (b : Buffer F32) (old blob : Bytes) (level : ℕ) (hl : level ≠ 0)
    (hv : valueCount b.decs ≠ 0) (h : serialize e b old level = .ok (true, blob)) :
    blob.length ≤ 30 + 8 * b.params.shape.length +
      (b.decs.flatten.map fun m => 1104 + 8 * nonzeroCount m + (nonzeroCount m + 3) / 4).sum := by
  obtain ⟨body, h1, h2⟩ := serialize_true h
  have hz : effectiveLevel b level ≠ 0 := by
    unfold effectiveLevel
    rw [if_neg]
    · omega
    · intro hc
      apply hv
      unfold Buffer.isEmpty at hc
      unfold valueCount
      simp only [List.all_eq_true, beq_iff_eq] at hc
      simp only [List.sum_eq_zero_iff, List.mem_map, forall_exists_index, and_imp, forall_apply_eq_imp_iff₂]
      exact fun c hc' m hm => hc c hc' m hm
  have := serSubbands_packed he hz h1
  rw [h2]
  unfold headerSize
  omega

/-- **C116**, the other direction. A buffer parsed from an uncompressed blob of the present version, whoever made it, has no
more samples than the blob has room for: the blob is at least as long as the archive of the buffer. (Blaze's encodings of
sparse matrices, which are never written, are excluded.) -/
theorem C116_parsed_size_partial (e : Ext) (ho : ∀ t r c n s x, e.otherMat t r c n s ≠ .ok x) (p : Params) (hp : FitsFields p)
    (rest : Bytes) (b : Buffer F32) (h : parse e ([3] ++ encodeParams p ++ [0] ++ rest) = .ok (some b)) :
    30 + 8 * b.params.shape.length + 28 * bandCount b.decs + 4 * valueCount b.decs ≤
      ([3] ++ encodeParams p ++ [0] ++ rest).length := by
  have hs : [3] ++ encodeParams p ++ [0] ++ rest = startBytes 3 p ++ ([0] ++ rest) := by
    simp [startBytes, encodeParams_eq]
  have hcons : startBytes 3 p ++ ([0] ++ rest) = 3 :: (serParams p ++ ([0] ++ rest)) := rfl
  rw [hs] at h ⊢
  rw [hcons, parse_three, ← hcons] at h
  obtain ⟨t, h⟩ := caught_eq_some h
  obtain ⟨⟨b0, l⟩, t1, h1, h2⟩ := rdBind_eq_ok h
  obtain ⟨d, t2, h3, h4⟩ := rdBind_eq_ok h2
  obtain ⟨h5, _⟩ := rdPure_eq_ok h4
  cases h5
  rw [rdHeader_eq, start_of_fits hp] at h1
  obtain ⟨⟨p', w⟩, g1, g2⟩ := bind_eq_ok h1
  obtain ⟨_, _, g1⟩ := bind_eq_ok g1
  split at g1
  · cases g1
  · cases g1
    simp only [Rd.bind, Rd.lift, rdLevel, List.singleton_append, Outcome.bind_ok] at g2
    obtain ⟨y, g3, g4⟩ := bind_eq_ok g2
    obtain ⟨b1, g5, g6⟩ := bind_eq_ok g3
    cases g6
    cases g4
    obtain ⟨_, rfl⟩ := newBuffer_eq_ok g5
    have k := rdLayout_count (f := fun m => 28 + 4 * (m.rows * m.cols)) (fun s x t hs => rdMat_length ho hs) h3
    rw [sum_affine] at k
    have k : rest.length = 28 * bandCount d + 4 * valueCount d + t2.length := k
    have : (startBytes 3 p).length = 29 + 8 * p.shape.length := by
      simp [startBytes, length_serParams]; omega
    simp only [List.length_append, List.length_cons, List.length_nil]
    show 30 + 8 * p.shape.length + 28 * bandCount d + 4 * valueCount d ≤ _
    omega

/-- **C116**, the other direction, is false of compressed blobs: there are blobs of one and the same length for buffers with
any number of samples (all zero) that memory can hold. -/
theorem C116_counterexample (e : Ext) (trunc : ℕ → F32 → F32) (hc : CodecsWork e trunc) :
    ∃ K, ∀ M, Room e M → K ≤ M → ∀ N, 2 ≤ N → N ≤ M → N < 2 ^ 64 →
      ∃ blob b, blob.length = K ∧ parse e blob = .ok (some b) ∧ WellFormed b ∧ valueCount b.decs = N := by
  obtain ⟨hib, hid⟩ := hc.integers [] (by simp) (by simp)
  obtain ⟨bs, hb1, hb2, hb3⟩ := hc.floats 32 [] (by norm_num) (by norm_num) (by simp)
  refine ⟨102 + (e.svbEnc []).length + bs.length, fun M hM hK N h2 hN h64 => ?_⟩
  have hv : ValidParams ⟨[N], 1, 0, 1⟩ := by
    unfold ValidParams
    simp only [List.length_cons, List.length_nil, List.mem_singleton, forall_eq]
    refine ⟨?_, ?_, ?_⟩ <;> simp <;> omega
  have hs : ∀ n ∈ (⟨[N], 1, 0, 1⟩ : Params).shape, n < 2 ^ 64 := by
    intro n hn
    simp only [List.mem_singleton] at hn
    omega
  have hsub : rdSubband e 1 (le 8 0 ++ (le 8 N ++ (le 8 1 ++ (serBytes (e.svbEnc []) ++ (serBytes bs ++ []))))) =
      .ok (Mat.ofFn N 1 fun _ _ => 0, []) := by
    unfold rdSubband
    rw [if_neg (by norm_num)]
    show (rdChecked 8 _ >>= _) = _
    rw [(reads_checked (by norm_num)).full, Outcome.bind_ok]
    show (rdChecked 8 _ >>= _) = _
    rw [(reads_checked (fits256 h64)).full, Outcome.bind_ok]
    show (rdChecked 8 _ >>= _) = _
    rw [(reads_checked (by norm_num)).full, Outcome.bind_ok]
    show (rdBytes e _ >>= _) = _
    rw [(reads_bytes hib (hM _ _ (by omega))).full, Outcome.bind_ok]
    show (rdBytes e _ >>= _) = _
    rw [(reads_bytes hb2 (hM _ _ (by omega))).full, Outcome.bind_ok]
    have hdec : decompress e ⟨0, N, 1, e.svbEnc [], bs⟩ = .ok (Mat.ofFn N 1 fun _ _ => 0) := by
      unfold decompress
      dsimp only
      rw [hM _ _ (by omega), Outcome.bind_ok]
      have h1 : e.svbDec (e.svbEnc []) 0 = .ok [] := hid
      have h2 : e.fpzDec bs 0 = .ok [] := hb3
      rw [h1, Outcome.bind_ok, h2, Outcome.bind_ok]
      unfold fromCSR
      rw [hM _ _ (by omega), Outcome.bind_ok]
      rfl
    show (decompress e ⟨0, N, 1, e.svbEnc [], bs⟩ >>= _) = _
    rw [hdec]; rfl
  refine ⟨startBytes 3 ⟨[N], 1, 0, 1⟩ ++ ([1] ++ (le 8 0 ++ (le 8 N ++ (le 8 1 ++ (serBytes (e.svbEnc []) ++ (serBytes bs ++ [])))))),
    ⟨⟨[N], 1, 0, 1⟩, [[Mat.ofFn N 1 fun _ _ => 0]]⟩, ?_, ?_, ⟨hv, rfl, ?_⟩, ?_⟩
  · have : (startBytes 3 ⟨[N], 1, 0, 1⟩).length = 37 := by simp [startBytes, length_serParams]
    simp only [List.length_append, this, length_le, length_serBytes, List.length_cons, List.length_nil]
    omega
  · have hcons : ∀ w, startBytes 3 ⟨[N], 1, 0, 1⟩ ++ w = 3 :: (serParams ⟨[N], 1, 0, 1⟩ ++ w) := fun _ => rfl
    rw [hcons, parse_three, ← hcons]
    have hh := rdHeader_full (e := e) (v := 3) hv hs (by norm_num) (by norm_num) (hM _ _ (by simp; omega))
      (hM _ _ (show 1 * 1 ≤ M by omega)) 1 (le 8 0 ++ (le 8 N ++ (le 8 1 ++ (serBytes (e.svbEnc []) ++ (serBytes bs ++ [])))))
    unfold parseV3
    show caught (rdHeader e _ >>= _) = _
    rw [hh, Outcome.bind_ok]
    show caught ((((rdSubband e 1 _ >>= _) >>= _)) >>= _) = _
    rw [hsub]; rfl
  · intro c hc
    rw [List.mem_singleton.1 hc]; rfl
  · simp [valueCount]

/-! ### The hypotheses are met -/

/-- The codecs of `exExt` stay within the memory. -/
theorem exExt_sizes : CodecSizes exExt where
  positions xs := by
    have : (exExt.svbEnc xs).length = 4 * xs.length := length_flatMap_le4 xs
    omega
  values prec vs bs h := by
    cases h
    rw [length_flatMap_le4, List.length_map]
    omega

/-- A signal of eight samples, one of them not zero, in two subbands of four: 38 + 56 + 32 bytes without compression. -/
example : ∃ blob, serialize exExt ⟨exUntrusted, [[Mat.ofFn 4 1 fun i _ => if i = 2 then 0x3f800000#32 else 0, Mat.ofFn 4 1 fun _ _ => 0]]⟩ [] 0 =
    .ok (true, blob) ∧ blob.length = 126 := ⟨_, rfl, rfl⟩

/-- The same with compression. -/
example : ∃ blob, serialize exExt ⟨exUntrusted, [[Mat.ofFn 4 1 fun i _ => if i = 2 then 0x3f800000#32 else 0, Mat.ofFn 4 1 fun _ _ => 0]]⟩ [] 1 =
    .ok (true, blob) := ⟨_, rfl⟩

/-- An uncompressed archive that is parsed. -/
example : (∀ t r c n s x, exExt.otherMat t r c n s ≠ .ok x) ∧ FitsFields exSignal.params ∧
    ∃ rest, parse exExt ([3] ++ encodeParams exSignal.params ++ [0] ++ rest) = .ok (some exSignal) := by
  obtain ⟨hb, hf, _, hm, hM⟩ := exSignal_ok
  refine ⟨fun _ _ _ _ _ _ h => (by cases h),
    ⟨by simp [exSignal], by simp [exSignal], by simp [exSignal], by simp [exSignal], by simp [exSignal]⟩, ?_⟩
  obtain ⟨blob, h1, h2⟩ := C27_uncompressed_round_trip exExt 1000 exSignal [] hb hf hM hm
  obtain ⟨body, rfl⟩ : ∃ body, blob = [3] ++ encodeParams exSignal.params ++ [0] ++ body := by
    cases h1
    exact ⟨_, rfl⟩
  refine ⟨body, h2 ?_⟩
  have := C116_plain_size exExt exSignal [] _ 0 h1 (.inl rfl)
  rw [this]
  decide

end WB.Props
