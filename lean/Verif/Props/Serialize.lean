import Verif.Proof.Parse

/-!
Properties C27–C34, C51, C59: serialisation and parsing.

`M` is any bound on container sizes for which memory can be had; `Room e M` says allocations up to it succeed.
-/

namespace WB.Props

open WB WB.Spec

/-- C27. Without compression every buffer is serialised, and parsing the result gives the same parameters and bit for bit
the same subbands. -/
theorem C27_uncompressed_round_trip (e : Ext) (M : ℕ) (b : Buffer F32) (old : Bytes) (hb : WellFormed b)
    (hf : FitsFormat b) (hM : Room e M) (hm : FitsMemory b M) :
    ∃ blob, serialize e b old 0 = .ok (true, blob) ∧ (blob.length ≤ M → parse e blob = .ok (some b)) := by
  have h0 : effectiveLevel b 0 = 0 := by unfold effectiveLevel; split <;> rfl
  obtain ⟨body, d', h1, h2, h3⟩ := serialize_core (e := e) (M := M) (level := 0) (R := Eq) hb hf
    (by rw [h0]; exact plain_through hf hM hm)
  refine ⟨_, h1 old, fun hl => ?_⟩
  have hlen : 30 + 8 * b.params.shape.length + body.length ≤ M := by
    simp only [blob3, List.length_append, length_startBytes, List.length_singleton] at hl
    omega
  have := parse_blob3_full (t := []) hb.1 hf.1 hf.2.1 hf.2.2.1 (hM _ _ (by omega)) (hM _ _ hm.1) (h3 (by omega))
  rw [List.append_nil] at this
  rw [this, forall₂_forall₂_eq h2]

/-- C28. With compression (levels 1..255) every buffer without empty subbands is serialised, and parsing the result gives
the same parameters and shapes, `+0` for every zero, and the float codec's truncation of every other value to
`33 - min 31 level` bits. -/
theorem C28_compressed_round_trip (e : Ext) (trunc : ℕ → F32 → F32) (M level : ℕ) (b : Buffer F32) (old : Bytes)
    (hb : WellFormed b) (hf : FitsFormat b) (hw : CodecsWork e trunc) (hc : Compressible b) (hM : Room e M)
    (hm : FitsMemory b M) (hl : 1 ≤ level) :
    ∃ blob d', serialize e b old level = .ok (true, blob) ∧
      (blob.length ≤ M → parse e blob = .ok (some ⟨b.params, d'⟩)) ∧
      List.Forall₂ (List.Forall₂ (MappedNonzeros (trunc (33 - min 31 level)))) b.decs d' := by
  obtain ⟨body, d', h1, h2, h3⟩ := serialize_core (e := e) (M := M) (level := level) hb hf
    (compressed_through hw hM hm hc hl)
  refine ⟨_, d', h1 old, fun hl => ?_, h2⟩
  have hlen : 30 + 8 * b.params.shape.length + body.length ≤ M := by
    simp only [blob3, List.length_append, length_startBytes, List.length_singleton] at hl
    omega
  have := parse_blob3_full (t := []) hb.1 hf.1 hf.2.1 hf.2.2.1 (hM _ _ (by omega)) (hM _ _ hm.1) (h3 (by omega))
  rw [List.append_nil] at this
  exact this

/-- C28. At level 1 every value comes back exactly, except that `-0` becomes `+0`. -/
theorem C28_level_one_exact (e : Ext) (trunc : ℕ → F32 → F32) (M : ℕ) (b : Buffer F32) (old : Bytes)
    (hb : WellFormed b) (hf : FitsFormat b) (hw : CodecsWork e trunc) (hc : Compressible b) (hM : Room e M)
    (hm : FitsMemory b M) :
    ∃ blob d', serialize e b old 1 = .ok (true, blob) ∧
      (blob.length ≤ M → parse e blob = .ok (some ⟨b.params, d'⟩)) ∧
      List.Forall₂ (List.Forall₂ (MappedNonzeros id)) b.decs d' := by
  obtain ⟨blob, d', h1, h2, h3⟩ := C28_compressed_round_trip e trunc M 1 b old hb hf hw hc hM hm le_rfl
  refine ⟨blob, d', h1, h2, ?_⟩
  have : trunc (33 - min 31 1) = id := funext fun x => hw.lossless x
  rwa [this] at h3

/-- C29. All levels from 31 on give the same result, and for a buffer without any value all levels do. -/
theorem C29_level_saturates (e : Ext) (b : Buffer F32) (old : Bytes) :
    (∀ level, 31 ≤ level → serialize e b old level = serialize e b old 31) ∧
    ((∀ c ∈ b.decs, ∀ m ∈ c, m.rows * m.cols = 0) →
      ∀ level level', serialize e b old level = serialize e b old level') := by
  have key : ∀ level level', (∀ t, ctorWith b.params b.decs = .ok t → effectiveLevel t level = effectiveLevel t level') →
      serialize e b old level = serialize e b old level' := by
    intro level level' h
    unfold serialize
    cases hc : ctorWith b.params b.decs with
    | throw => rfl
    | ub => rfl
    | ok t => simp only [Outcome.bind_ok, h t hc]
  refine ⟨fun level hl => key _ _ fun t _ => ?_, fun h level level' => key _ _ fun t ht => ?_⟩
  · unfold effectiveLevel
    rw [show min 31 level = min 31 31 by omega]
  · obtain ⟨_, _, hd⟩ := ctorWith_wf ht
    have : t.isEmpty = true := isEmpty_iff.2 (by rw [hd]; exact h)
    unfold effectiveLevel
    rw [if_pos this, if_pos this]

/-- C30. `Serialize` never throws, and if it reports failure the output is what it was before the call. -/
theorem C30_failure_leaves_output (e : Ext) (b : Buffer F32) (old : Bytes) (level : ℕ) (hb : WellFormed b)
    (hr : RepresentableType b.params) :
    serialize e b old level ≠ .throw ∧ ∀ out, serialize e b old level = .ok (false, out) → out = old := by
  have hc : ctorWith b.params b.decs = .ok b := (ctorWith_ok_iff hr _ _).2 ⟨hb.1, hb.2.1, hb.2.2, rfl⟩
  unfold serialize
  rw [hc, Outcome.bind_ok]
  simp only
  cases serSubbands e (effectiveLevel b level) b.decs.flatten with
  | ok body => exact ⟨by simp, fun out h => by simp at h⟩
  | throw => exact ⟨by simp, fun out h => by simpa [eq_comm] using h⟩
  | ub => exact ⟨by simp, fun out h => by cases h⟩

theorem serSubbands_some_empty {e : Ext} {trunc : ℕ → F32 → F32} (hw : CodecsWork e trunc) {sf : ℕ} (hs : 1 ≤ sf)
    (hs' : sf ≤ 31) : ∀ {ms : List (Mat F32)}, (∀ m ∈ ms, m.rows * m.cols < 2 ^ 31) →
    (∃ m ∈ ms, m.rows * m.cols = 0) → serSubbands e sf ms = .throw
  | [], _, h => by simp at h
  | m :: ms, hsz, h => by
    rw [serSubbands]
    by_cases hm : m.rows * m.cols = 0
    · have : serSubband e sf m = .throw := by
        unfold serSubband compress toCSR
        rw [if_neg (by omega), if_pos (by simpa using hm)]
        rfl
      rw [this]; rfl
    · obtain ⟨vs, hv, _⟩ := compress_ok hw (m := m) (prec := 33 - sf) (by omega) (hsz m (by simp)) (by omega) (by omega)
      have : serSubband e sf m = .ok (serArchived ⟨(entries m).length, m.rows, m.cols,
          e.svbEnc ((entries m).map Prod.fst), vs⟩) := by
        unfold serSubband
        rw [if_neg (by omega), hv]
        rfl
      rw [this, Outcome.bind_ok, serSubbands_some_empty hw hs hs' (fun k hk => hsz k (by simp [hk])) (by
        obtain ⟨k, hk, hk0⟩ := h
        rcases List.mem_cons.1 hk with rfl | hk
        · exact absurd hk0 hm
        · exact ⟨k, hk, hk0⟩)]
      rfl

/-- C30. Level 0 always succeeds; at a higher level `Serialize` succeeds exactly when no subband holds a value or every
subband holds at least one. -/
theorem C30_success_condition (e : Ext) (trunc : ℕ → F32 → F32) (b : Buffer F32) (old : Bytes) (hb : WellFormed b)
    (hf : FitsFormat b) (hw : CodecsWork e trunc) (hsz : ∀ c ∈ b.decs, ∀ m ∈ c, m.rows * m.cols < 2 ^ 31) :
    (∃ blob, serialize e b old 0 = .ok (true, blob)) ∧
    ∀ level, 1 ≤ level →
      (((∀ c ∈ b.decs, ∀ m ∈ c, m.rows * m.cols = 0) ∨ (∀ c ∈ b.decs, ∀ m ∈ c, 0 < m.rows * m.cols)) →
        ∃ blob, serialize e b old level = .ok (true, blob)) ∧
      (¬ ((∀ c ∈ b.decs, ∀ m ∈ c, m.rows * m.cols = 0) ∨ (∀ c ∈ b.decs, ∀ m ∈ c, 0 < m.rows * m.cols)) →
        serialize e b old level = .ok (false, old)) := by
  have plain : ∀ ms : List (Mat F32), ∃ body, serSubbands e 0 ms = .ok body := by
    intro ms
    induction ms with
    | nil => exact ⟨_, rfl⟩
    | cons m ms ih =>
      obtain ⟨body, h⟩ := ih
      exact ⟨serMat m ++ body, by rw [serSubbands, h]; rfl⟩
  have ok0 : ∀ level, effectiveLevel b level = 0 → ∃ blob, serialize e b old level = .ok (true, blob) := by
    intro level h0
    obtain ⟨body, h⟩ := plain b.decs.flatten
    exact ⟨_, serialize_eq hb hf.2.2.1 old level (by rw [h0]; exact h)⟩
  refine ⟨ok0 0 (by unfold effectiveLevel; split <;> rfl), fun level hl => ⟨?_, ?_⟩⟩
  · rintro (h | h)
    · exact ok0 level (by unfold effectiveLevel; rw [if_pos (isEmpty_iff.2 h)])
    · by_cases he : b.isEmpty = true
      · exact ok0 level (by unfold effectiveLevel; rw [if_pos he])
      · have hl' : effectiveLevel b level = min 31 level := by unfold effectiveLevel; rw [if_neg he]
        have : ∀ ms : List (Mat F32), (∀ m ∈ ms, 0 < m.rows * m.cols ∧ m.rows * m.cols < 2 ^ 31) →
            ∃ body, serSubbands e (min 31 level) ms = .ok body := by
          intro ms
          induction ms with
          | nil => exact fun _ => ⟨_, rfl⟩
          | cons m ms ih =>
            intro hms
            obtain ⟨body, hbody⟩ := ih (fun k hk => hms k (by simp [hk]))
            obtain ⟨vs, hv, _⟩ := compress_ok hw (m := m) (prec := 33 - min 31 level) (hms m (by simp)).1
              (hms m (by simp)).2 (by omega) (by omega)
            refine ⟨serArchived ⟨(entries m).length, m.rows, m.cols, e.svbEnc ((entries m).map Prod.fst), vs⟩ ++ body, ?_⟩
            rw [serSubbands, hbody]
            unfold serSubband
            rw [if_neg (by omega), hv]
            rfl
        obtain ⟨body, hbody⟩ := this b.decs.flatten (by
          intro m hm
          obtain ⟨c, hc, hmc⟩ := List.mem_flatten.1 hm
          exact ⟨h c hc m hmc, hsz c hc m hmc⟩)
        exact ⟨_, serialize_eq hb hf.2.2.1 old level (by rw [hl']; exact hbody)⟩
  · intro h
    rw [not_or] at h
    have he : ¬ b.isEmpty = true := fun he => h.1 (isEmpty_iff.1 he)
    have hl' : effectiveLevel b level = min 31 level := by unfold effectiveLevel; rw [if_neg he]
    have hc : ctorWith b.params b.decs = .ok b :=
      (ctorWith_ok_iff (by have := hf.2.2.1; unfold RepresentableType; omega) _ _).2 ⟨hb.1, hb.2.1, hb.2.2, rfl⟩
    have ht : serSubbands e (min 31 level) b.decs.flatten = .throw := by
      apply serSubbands_some_empty hw (by omega) (by omega)
      · intro m hm
        obtain ⟨c, hcd, hmc⟩ := List.mem_flatten.1 hm
        exact hsz c hcd m hmc
      · by_contra hne
        apply h.2
        intro c hcd m hmc
        by_contra h0
        exact hne ⟨m, List.mem_flatten.2 ⟨c, hcd, hmc⟩, by omega⟩
    unfold serialize
    rw [hc, Outcome.bind_ok]
    simp only [hl', ht]

/-- The hypotheses under which a blob of any level is written: always at level 0, without empty subbands above. -/
def Writable (e : Ext) (trunc : ℕ → F32 → F32) (b : Buffer F32) (level : ℕ) : Prop :=
  level = 0 ∨ (CodecsWork e trunc ∧ Compressible b)

theorem writable_core {e : Ext} {trunc : ℕ → F32 → F32} {M level : ℕ} {b : Buffer F32} {blob old : Bytes}
    (hb : WellFormed b) (hf : FitsFormat b) (hM : Room e M) (hm : FitsMemory b M) (hw : Writable e trunc b level)
    (hs : serialize e b old level = .ok (true, blob)) (hl : blob.length ≤ M) :
    ∃ l body d', blob = blob3 b.params l body ∧
      Reads false (rdLayout (rdSubband e l.toNat) (emptyBuffer b.params).decs) body d' := by
  have key : ∃ body d', (∀ old, serialize e b old level =
        .ok (true, blob3 b.params (UInt8.ofNat (effectiveLevel b level)) body)) ∧
      (body.length ≤ M → Reads false (rdLayout (rdSubband e (UInt8.ofNat (effectiveLevel b level)).toNat)
        (emptyBuffer b.params).decs) body d') := by
    by_cases h0 : level = 0
    · subst h0
      have h0 : effectiveLevel b 0 = 0 := by unfold effectiveLevel; split <;> rfl
      obtain ⟨body, d', h1, _, h3⟩ := serialize_core (e := e) (M := M) (level := 0) (R := Eq) hb hf
        (by rw [h0]; exact plain_through hf hM hm)
      exact ⟨body, d', h1, h3⟩
    · obtain ⟨hc1, hc2⟩ := hw.resolve_left h0
      obtain ⟨body, d', h1, _, h3⟩ := serialize_core (e := e) (M := M) (level := level) hb hf
        (compressed_through hc1 hM hm hc2 (by omega))
      exact ⟨body, d', h1, h3⟩
  obtain ⟨body, d', h1, h3⟩ := key
  rw [h1 old] at hs
  simp only [Outcome.ok.injEq, Prod.mk.injEq, true_and] at hs
  refine ⟨_, body, d', hs.symm, h3 ?_⟩
  rw [← hs] at hl
  simp only [blob3, List.length_append] at hl
  omega

/-- C32. Bytes after the end of a serialised buffer do not change what `Parse` returns. -/
theorem C32_trailing_bytes_ignored (e : Ext) (trunc : ℕ → F32 → F32) (M level : ℕ) (b : Buffer F32)
    (blob old extra : Bytes) (hb : WellFormed b) (hf : FitsFormat b) (hM : Room e M) (hm : FitsMemory b M)
    (hw : Writable e trunc b level) (hs : serialize e b old level = .ok (true, blob)) (hl : blob.length ≤ M) :
    parse e (blob ++ extra) = parse e blob ∧ ∃ b', parse e blob = .ok (some b') := by
  obtain ⟨l, body, d', rfl, hr⟩ := writable_core hb hf hM hm hw hs hl
  have hlen : 30 + 8 * b.params.shape.length + body.length ≤ M := by
    simp only [blob3, List.length_append, length_startBytes, List.length_singleton] at hl
    omega
  have h := fun t => parse_blob3_full (t := t) hb.1 hf.1 hf.2.1 hf.2.2.1 (hM _ _ (by omega)) (hM _ _ hm.1) hr
  have h0 := h []
  rw [List.append_nil] at h0
  exact ⟨by rw [h extra, h0], _, h0⟩

/-- C31, the part that holds: a blob cut anywhere after its header (version, parameters, level: `30 + 8 * dimension` bytes)
is rejected. Missing: cuts inside the header, see `C31_cut_header_undefined`. -/
theorem C31_cut_body_rejected_partial (e : Ext) (trunc : ℕ → F32 → F32) (M level n : ℕ) (b : Buffer F32)
    (blob old : Bytes) (hb : WellFormed b) (hf : FitsFormat b) (hM : Room e M) (hm : FitsMemory b M)
    (hw : Writable e trunc b level) (hs : serialize e b old level = .ok (true, blob)) (hl : blob.length ≤ M)
    (h1 : 30 + 8 * b.params.shape.length ≤ n) (h2 : n < blob.length) :
    parse e (blob.take n) = .ok none := by
  obtain ⟨l, body, d', rfl, hr⟩ := writable_core hb hf hM hm hw hs hl
  have hlen : (blob3 b.params l body).length = 30 + 8 * b.params.shape.length + body.length := by
    simp only [blob3, List.length_append, length_startBytes, List.length_singleton]
    omega
  have htake : (blob3 b.params l body).take n = blob3 b.params l (body.take (n - (30 + 8 * b.params.shape.length))) := by
    unfold blob3
    rw [List.take_append, List.take_append, List.take_of_length_le (by rw [length_startBytes]; omega),
      length_startBytes, List.take_of_length_le (by simp; omega)]
    simp only [List.length_singleton]
    rw [show n - (29 + 8 * b.params.shape.length) - 1 = n - (30 + 8 * b.params.shape.length) by omega]
  rw [htake]
  refine parse_blob3_cut_body hb.1 hf.1 hf.2.1 hf.2.2.1 (hM _ _ (by omega)) (hM _ _ hm.1) hr
    (List.take_append_drop (n - (30 + 8 * b.params.shape.length)) body).symm ?_
  intro h
  have := List.drop_eq_nil_iff.1 h
  omega

/-- C31 is false for cuts inside the header: the fields that are missing are used uninitialised, so the behaviour is
undefined for every buffer and every such cut. (If only the level byte is missing and the buffer has no channels, the
level is never used and the buffer is returned.) -/
theorem C31_cut_header_undefined (e : Ext) (trunc : ℕ → F32 → F32) (M level n : ℕ) (b : Buffer F32)
    (blob old : Bytes) (hb : WellFormed b) (hf : FitsFormat b) (hM : Room e M) (hm : FitsMemory b M)
    (hw : Writable e trunc b level) (hs : serialize e b old level = .ok (true, blob)) (hl : blob.length ≤ M)
    (h1 : n < 30 + 8 * b.params.shape.length) :
    parse e (blob.take n) =
      if n = 29 + 8 * b.params.shape.length ∧ b.params.signalNumber = 0 then .ok (some b) else .ub := by
  obtain ⟨l, body, d', rfl, hr⟩ := writable_core hb hf hM hm hw hs hl
  have hlen : (blob3 b.params l body).length = 30 + 8 * b.params.shape.length + body.length := by
    simp only [blob3, List.length_append, length_startBytes, List.length_singleton]
    omega
  have htake : (blob3 b.params l body).take n = (startBytes 3 b.params).take n := by
    unfold blob3
    rw [List.take_append_of_le_length (by rw [length_startBytes]; omega)]
  rw [htake]
  by_cases hn : n = 29 + 8 * b.params.shape.length
  · rw [List.take_of_length_le (by rw [length_startBytes]; omega)]
    by_cases hz : b.params.signalNumber = 0
    · rw [if_pos ⟨hn, hz⟩, parse_start_zero hb.1 hf.1 hf.2.1 hf.2.2.1 (hM _ _ (by omega)) (hM _ _ hm.1) hz]
      have : b.decs = [] := List.length_eq_zero_iff.1 (by rw [hb.2.1, hz])
      rw [← this]
    · rw [if_neg (fun h => hz h.2)]
      exact parse_start_pos hb.1 hf.1 hf.2.1 hf.2.2.1 (hM _ _ (by omega)) (hM _ _ hm.1) (by omega)
  · rw [if_neg (fun h => hn h.1)]
    refine parse_cut_start hb.1 hf.1 hf.2.1 hf.2.2.1 (hM _ _ (by omega))
      (List.take_append_drop n (startBytes 3 b.params)).symm ?_
    intro h
    have := List.drop_eq_nil_iff.1 h
    rw [length_startBytes] at this
    omega

/-- C33, the part that holds: if the first byte that is not white space is neither 2 nor 3, `Parse` returns null; in
particular for every first byte other than 2, 3 and white space. Missing: blobs starting with white space, see
`C33_white_space_accepted`. -/
theorem C33_other_versions_rejected_partial (e : Ext) (space rest : Bytes) (v : UInt8)
    (hsp : ∀ x ∈ space, x ∈ ([9, 10, 11, 12, 13, 32] : Bytes)) (hv : v ∉ ([9, 10, 11, 12, 13, 32] : Bytes))
    (h2 : v ≠ 2) (h3 : v ≠ 3) : parse e (space ++ v :: rest) = .ok none := by
  have hiff : ∀ x : UInt8, isSpace x = true ↔ x ∈ ([9, 10, 11, 12, 13, 32] : Bytes) := by
    intro x
    have := x.toNat_lt
    simp only [isSpace, Bool.or_eq_true, beq_iff_eq, Bool.and_eq_true, decide_eq_true_eq, List.mem_cons,
      List.not_mem_nil, or_false, ← UInt8.toNat_inj]
    have h9 : (9 : UInt8).toNat = 9 := rfl
    have h10 : (10 : UInt8).toNat = 10 := rfl
    have h11 : (11 : UInt8).toNat = 11 := rfl
    have h12 : (12 : UInt8).toNat = 12 := rfl
    have h13 : (13 : UInt8).toNat = 13 := rfl
    have h32 : (32 : UInt8).toNat = 32 := rfl
    omega
  have hd : (space ++ v :: rest).dropWhile isSpace = v :: rest := by
    rw [List.dropWhile_append_of_pos (fun x hx => (hiff x).2 (hsp x hx)),
      List.dropWhile_cons_of_neg (fun h => hv ((hiff v).1 h))]
  unfold parse
  rw [hd]
  simp only
  rw [if_neg h3, if_neg h2]

/-- C33 is false as stated: replace the version byte of a version-2 uncompressed image buffer by a blank and the blob is
still parsed (the blank is skipped, the next byte, the dimension 2, is taken for the version). -/
theorem C33_white_space_accepted (e : Ext) (M : ℕ) (b : Buffer F32) (hb : WellFormed b) (hf : FitsFormat b)
    (hM : Room e M) (hm : FitsMemory b M) (h2 : 2 ≤ M) (hd : b.params.shape.length = 2) :
    parse e (32 :: (encodeV2 b).tail) = .ok (some b) := by
  have h := parseV2_encode hb hf hM hm h2 32 []
  rw [List.append_nil] at h
  have hs : 32 :: (encodeV2 b).tail =
      [32] ++ encodeParams b.params ++ [0] ++ archiveVector 24 (archiveVector 40 archiveMatrix) b.decs := by
    simp [encodeV2]
  rw [hs]
  have h2' : ∃ w, encodeParams b.params = 2 :: w := by
    unfold encodeParams
    rw [hd]
    exact ⟨_, rfl⟩
  obtain ⟨w, hw⟩ := h2'
  unfold parse
  rw [hw] at h ⊢
  simp only [List.nil_append, List.cons_append] at h ⊢
  rw [List.dropWhile_cons_of_pos (by decide), List.dropWhile_cons_of_neg (by decide)]
  simp only
  rw [if_neg (by decide), if_pos trivial]
  exact h

/-- C34. The sparse form of a non-empty matrix of fewer than 2^31 values: strictly increasing positions, the nonzero values
in row-major order (so as many as there are nonzeros), and converting back restores the matrix up to the sign of zero. -/
theorem C34_sparse_round_trip (e : Ext) (m : Mat F32) (h0 : 0 < m.rows * m.cols) (h1 : m.rows * m.cols < 2 ^ 31)
    (ha : e.alloc m.rows m.cols = .ok ()) :
    ∃ indexes values m', toCSR m = .ok (indexes, values) ∧
      indexes.Pairwise (· < ·) ∧ (∀ x ∈ indexes, x < m.rows * m.cols) ∧
      values = m.data.filter (fun x => !isZeroPattern x) ∧ indexes.length = values.length ∧
      fromCSR e m.rows m.cols indexes values = .ok m' ∧ MappedNonzeros id m m' := by
  obtain ⟨m', h2, h3⟩ := fromCSR_ok (e := e) id h0 ha
  rw [List.map_id] at h2
  refine ⟨_, _, m', toCSR_ok h0 h1, entries_sorted m, ?_, entries_values m, by simp, h2, h3⟩
  intro x hx
  obtain ⟨y, hy, rfl⟩ := List.mem_map.1 hx
  exact entries_lt hy

/-- C51. A buffer in the version-2 format without compression is parsed to that buffer (whatever follows it). -/
theorem C51_version2_uncompressed (e : Ext) (M : ℕ) (b : Buffer F32) (extra : Bytes) (hb : WellFormed b)
    (hf : FitsFormat b) (hM : Room e M) (hm : FitsMemory b M) (h2 : 2 ≤ M) :
    parse e (encodeV2 b ++ extra) = .ok (some b) := by
  have h := parseV2_encode hb hf hM hm h2 2 extra
  have : encodeV2 b ++ extra = 2 :: (encodeParams b.params ++ [0] ++
      archiveVector 24 (archiveVector 40 archiveMatrix) b.decs ++ extra) := by
    simp [encodeV2]
  rw [this, parse_two]
  simpa using h

/-- The start of `tests/fixtures/signal_1d_0cl_v2.bin`: 10000 samples, one channel, 10 steps, DB2. -/
example : [2] ++ encodeParams ⟨[10000], 1, 10, 2⟩ ++ [0] =
    ([0x02, 0x01, 0, 0, 0, 0, 0, 0, 0, 0x10, 0x27, 0, 0, 0, 0, 0, 0, 0x01, 0, 0, 0, 0, 0, 0, 0,
      0x0a, 0, 0, 0, 0, 0, 0, 0, 0x02, 0, 0, 0, 0] : Bytes) := by decide

/-- C59. Whatever the input, a buffer returned by `Parse` has parameters that the constructor accepts, and they are the ones
encoded behind the version byte. If the version is 3, or the level is not 0, it also has exactly the layout of these
parameters. Missing: the layout for version 2 without compression, see `C59_version2_layout_unchecked`. -/
theorem C59_parsed_parameters_valid_partial (e : Ext) (blob : Bytes) (b : Buffer F32)
    (h : parse e blob = .ok (some b)) :
    ValidParams b.params ∧
    ∃ v level rest, (blob = [v] ++ encodeParams b.params ++ level ++ rest ∧ level.length ≤ 1) ∧
      (v = 3 ∨ level ≠ [0] → WellFormed b) := by
  have hstart : ∀ {v : UInt8} {w : Bytes}, blob = startBytes v b.params ++ w →
      blob = [v] ++ encodeParams b.params ++ w.take 1 ++ w.drop 1 ∧ (w.take 1).length ≤ 1 := by
    intro v w hw
    refine ⟨?_, by simp⟩
    rw [List.append_assoc _ (w.take 1), List.take_append_drop, encodeParams_eq]
    exact hw
  unfold parse at h
  split at h
  · cases h
  · rename_i v0 tl hdw
    split at h
    · obtain ⟨hw, w, hr⟩ := parseV3_some h
      obtain ⟨v, hv⟩ := rdStart_eq_ok hr
      exact ⟨hw.1, v, w.take 1, w.drop 1, hstart hv, fun _ => hw⟩
    · split at h
      · rename_i hv3 hv2
        obtain ⟨hvp, ⟨w, hr⟩, hor⟩ := parseV2_some h
        obtain ⟨v, hv⟩ := rdStart_eq_ok hr
        refine ⟨hvp, v, w.take 1, w.drop 1, hstart hv, ?_⟩
        rcases hor with hwf | ⟨w', hh⟩
        · exact fun _ => hwf
        · have hlev : w.take 1 = [0] := by
            rw [rdHeader_eq, hr, Outcome.bind_ok] at hh
            obtain ⟨sf, t, h1, h2⟩ := rdBind_eq_ok hh
            obtain ⟨_, _, h3, h4⟩ := rdBind_eq_ok h2
            obtain ⟨h5, _⟩ := rdPure_eq_ok h4
            simp only [Prod.mk.injEq] at h5
            rw [h5.2] at h1
            cases w with
            | nil => cases h1
            | cons x w =>
              simp only [rdLevel, Outcome.ok.injEq, Prod.mk.injEq, Option.some.injEq] at h1
              have : x = 0 := UInt8.toNat_inj.1 (by simpa using h1.1)
              simp [this]
          rintro (rfl | hne)
          · rw [hv] at hdw
            simp only [startBytes, List.singleton_append, List.cons_append] at hdw
            rw [List.dropWhile_cons_of_neg (by decide)] at hdw
            exact absurd (List.cons.inj hdw).1.symm hv3
          · exact absurd hlev hne
      · cases h

/-- C59 is false for version 2 without compression: the subbands are taken as they come, whatever layout the parameters
prescribe. -/
theorem C59_version2_layout_unchecked (e : Ext) (M : ℕ) (p : Params) (d : List (List (Mat F32))) (hv : ValidParams p)
    (hs : ∀ n ∈ p.shape, n < 2 ^ 64) (hn : p.signalNumber < 2 ^ 64) (hw : p.wtype < 8) (hM : Room e M) (h2 : 2 ≤ M)
    (hp : p.signalNumber * subbandCount p ≤ M) (hM64 : M < 2 ^ 64) (hd : d.length ≤ M)
    (hc : ∀ c ∈ d, c.length ≤ M ∧ ∀ m ∈ c, m.rows * m.cols ≤ M ∧ m.rows < 2 ^ 64 ∧ m.cols < 2 ^ 64) :
    parse e ([2] ++ encodeParams p ++ [0] ++ archiveVector 24 (archiveVector 40 archiveMatrix) d) =
      .ok (some ⟨p, d⟩) := by
  have hdim : p.shape.length ≤ 2 := by rcases hv.1 with h | h <;> omega
  have hr : Reads false (rdDecs e) (archiveVector 24 (archiveVector 40 archiveMatrix) d) d := by
    refine reads_archiveVector (es := 24) ?_ (by omega) (hM _ _ (by omega))
    intro c hcd
    refine reads_archiveVector (es := 40) ?_ (by have := (hc c hcd).1; omega)
      (hM _ _ (by have := (hc c hcd).1; omega))
    intro m hm
    have := (hc c hcd).2 m hm
    rw [archiveMatrix_eq]
    exact reads_mat this.2.1 this.2.2 (hM _ _ this.1)
  have hs2 : [2] ++ encodeParams p ++ [0] ++ archiveVector 24 (archiveVector 40 archiveMatrix) d =
      2 :: (serParams p ++ ([0] ++ (archiveVector 24 (archiveVector 40 archiveMatrix) d ++ []))) := by
    simp [encodeParams_eq]
  rw [hs2, parse_two]
  have hs3 : 2 :: (serParams p ++ ([0] ++ (archiveVector 24 (archiveVector 40 archiveMatrix) d ++ []))) =
      startBytes 2 p ++ ([0] ++ (archiveVector 24 (archiveVector 40 archiveMatrix) d ++ [])) := by simp [startBytes]
  rw [hs3]
  unfold parseV2
  simp only [Rd.bind]
  rw [rdHeader_full hv hs hn hw (hM _ _ (by omega)) (hM _ _ hp), Outcome.bind_ok]
  simp only [useLevel]
  rw [if_neg (by decide)]
  unfold Rd.bind
  rw [hr.full]
  rfl

/-! ### The hypotheses can be met -/

/-- Libraries that work: memory without limit, integers as four bytes each, floats cut to `precision` leading bits. -/
def exExt : Ext where
  alloc _ _ := .ok ()
  svbEnc xs := xs.flatMap (le 4)
  svbDec bs n := rdMany (rdChecked 4) n bs >>= fun x => .ok x.1
  fpzEnc prec vs := .ok ((vs.map fun v => (v.toNat >>> (32 - prec)) <<< (32 - prec)).flatMap (le 4))
  fpzDec bs n := rdMany (rdChecked 4) n bs >>= fun x => .ok (x.1.map (BitVec.ofNat 32))
  otherMat _ _ _ _ _ := .throw
  otherBytes _ _ _ _ := .throw
  otherChannel _ _ _ _ := .throw
  otherDecs _ _ _ _ := .throw
  legacySubband _ _ _ := .throw

/-- The truncation of `exExt`. -/
def exTrunc (prec : ℕ) (v : F32) : F32 := BitVec.ofNat 32 ((v.toNat >>> (32 - prec)) <<< (32 - prec))

theorem length_flatMap_le4 (xs : List ℕ) : (xs.flatMap (le 4)).length = 4 * xs.length := by
  induction xs with
  | nil => rfl
  | cons x xs ih => simp only [List.flatMap_cons, List.length_append, length_le, ih, List.length_cons]; omega

theorem dec_le4 {xs : List ℕ} (h : ∀ x ∈ xs, x < 2 ^ 32) :
    rdMany (rdChecked 4) xs.length (xs.flatMap (le 4)) = .ok (xs, []) := by
  have := (reads_many (r := rdChecked 4) (enc := le 4) (xs := xs)
    (fun x hx => reads_checked (by have := h x hx; norm_num at this ⊢; omega))).full []
  rwa [List.append_nil] at this

theorem exExt_works : CodecsWork exExt exTrunc where
  integers xs h hl := by
    refine ⟨?_, ?_⟩
    · show (xs.flatMap (le 4)).length < _
      rw [length_flatMap_le4]; omega
    · show (rdMany (rdChecked 4) xs.length (xs.flatMap (le 4)) >>= _) = _
      rw [dec_le4 h]; rfl
  floats prec vs h2 h32 hl := by
    refine ⟨_, rfl, ?_, ?_⟩
    · rw [length_flatMap_le4, List.length_map]; omega
    · show (rdMany (rdChecked 4) vs.length _ >>= _) = _
      have hlt : ∀ x ∈ vs.map (fun v : F32 => (v.toNat >>> (32 - prec)) <<< (32 - prec)), x < 2 ^ 32 := by
        intro x hx
        obtain ⟨v, _, rfl⟩ := List.mem_map.1 hx
        have hv := v.isLt
        rw [Nat.shiftRight_eq_div_pow, Nat.shiftLeft_eq]
        exact lt_of_le_of_lt (Nat.div_mul_le_self _ _) hv
      have := dec_le4 hlt
      rw [List.length_map] at this
      rw [this, Outcome.bind_ok, List.map_map]
      rfl
  lossless x := by simp [exTrunc]

/-- A 4-sample signal with one Haar step: details (1.5, -0), approximation (2, 3). -/
def exSignal : Buffer F32 :=
  ⟨⟨[4], 1, 1, 1⟩, [[Mat.ofCol [0x3fc00000#32, 0x80000000#32], Mat.ofCol [0x40000000#32, 0x40400000#32]]]⟩

theorem exSignal_ok : WellFormed exSignal ∧ FitsFormat exSignal ∧ Compressible exSignal ∧
    FitsMemory exSignal 1000 ∧ Room exExt 1000 := by
  refine ⟨⟨?_, rfl, ?_⟩, ?_, ?_, ?_, fun _ _ _ => rfl⟩
  · simp [ValidParams, exSignal]
  · simp [exSignal, subbandCount, detailsPerStep]
  · simp [FitsFormat, exSignal]
  · simp [Compressible, exSignal]
  · simp [FitsMemory, exSignal, subbandCount, detailsPerStep]

/-- The example is serialised with and without compression into blobs of less than 1000 bytes. -/
example : ∃ blob, serialize exExt exSignal [7] 0 = .ok (true, blob) ∧ blob.length ≤ 1000 ∧ Writable exExt exTrunc exSignal 5
    ∧ ∃ blob', serialize exExt exSignal [] 5 = .ok (true, blob') ∧ blob'.length ≤ 1000 :=
  ⟨_, rfl, by decide +kernel, .inr ⟨exExt_works, exSignal_ok.2.2.1⟩, _, rfl, by decide +kernel⟩

/-- A never-decomposed image buffer also meets the hypotheses of the uncompressed round trip. -/
example : ∃ b : Buffer F32, ctor ⟨[640, 480], 3, 4, 3⟩ = .ok b ∧ WellFormed b ∧ FitsFormat b ∧ FitsMemory b 1000 := by
  have hv : ValidParams ⟨[640, 480], 3, 4, 3⟩ := by simp [ValidParams]
  have hr : RepresentableType ⟨[640, 480], 3, 4, 3⟩ := by simp [RepresentableType]
  refine ⟨_, ctor_ok_of_valid hv hr, (ctor_wf (ctor_ok_of_valid hv hr)).1, ?_, ?_⟩
  · refine ⟨by simp [emptyBuffer], by simp [emptyBuffer], by simp [emptyBuffer], ?_⟩
    intro c hc m hm
    simp only [emptyBuffer, List.mem_replicate] at hc
    rw [hc.2, List.mem_replicate] at hm
    rw [hm.2]; simp [Mat.empty]
  · refine ⟨by simp [emptyBuffer, subbandCount, detailsPerStep], ?_⟩
    intro c hc m hm
    simp only [emptyBuffer, List.mem_replicate] at hc
    rw [hc.2, List.mem_replicate] at hm
    rw [hm.2]; simp [Mat.empty]

/-- Some subbands empty, some not: serialisation with compression fails and leaves the output alone. -/
example : let b : Buffer F32 := ⟨⟨[4], 1, 1, 1⟩, [[Mat.empty, Mat.ofCol [0x40000000#32]]]⟩
    WellFormed b ∧ FitsFormat b ∧ serialize exExt b [42] 3 = .ok (false, [42]) := by
  refine ⟨⟨?_, rfl, ?_⟩, ?_, by decide +kernel⟩
  · simp [ValidParams]
  · simp [subbandCount, detailsPerStep]
  · simp [FitsFormat, Mat.empty]

/-- A sparse matrix for C34: 2×3 with three nonzeros, one of them a NaN, and a negative zero. -/
example : let m : Mat F32 := ⟨2, 3, [0#32, 0x3f800000#32, 0x80000000#32, 0x7fc00001#32, 0#32, 0x40000000#32], rfl⟩
    0 < m.rows * m.cols ∧ m.rows * m.cols < 2 ^ 31 ∧
    toCSR m = .ok ([1, 3, 5], [0x3f800000#32, 0x7fc00001#32, 0x40000000#32]) := by
  refine ⟨by decide, by norm_num, by decide⟩

/-- A version-2 blob for one channel that carries none: the returned buffer does not have the layout of its parameters. -/
example : ∃ b : Buffer F32, parse exExt ([2] ++ encodeParams ⟨[4], 1, 1, 1⟩ ++ [0] ++
    archiveVector 24 (archiveVector 40 archiveMatrix) []) = .ok (some b) ∧ ¬ WellFormed b := by
  refine ⟨_, C59_version2_layout_unchecked exExt 1000 ⟨[4], 1, 1, 1⟩ [] (by simp [ValidParams]) (by simp) (by simp)
    (by simp) (fun _ _ _ => rfl) (by norm_num) (by simp [subbandCount, detailsPerStep]) (by norm_num) (by simp)
    (by simp), ?_⟩
  intro h
  have := h.2.1
  simp at this

end WB.Props
