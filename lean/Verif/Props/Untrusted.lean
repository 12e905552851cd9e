import Verif.Proof.Untrusted
import Verif.Props.Serialize

/-!
Property C114: what `Parse` does with bytes that no `Serialize` wrote.
-/

namespace WB.Props

open WB WB.Spec

/-- **C114**, uncompressed blobs. Whatever follows a complete header with level 0, in both versions of the format and for
parameters that need not make sense, `Parse` returns: a buffer or a null pointer. -/
theorem C114_uncompressed_partial (e : Ext) (he : SafeLibrary e) (version : UInt8) (hv : version = 2 ∨ version = 3)
    (p : Params) (hp : FitsFields p) (hw : p.wtype < 8) (rest : Bytes) :
    ∃ r, parse e ([version] ++ encodeParams p ++ [0] ++ rest) = .ok r := by
  have hs : [version] ++ encodeParams p ++ [0] ++ rest = startBytes version p ++ ([0] ++ rest) := by
    simp [startBytes, encodeParams_eq]
  have hcons : startBytes version p ++ ([0] ++ rest) = version :: (serParams p ++ ([0] ++ rest)) := rfl
  rw [hs]
  have hh := header_of_fits he (v := version) (l := 0) hp hw rest
  rcases hv with rfl | rfl
  · rw [hcons, parse_two, ← hcons]
    refine caught_ok fun h => ?_
    rcases rdBind_eq_ub h with h | ⟨x, t, h1, h2⟩
    · rcases hh with hh | hh <;> rw [hh] at h <;> cases h
    · rcases hh with hh | hh <;> rw [hh] at h1 <;> cases h1
      refine (Harmless.bind (harmless_decs he) fun d => .pure (some (⟨p, d⟩ : Buffer F32))) rest ?_
      simpa [useLevel, emptyBuffer] using h2
  · rw [hcons, parse_three, ← hcons]
    refine caught_ok fun h => ?_
    rcases rdBind_eq_ub h with h | ⟨x, t, h1, h2⟩
    · rcases hh with hh | hh <;> rw [hh] at h <;> cases h
    · rcases hh with hh | hh <;> rw [hh] at h1 <;> cases h1
      exact (Harmless.bind ((harmless_mat he).layout _) fun _ => .pure _) _ h2

/-- **C114**, all blobs of the present version with a complete header. If `Parse` is undefined, the blob is compressed and
somewhere behind the header it holds a record for which the codecs are undefined or give numbers that do not fit. -/
theorem C114_only_causes_partial (e : Ext) (he : SafeLibrary e) (p : Params) (hp : FitsFields p) (hw : p.wtype < 8)
    (level : UInt8) (rest : Bytes) (h : parse e ([3] ++ encodeParams p ++ [level] ++ rest) = .ub) :
    level ≠ 0 ∧ ∃ stored rows cols is vs, stored < 2 ^ 64 ∧ rows < 2 ^ 64 ∧ cols < 2 ^ 64 ∧
      recordHead stored rows cols <:+: rest ∧ BadRecord e stored rows cols is vs := by
  have h0 : level ≠ 0 := by
    rintro rfl
    obtain ⟨r, hr⟩ := C114_uncompressed_partial e he 3 (.inr rfl) p hp hw rest
    rw [hr] at h
    cases h
  refine ⟨h0, ?_⟩
  have hl : level.toNat ≠ 0 := fun hc => h0 (UInt8.toNat_inj.1 hc)
  have hs : [3] ++ encodeParams p ++ [level] ++ rest = startBytes 3 p ++ ([level] ++ rest) := by
    simp [startBytes, encodeParams_eq]
  have hcons : startBytes 3 p ++ ([level] ++ rest) = 3 :: (serParams p ++ ([level] ++ rest)) := rfl
  rw [hs, hcons, parse_three, ← hcons] at h
  have hh := header_of_fits he (v := 3) (l := level) hp hw rest
  rcases rdBind_eq_ub (caught_eq_ub h) with h | ⟨x, t, h1, h2⟩
  · rcases hh with hh | hh <;> rw [hh] at h <;> cases h
  · rcases hh with hh | hh <;> rw [hh] at h1 <;> cases h1
    rcases rdBind_eq_ub h2 with h | ⟨_, _, _, h3⟩
    · obtain ⟨w, hw, h⟩ := rdLayout_eq_ub (leaves_record he hl) h
      obtain ⟨stored, rows, cols, is, vs, b1, b2, b3, hpre, hbad⟩ := record_eq_ub he hl h
      exact ⟨stored, rows, cols, is, vs, b1, b2, b3, hpre.isInfix.trans hw.isInfix, hbad⟩
    · cases h3

/-- **C114** is false of the code: a blob whose first compressed subband stores one value at a position outside the subband
makes `Parse` write outside the matrix (or, with no columns, divide by zero), although every length in it is right and
both codecs work. The sides in the record may be those of the subband or any others. -/
theorem C114_position_counterexample (e : Ext) (trunc : ℕ → F32 → F32) (hc : CodecsWork e trunc) (M : ℕ) (hM : Room e M)
    (p : Params) (hv : ValidParams p) (hp : FitsFields p) (hw : p.wtype < 8) (hn : 0 < p.signalNumber)
    (hfit : p.signalNumber * subbandCount p ≤ M) (h2 : 2 ≤ M) (level : UInt8) (hl : level ≠ 0) (rows cols position : ℕ)
    (hsize : rows * cols ≤ M) (hr : rows < 2 ^ 64) (hcl : cols < 2 ^ 64)
    (hout : rows * cols ≤ position) (h32 : position < 2 ^ 32) (precision : ℕ) (hp2 : 2 ≤ precision) (hp32 : precision ≤ 32)
    (x : F32) (values : Bytes) (hvals : e.fpzEnc precision [x] = .ok values)
    (hlens : (e.svbEnc [position]).length ≤ M ∧ values.length ≤ M) (rest : Bytes) :
    parse e ([3] ++ encodeParams p ++ [level] ++ (recordHead 1 rows cols ++ archiveBytes (e.svbEnc [position]) ++
      archiveBytes values) ++ rest) = .ub := by
  have hd : p.shape.length ≤ 2 := by rcases hv.1 with h | h <;> omega
  obtain ⟨hib, hid⟩ := hc.integers [position] (by simpa using h32) (by simp)
  obtain ⟨bs, hb1, hb2, hb3⟩ := hc.floats precision [x] hp2 hp32 (by simp)
  obtain rfl : bs = values := by rw [hb1] at hvals; cases hvals; rfl
  have hl0 : level.toNat ≠ 0 := fun h => hl (UInt8.toNat_inj.1 h)
  have hs : [3] ++ encodeParams p ++ [level] ++ (recordHead 1 rows cols ++ archiveBytes (e.svbEnc [position]) ++
      archiveBytes bs) ++ rest = startBytes 3 p ++ ([level] ++ (le 8 1 ++ (le 8 rows ++ (le 8 cols ++
        (serBytes (e.svbEnc [position]) ++ (serBytes bs ++ rest)))))) := by
    simp [startBytes, encodeParams_eq, recordHead, littleEndian_eq, archiveBytes_eq]
  have hcons : ∀ w, startBytes 3 p ++ w = 3 :: (serParams p ++ w) := fun _ => rfl
  rw [hs, hcons, parse_three, ← hcons]
  unfold parseV3
  have hh := rdHeader_full (e := e) (v := 3) hv hp.sides hp.channels hw (hM _ _ (by omega)) (hM _ _ hfit) level
  have hsub : ∀ t, rdSubband e level.toNat (le 8 1 ++ (le 8 rows ++ (le 8 cols ++
        (serBytes (e.svbEnc [position]) ++ (serBytes bs ++ t))))) = .ub := by
    intro t
    unfold rdSubband
    rw [if_neg hl0]
    show (rdChecked 8 _ >>= _) = _
    rw [(reads_checked (by norm_num)).full, Outcome.bind_ok]
    show (rdChecked 8 _ >>= _) = _
    rw [(reads_checked (fits256 hr)).full, Outcome.bind_ok]
    show (rdChecked 8 _ >>= _) = _
    rw [(reads_checked (fits256 hcl)).full, Outcome.bind_ok]
    show (rdBytes e _ >>= _) = _
    rw [(reads_bytes hib (hM _ _ (by omega))).full, Outcome.bind_ok]
    show (rdBytes e _ >>= _) = _
    rw [(reads_bytes hb2 (hM _ _ (by omega))).full, Outcome.bind_ok]
    have hdec : decompress e ⟨1, rows, cols, e.svbEnc [position], bs⟩ = .ub := by
      unfold decompress
      dsimp only
      rw [hM _ _ (by omega), Outcome.bind_ok]
      have h1 : e.svbDec (e.svbEnc [position]) 1 = .ok [position] := hid
      have h2 : e.fpzDec bs 1 = .ok [trunc precision x] := hb3
      rw [h1, Outcome.bind_ok, h2, Outcome.bind_ok]
      unfold fromCSR
      rw [hM _ _ hsize, Outcome.bind_ok]
      show (putEntry _ _ >>= _) = _
      have : putEntry (Mat.ofFn rows cols fun _ _ => (0 : F32)) (position, trunc precision x) = .ub := by
        unfold putEntry
        by_cases h0 : cols = 0
        · exact if_pos h0
        · rw [if_neg (show ¬ (Mat.ofFn rows cols fun _ _ => (0 : F32)).cols = 0 from h0)]
          exact if_pos ((Nat.le_div_iff_mul_le (by omega)).2 hout)
      rw [this]; rfl
    show (decompress e ⟨1, rows, cols, e.svbEnc [position], bs⟩ >>= _) = _
    rw [hdec]; rfl
  have hpos : 0 < subbandCount p := by unfold subbandCount; positivity
  obtain ⟨c, L, hdecs, hclen⟩ : ∃ c L, (emptyBuffer (α := F32) p).decs = c :: L ∧ 0 < c.length := by
    obtain ⟨n, hn⟩ := Nat.exists_eq_succ_of_ne_zero (Nat.pos_iff_ne_zero.1 hn)
    exact ⟨_, _, by simp only [emptyBuffer, hn, Nat.succ_eq_add_one, List.replicate_succ]; rfl, by simpa using hpos⟩
  obtain ⟨k, hk⟩ := Nat.exists_eq_succ_of_ne_zero (Nat.pos_iff_ne_zero.1 hclen)
  have hub : Rd.bind (rdHeader e) (fun h => Rd.bind (rdLayout (useLevel h.2 (rdSubband e)) h.1.decs) fun d =>
      Rd.pure (some { h.1 with decs := d })) (startBytes 3 p ++ ([level] ++ (le 8 1 ++ (le 8 rows ++ (le 8 cols ++
        (serBytes (e.svbEnc [position]) ++ (serBytes bs ++ rest))))))) = .ub := by
    show (rdHeader e _ >>= _) = _
    rw [hh, Outcome.bind_ok]
    show (rdLayout (rdSubband e level.toNat) (emptyBuffer p).decs _ >>= _) = _
    rw [hdecs]
    show ((rdMany (rdSubband e level.toNat) c.length _ >>= _) >>= _) = _
    rw [hk]
    show (((rdSubband e level.toNat _ >>= _) >>= _) >>= _) = _
    rw [hsub]; rfl
  rw [hub]; rfl

/-- **C114** is false of the code already in the header: a wavelet number that the enum does not have. -/
theorem C114_wavelet_counterexample (e : Ext) (p : Params) (hp : FitsFields p) (hw : 8 ≤ p.wtype)
    (ha : e.alloc 1 p.shape.length = .ok ()) (rest : Bytes) : parse e ([3] ++ encodeParams p ++ rest) = .ub := by
  have hs : [3] ++ encodeParams p ++ rest = startBytes 3 p ++ rest := by
    simp [startBytes, encodeParams_eq]
  have hcons : startBytes 3 p ++ rest = 3 :: (serParams p ++ rest) := rfl
  rw [hs, hcons, parse_three, ← hcons]
  unfold parseV3
  have : rdHeader e (startBytes 3 p ++ rest) = .ub := by
    rw [rdHeader_eq, start_of_fits hp, ha, Outcome.bind_ok, if_pos hw]; rfl
  show caught (rdHeader e _ >>= _) = _
  rw [this]; rfl

/-- **C114** is false of the code for the shortest inputs: nothing, or nothing but white space. -/
theorem C114_blank_counterexample (e : Ext) (blob : Bytes) (h : ∀ b ∈ blob, b = 9 ∨ b = 10 ∨ b = 11 ∨ b = 12 ∨ b = 13 ∨ b = 32) :
    parse e blob = .ub := by
  apply parse_blank
  intro b hb
  rcases h b hb with rfl | rfl | rfl | rfl | rfl | rfl <;> decide

/-! ### The hypotheses are met -/

theorem exExt_safe : SafeLibrary exExt where
  alloc _ _ h := by cases h
  mat _ _ _ _ _ h := by cases h
  bytes _ _ _ _ h := by cases h
  bytesRest _ _ _ _ _ _ h := by cases h
  channel _ _ _ _ h := by cases h
  channels _ _ _ _ h := by cases h

/-- One channel of eight samples, one Haar step. -/
def exUntrusted : Params := ⟨[8], 1, 1, 1⟩

theorem exUntrusted_fits : FitsFields exUntrusted := ⟨by decide, by decide, by decide, by decide, by decide⟩

/-- A compressed blob whose first subband has four values and a value stored at position 4: the parameters are valid, the
codecs and the memory are there, the blob meets the hypotheses of the counterexample and so those of
`C114_only_causes_partial`, and level 0 with the same rest is defined. -/
example : ∃ rest : Bytes, parse exExt ([3] ++ encodeParams exUntrusted ++ [1] ++ rest) = .ub ∧
    (∃ stored rows cols is vs, stored < 2 ^ 64 ∧ rows < 2 ^ 64 ∧ cols < 2 ^ 64 ∧
      recordHead stored rows cols <:+: rest ∧ BadRecord exExt stored rows cols is vs) ∧
    ∃ r, parse exExt ([3] ++ encodeParams exUntrusted ++ [0] ++ rest) = .ok r := by
  refine ⟨recordHead 1 4 1 ++ archiveBytes (exExt.svbEnc [4]) ++ archiveBytes ([0x3f800000].flatMap (le 4)) ++ [], ?_⟩
  have h := C114_position_counterexample exExt exTrunc exExt_works 1000 (fun _ _ _ => rfl) exUntrusted
    (by unfold ValidParams exUntrusted; decide) exUntrusted_fits (by decide) (by decide) (by decide) (by decide) 1 (by decide) 4 1 4 (by decide)
    (by decide) (by decide) (by decide) (by decide) 32 (by decide) (by decide) 0x3f800000#32 _ rfl
    ⟨by decide, by decide⟩ []
  rw [List.append_assoc _ _ ([] : Bytes)] at h
  refine ⟨h, ?_, C114_uncompressed_partial exExt exExt_safe 3 (.inr rfl) exUntrusted exUntrusted_fits (by decide) _⟩
  exact (C114_only_causes_partial exExt exExt_safe exUntrusted exUntrusted_fits (by decide) 1 _ h).2

/-- Parameters with wavelet number 8. -/
example : ∃ p : Params, FitsFields p ∧ 8 ≤ p.wtype ∧ exExt.alloc 1 p.shape.length = .ok () :=
  ⟨⟨[8], 1, 1, 8⟩, ⟨by decide, by decide, by decide, by decide, by decide⟩, by decide, rfl⟩

/-- A blank and a line break. -/
example : ∀ b ∈ ([32, 10] : Bytes), b = 9 ∨ b = 10 ∨ b = 11 ∨ b = 12 ∨ b = 13 ∨ b = 32 := by decide

end WB.Props
