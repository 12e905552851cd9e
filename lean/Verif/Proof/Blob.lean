import Verif.Proof.Serialize

/-!
Helper lemmas for whole blobs: header, list of subbands, `parse` of `serialize`.
-/

namespace WB

open WB.Spec

/-! ### Subbands -/

/-- A subband written with level `sf` is read back as some `m'` related to it, if memory for its bytes can be had. -/
def GoesThrough (e : Ext) (M sf : ℕ) (R : Mat F32 → Mat F32 → Prop) (m : Mat F32) : Prop :=
  ∃ bytes m', serSubband e sf m = .ok bytes ∧ R m m' ∧ (bytes.length ≤ M → Reads false (rdSubband e sf) bytes m')

theorem goesThrough_plain {e : Ext} {M : ℕ} {m : Mat F32} (hr : m.rows < 2 ^ 64) (hc : m.cols < 2 ^ 64)
    (ha : e.alloc m.rows m.cols = .ok ()) : GoesThrough e M 0 Eq m :=
  ⟨serMat m, m, by simp [serSubband], rfl, fun _ => by simpa [rdSubband] using reads_mat hr hc ha⟩

theorem compress_ok {e : Ext} {trunc : ℕ → F32 → F32} (hw : CodecsWork e trunc) {m : Mat F32} {prec : ℕ}
    (h0 : 0 < m.rows * m.cols) (h1 : m.rows * m.cols < 2 ^ 31) (hp : 2 ≤ prec) (hp' : prec ≤ 32) :
    ∃ vs, compress e m prec = .ok ⟨(entries m).length, m.rows, m.cols, e.svbEnc ((entries m).map Prod.fst), vs⟩ ∧
      vs.length < 2 ^ 64 ∧
      e.fpzDec vs (entries m).length = .ok (((entries m).map Prod.snd).map (trunc prec)) := by
  have hlen := length_entries_le m
  obtain ⟨vs, hv1, hv2, hv3⟩ := hw.floats prec ((entries m).map Prod.snd) hp hp' (by simp; omega)
  refine ⟨vs, ?_, hv2, by simpa using hv3⟩
  unfold compress
  rw [toCSR_ok h0 h1, Outcome.bind_ok]
  simp only [List.length_map]
  rw [if_neg (by omega), hv1]
  rfl

theorem goesThrough_compressed {e : Ext} {trunc : ℕ → F32 → F32} (hw : CodecsWork e trunc) {M sf : ℕ} {m : Mat F32}
    (hM : Room e M) (h0 : 0 < m.rows * m.cols) (h1 : m.rows * m.cols < 2 ^ 31) (hm : m.rows * m.cols ≤ M)
    (hs : 1 ≤ sf) (hs' : sf ≤ 31) : GoesThrough e M sf (MappedNonzeros (trunc (33 - sf))) m := by
  obtain ⟨vs, hv1, hv2, hv3⟩ := compress_ok hw (prec := 33 - sf) h0 h1 (by omega) (by omega)
  obtain ⟨m', hm1, hm2⟩ := fromCSR_ok (trunc (33 - sf)) h0 (hM _ _ hm)
  have hlen := length_entries_le m
  obtain ⟨hi1, hi2⟩ := hw.integers ((entries m).map Prod.fst) (by
    intro x hx
    obtain ⟨y, hy, rfl⟩ := List.mem_map.1 hx
    have := entries_lt hy
    norm_num at h1 ⊢; omega) (by simp; omega)
  have hr : 0 < m.rows := Nat.pos_of_mul_pos_right h0
  have hc : 0 < m.cols := Nat.pos_of_mul_pos_left h0
  have hr2 : m.rows ≤ m.rows * m.cols := Nat.le_mul_of_pos_right _ hc
  have hc2 : m.cols ≤ m.rows * m.cols := Nat.le_mul_of_pos_left _ hr
  refine ⟨serArchived ⟨(entries m).length, m.rows, m.cols, e.svbEnc ((entries m).map Prod.fst), vs⟩, m', ?_, hm2, ?_⟩
  · unfold serSubband
    rw [if_neg (by omega), hv1, Outcome.bind_ok]
    rfl
  · intro hb
    simp only [serArchived, serBytes, List.length_append] at hb
    refine Reads.of_eq (s := le 8 (entries m).length ++ (le 8 m.rows ++ (le 8 m.cols ++
      (serBytes (e.svbEnc ((entries m).map Prod.fst)) ++ (serBytes vs ++ []))))) ?_ rfl
      (by simp [serArchived]) rfl
    unfold rdSubband
    rw [if_neg (by omega)]
    refine (reads_checked (by norm_num at h1 ⊢; omega)).bind ((reads_checked (by norm_num at h1 ⊢; omega)).bind
      ((reads_checked (by norm_num at h1 ⊢; omega)).bind ((reads_bytes hi1 (hM _ _ (by omega))).bind
      ((reads_bytes hv2 (hM _ _ (by omega))).bind (Reads.lift ?_)))))
    unfold decompress
    rw [hM _ _ (by simp only; omega), Outcome.bind_ok]
    rw [List.length_map] at hi2
    simp only
    rw [hi2, Outcome.bind_ok, hv3, Outcome.bind_ok, hm1]

theorem serSubbands_append (e : Ext) (sf : ℕ) (xs ys : List (Mat F32)) :
    serSubbands e sf (xs ++ ys) =
      (serSubbands e sf xs >>= fun a => serSubbands e sf ys >>= fun b => .ok (a ++ b)) := by
  induction xs with
  | nil =>
    simp only [List.nil_append, serSubbands, Outcome.bind_ok]
    cases serSubbands e sf ys <;> rfl
  | cons x xs ih =>
    simp only [List.cons_append, serSubbands, ih]
    cases serSubband e sf x with
    | throw => rfl
    | ub => rfl
    | ok a =>
      cases serSubbands e sf xs with
      | throw => rfl
      | ub => rfl
      | ok b =>
        cases serSubbands e sf ys with
        | throw => rfl
        | ub => rfl
        | ok c => simp [List.append_assoc]

theorem subbands_through {e : Ext} {M sf : ℕ} {R : Mat F32 → Mat F32 → Prop} : ∀ {ms : List (Mat F32)},
    (∀ m ∈ ms, GoesThrough e M sf R m) →
    ∃ body ms', serSubbands e sf ms = .ok body ∧ List.Forall₂ R ms ms' ∧
      (body.length ≤ M → Reads false (rdMany (rdSubband e sf) ms.length) body ms')
  | [], _ => ⟨[], [], rfl, .nil, fun _ => Reads.pure []⟩
  | m :: ms, h => by
    obtain ⟨x, m', hx1, hx2, hx3⟩ := h m (by simp)
    obtain ⟨y, ms', hy1, hy2, hy3⟩ := subbands_through (ms := ms) (fun k hk => h k (by simp [hk]))
    refine ⟨x ++ y, m' :: ms', ?_, .cons hx2 hy2, ?_⟩
    · rw [serSubbands, hx1, Outcome.bind_ok, hy1]; rfl
    · intro hl
      rw [List.length_append] at hl
      exact (hx3 (by omega)).bind ((hy3 (by omega)).bind_pure (f := fun xs => m' :: xs))

theorem decs_through {e : Ext} {M sf : ℕ} {R : Mat F32 → Mat F32 → Prop} : ∀ {d : Decs F32},
    (∀ c ∈ d, ∀ m ∈ c, GoesThrough e M sf R m) →
    ∃ body d', serSubbands e sf d.flatten = .ok body ∧ List.Forall₂ (List.Forall₂ R) d d' ∧
      ∀ L : Decs F32, L.map List.length = d.map List.length → body.length ≤ M →
        Reads false (rdLayout (rdSubband e sf) L) body d'
  | [], _ => ⟨[], [], rfl, .nil, fun L hL _ => by
      have : L = [] := by simpa using hL
      subst this; exact Reads.pure []⟩
  | c :: d, h => by
    obtain ⟨x, c', hx1, hx2, hx3⟩ := subbands_through (h c (by simp))
    obtain ⟨y, d', hy1, hy2, hy3⟩ := decs_through (d := d) (fun k hk => h k (by simp [hk]))
    refine ⟨x ++ y, c' :: d', ?_, .cons hx2 hy2, ?_⟩
    · rw [List.flatten_cons, serSubbands_append, hx1, Outcome.bind_ok, hy1]; rfl
    · intro L hL hl
      rw [List.length_append] at hl
      cases L with
      | nil => simp at hL
      | cons l L =>
        simp only [List.map_cons, List.cons.injEq] at hL
        have := hx3 (by omega)
        rw [← hL.1] at this
        exact this.bind ((hy3 L hL.2 (by omega)).bind_pure (f := fun xs => c' :: xs))

/-! ### Header -/

theorem steps_lt {p : Params} (hv : ValidParams p) (hs : ∀ n ∈ p.shape, n < 2 ^ 64) : p.steps < 2 ^ 64 := by
  obtain ⟨hd, _, hst⟩ := hv
  by_cases hw : p.wtype = 0
  · rw [if_pos hw] at hst; rw [hst]; norm_num
  · rw [if_neg hw] at hst
    obtain ⟨n, hn⟩ : ∃ n, n ∈ p.shape := by
      rcases hp : p.shape with _ | ⟨n, l⟩
      · simp [hp] at hd
      · exact ⟨n, by simp⟩
    have h1 := hst n hn
    have h2 := hs n hn
    have h3 : 2 ^ p.steps ≤ 2 ^ p.steps * (2 * p.wtype - 1) := Nat.le_mul_of_pos_right _ (by omega)
    have h4 : 2 ^ p.steps < 2 ^ 64 := by omega
    have := (Nat.pow_lt_pow_iff_right (a := 2) (by norm_num)).1 h4
    norm_num; omega

/-- Version byte and parameters. -/
def rdStart (e : Ext) : Rd Params := Rd.bind (rdField 1) fun _ => rdParams e

/-- The bytes of version and parameters. -/
def startBytes (v : UInt8) (p : Params) : Bytes := [v] ++ serParams p

theorem length_serParams (p : Params) : (serParams p).length = 28 + 8 * p.shape.length := by
  have : (p.shape.flatMap (le 8)).length = 8 * p.shape.length := by
    induction p.shape with
    | nil => rfl
    | cons x l ih => simp only [List.flatMap_cons, List.length_append, ih, length_le, List.length_cons]; omega
  simp only [serParams, List.length_append, length_le, this]; omega

theorem reads_start {e : Ext} {v : UInt8} {p : Params} (hv : ValidParams p) (hs : ∀ n ∈ p.shape, n < 2 ^ 64)
    (hn : p.signalNumber < 2 ^ 64) (hw : p.wtype < 8) (ha : e.alloc 1 p.shape.length = .ok ()) :
    Reads true (rdStart e) (startBytes v p) p := by
  have hst := steps_lt hv hs
  have hd : p.shape.length ≤ 2 := by rcases hv.1 with h | h <;> omega
  have hone : Reads true (rdField 1) [v] v.toNat := by
    have h : Reads true (rdField 1) (le 1 v.toNat) v.toNat :=
      reads_field (n := 1) (by have := v.toNat_lt; simpa using this)
    refine h.of_eq rfl ?_ rfl
    simp [le]
  refine Reads.of_eq (s := [v] ++ (le 8 p.shape.length ++ (p.shape.flatMap (le 8) ++ (le 8 p.signalNumber ++
    (le 8 p.steps ++ (le 4 p.wtype ++ [])))))) ?_ rfl (by simp [startBytes, serParams]) rfl
  refine hone.bind ((reads_field (by norm_num; omega)).bind (Reads.bind_lift ha ((reads_many (enc := le 8) ?_).bind
    ((reads_field (by norm_num at hn ⊢; omega)).bind ((reads_field (by norm_num at hst ⊢; omega)).bind
    ((reads_field (by norm_num; omega)).bind ?_))))))
  · intro x hx
    have := hs x hx
    exact reads_field (by norm_num at this ⊢; omega)
  · rw [if_neg (by omega)]
    exact Reads.pure _

theorem rdHeader_eq (e : Ext) (s : Bytes) : rdHeader e s =
    (rdStart e s >>= fun x => (Rd.bind rdLevel fun sf => Rd.bind (Rd.lift (newBuffer e x.1)) fun b =>
      Rd.pure (b, sf)) x.2) := by
  unfold rdHeader rdStart Rd.bind
  rw [bind_assoc]

theorem newBuffer_ok {e : Ext} {p : Params} (hv : ValidParams p) (hw : p.wtype < 8)
    (ha : e.alloc p.signalNumber (subbandCount p) = .ok ()) : newBuffer e p = .ok (emptyBuffer p) := by
  unfold newBuffer
  rw [ctor_ok_of_valid hv (by unfold RepresentableType; omega), Outcome.bind_ok]
  have : decompositionSize (emptyBuffer (α := F32) p).params = subbandCount p := rfl
  rw [this]
  show (e.alloc p.signalNumber (subbandCount p) >>= _) = _
  rw [ha]; rfl

section
variable {e : Ext} {v : UInt8} {p : Params} (hv : ValidParams p) (hs : ∀ n ∈ p.shape, n < 2 ^ 64)
  (hn : p.signalNumber < 2 ^ 64) (hw : p.wtype < 8) (ha : e.alloc 1 p.shape.length = .ok ())
  (hb : e.alloc p.signalNumber (subbandCount p) = .ok ())
include hv hs hn hw ha hb

theorem rdHeader_full (l : UInt8) (t : Bytes) :
    rdHeader e (startBytes v p ++ ([l] ++ t)) = .ok ((emptyBuffer p, some l.toNat), t) := by
  rw [rdHeader_eq, (reads_start hv hs hn hw ha).full, Outcome.bind_ok]
  simp only [Rd.bind, Rd.lift, rdLevel, List.singleton_append, Outcome.bind_ok]
  rw [newBuffer_ok hv hw hb]; rfl

theorem rdHeader_nolevel : rdHeader e (startBytes v p) = .ok ((emptyBuffer p, none), []) := by
  have := (reads_start (v := v) hv hs hn hw ha).full []
  rw [List.append_nil] at this
  rw [rdHeader_eq, this, Outcome.bind_ok]
  simp only [Rd.bind, Rd.lift, rdLevel, Outcome.bind_ok]
  rw [newBuffer_ok hv hw hb]; rfl

omit hb in
theorem rdHeader_cut {a b : Bytes} (h : startBytes v p = a ++ b) (hbn : b ≠ []) : rdHeader e a = .ub := by
  rw [rdHeader_eq, (reads_start (v := v) hv hs hn hw ha).cut a b h hbn]
  rfl

end

/-- A blob of the current version with level byte `l` and body `body`. -/
def blob3 (p : Params) (l : UInt8) (body : Bytes) : Bytes := startBytes 3 p ++ ([l] ++ body)

theorem parse_three (e : Ext) (s : Bytes) : parse e (3 :: s) = parseV3 e (3 :: s) := by
  unfold parse
  have : List.dropWhile isSpace (3 :: s) = 3 :: s := by
    rw [List.dropWhile_cons_of_neg (by decide)]
  rw [this]; rfl

theorem parse_two (e : Ext) (s : Bytes) : parse e (2 :: s) = parseV2 e (2 :: s) := by
  unfold parse
  have : List.dropWhile isSpace (2 :: s) = 2 :: s := by
    rw [List.dropWhile_cons_of_neg (by decide)]
  rw [this]; rfl

theorem serialize_eq {e : Ext} {b : Buffer F32} (hb : WellFormed b) (hw : b.params.wtype < 8) (old : Bytes) (level : ℕ)
    {body : Bytes} (hbody : serSubbands e (effectiveLevel b level) b.decs.flatten = .ok body) :
    serialize e b old level = .ok (true, blob3 b.params (UInt8.ofNat (effectiveLevel b level)) body) := by
  unfold serialize
  have hc : ctorWith b.params b.decs = .ok b :=
    (ctorWith_ok_iff (by unfold RepresentableType; omega) _ _).2 ⟨hb.1, hb.2.1, hb.2.2, rfl⟩
  rw [hc, Outcome.bind_ok]
  simp only [hbody]
  simp [blob3, startBytes]

theorem layout_lengths {b : Buffer F32} (hb : WellFormed b) :
    (emptyBuffer (α := F32) b.params).decs.map List.length = b.decs.map List.length := by
  have h2 : b.decs.map List.length = List.replicate b.params.signalNumber (subbandCount b.params) := by
    rw [List.eq_replicate_iff]
    refine ⟨by simp [hb.2.1], ?_⟩
    intro n hn
    obtain ⟨c, hc, rfl⟩ := List.mem_map.1 hn
    exact hb.2.2 c hc
  rw [h2]
  simp [emptyBuffer, decompositionSize_eq]

end WB

namespace WB

open WB.Spec

theorem effectiveLevel_le (b : Buffer F32) (level : ℕ) : effectiveLevel b level ≤ 31 := by
  unfold effectiveLevel; split <;> omega

theorem toNat_level (b : Buffer F32) (level : ℕ) :
    (UInt8.ofNat (effectiveLevel b level)).toNat = effectiveLevel b level := by
  have := effectiveLevel_le b level
  simp only [UInt8.toNat_ofNat']
  omega

theorem length_startBytes (v : UInt8) (p : Params) : (startBytes v p).length = 29 + 8 * p.shape.length := by
  simp only [startBytes, List.length_append, length_serParams, List.length_singleton]; omega

theorem blob3_append (p : Params) (l : UInt8) (body t : Bytes) : blob3 p l body ++ t = blob3 p l (body ++ t) := by
  simp [blob3]

theorem parse_blob3 (e : Ext) (p : Params) (l : UInt8) (body : Bytes) :
    parse e (blob3 p l body) = parseV3 e (blob3 p l body) := by
  unfold blob3 startBytes
  simp only [List.append_assoc, List.singleton_append]
  exact parse_three e _

theorem room_shape {e : Ext} {M : ℕ} {p : Params} (hM : Room e M) (h : p.shape.length ≤ M) :
    e.alloc 1 p.shape.length = .ok () := hM _ _ (by omega)

section
variable {e : Ext} {p : Params} (hv : ValidParams p) (hs : ∀ n ∈ p.shape, n < 2 ^ 64)
  (hn : p.signalNumber < 2 ^ 64) (hw : p.wtype < 8) (ha : e.alloc 1 p.shape.length = .ok ())
  (hb : e.alloc p.signalNumber (subbandCount p) = .ok ())
include hv hs hn hw ha hb

theorem parse_blob3_full {l : UInt8} {body t : Bytes} {d : Decs F32}
    (h : Reads false (rdLayout (rdSubband e l.toNat) (emptyBuffer p).decs) body d) :
    parse e (blob3 p l body ++ t) = .ok (some ⟨p, d⟩) := by
  rw [blob3_append, parse_blob3]
  unfold parseV3 blob3
  simp only [Rd.bind]
  rw [rdHeader_full hv hs hn hw ha hb, Outcome.bind_ok]
  simp only [useLevel]
  rw [h.full, Outcome.bind_ok]
  rfl

theorem parse_blob3_cut_body {l : UInt8} {body a c : Bytes} {d : Decs F32}
    (h : Reads false (rdLayout (rdSubband e l.toNat) (emptyBuffer p).decs) body d) (hac : body = a ++ c) (hc : c ≠ []) :
    parse e (blob3 p l a) = .ok none := by
  rw [parse_blob3]
  unfold parseV3 blob3
  simp only [Rd.bind]
  rw [rdHeader_full hv hs hn hw ha hb, Outcome.bind_ok]
  simp only [useLevel]
  rw [h.cut a c hac hc]
  rfl

theorem parse_start_pos (hpos : 0 < p.signalNumber) : parse e (startBytes 3 p) = .ub := by
  have h3 : parse e (startBytes 3 p) = parseV3 e (startBytes 3 p) := by
    unfold startBytes; exact parse_three e _
  rw [h3]
  unfold parseV3
  simp only [Rd.bind]
  rw [rdHeader_nolevel hv hs hn hw ha hb, Outcome.bind_ok]
  obtain ⟨k, hk⟩ : ∃ k, p.signalNumber = k + 1 := ⟨p.signalNumber - 1, by omega⟩
  have hd : (emptyBuffer (α := F32) p).decs =
      (List.replicate (subbandCount p) Mat.empty) :: List.replicate k (List.replicate (subbandCount p) Mat.empty) := by
    simp [emptyBuffer, hk, List.replicate_succ]
  simp only [hd, useLevel, rdLayout, List.length_replicate]
  unfold subbandCount rdMany Rd.bind
  rfl

theorem parse_start_zero (hz : p.signalNumber = 0) : parse e (startBytes 3 p) = .ok (some ⟨p, []⟩) := by
  have h3 : parse e (startBytes 3 p) = parseV3 e (startBytes 3 p) := by
    unfold startBytes; exact parse_three e _
  rw [h3]
  unfold parseV3
  simp only [Rd.bind]
  rw [rdHeader_nolevel hv hs hn hw ha hb, Outcome.bind_ok]
  have hd : (emptyBuffer (α := F32) p).decs = [] := by simp [emptyBuffer, hz]
  simp only [hd, rdLayout]
  rfl

omit hb in
theorem parse_cut_start {a c : Bytes} (h : startBytes 3 p = a ++ c) (hc : c ≠ []) : parse e a = .ub := by
  cases a with
  | nil => rfl
  | cons x a =>
    have hx : x = 3 := by
      unfold startBytes at h
      simp only [List.singleton_append, List.cons_append, List.cons.injEq] at h
      exact h.1.symm
    subst hx
    rw [parse_three]
    unfold parseV3
    simp only [Rd.bind]
    rw [rdHeader_cut hv hs hn hw ha h hc]
    rfl

end

/-- Serialising and what the bytes mean to `parse`. -/
theorem serialize_core {e : Ext} {M level : ℕ} {b : Buffer F32} {R : Mat F32 → Mat F32 → Prop} (hb : WellFormed b)
    (hf : FitsFormat b)
    (hsub : ∀ c ∈ b.decs, ∀ m ∈ c, GoesThrough e M (effectiveLevel b level) R m) :
    ∃ body d', (∀ old, serialize e b old level =
        .ok (true, blob3 b.params (UInt8.ofNat (effectiveLevel b level)) body)) ∧
      List.Forall₂ (List.Forall₂ R) b.decs d' ∧
      (body.length ≤ M → Reads false (rdLayout (rdSubband e (UInt8.ofNat (effectiveLevel b level)).toNat)
        (emptyBuffer b.params).decs) body d') := by
  obtain ⟨body, d', h1, h2, h3⟩ := decs_through hsub
  refine ⟨body, d', fun old => serialize_eq hb hf.2.2.1 old level h1, h2, fun h => ?_⟩
  rw [toNat_level]
  exact h3 _ (layout_lengths hb) h

theorem plain_through {e : Ext} {M : ℕ} {b : Buffer F32} (hf : FitsFormat b) (hM : Room e M) (hm : FitsMemory b M) :
    ∀ c ∈ b.decs, ∀ m ∈ c, GoesThrough e M 0 Eq m := fun c hc m hmc =>
  goesThrough_plain (hf.2.2.2 c hc m hmc).1 (hf.2.2.2 c hc m hmc).2 (hM _ _ (hm.2 c hc m hmc))

theorem forall₂_eq {β : Type} : ∀ {a b : List β}, List.Forall₂ Eq a b → b = a
  | _, _, .nil => rfl
  | _, _, .cons h t => by rw [h, forall₂_eq t]

theorem forall₂_forall₂_eq {β : Type} : ∀ {a b : List (List β)}, List.Forall₂ (List.Forall₂ Eq) a b → b = a
  | _, _, .nil => rfl
  | _, _, .cons h t => by rw [forall₂_eq h, forall₂_forall₂_eq t]

theorem isEmpty_iff {b : Buffer F32} : b.isEmpty = true ↔ ∀ c ∈ b.decs, ∀ m ∈ c, m.rows * m.cols = 0 := by
  unfold Buffer.isEmpty; simp [List.all_eq_true]

theorem compressed_through {e : Ext} {trunc : ℕ → F32 → F32} (hw : CodecsWork e trunc) {M level : ℕ} {b : Buffer F32}
    (hM : Room e M) (hm : FitsMemory b M) (hc : Compressible b) (hl : 1 ≤ level) :
    ∀ c ∈ b.decs, ∀ m ∈ c,
      GoesThrough e M (effectiveLevel b level) (MappedNonzeros (trunc (33 - min 31 level))) m := by
  intro c hcd m hmc
  have he : ¬ b.isEmpty = true := by
    rw [isEmpty_iff]
    intro h
    have h1 := h c hcd m hmc
    have h2 := (hc c hcd m hmc).1
    omega
  have : effectiveLevel b level = min 31 level := by unfold effectiveLevel; rw [if_neg he]
  rw [this]
  exact goesThrough_compressed hw hM (hc c hcd m hmc).1 (hc c hcd m hmc).2 (hm.2 c hcd m hmc) (by omega) (by omega)

end WB
