import Verif.Proof.Blob

/-!
Helper lemmas: what a successful parse says about the result; the version-2 uncompressed format.
-/

namespace WB

open WB.Spec

/-! ### Inversion -/

theorem bind_eq_ok {β γ : Type} {x : Outcome β} {f : β → Outcome γ} {y : γ} (h : (x >>= f) = .ok y) :
    ∃ a, x = .ok a ∧ f a = .ok y := by
  cases x with
  | ok a => exact ⟨a, rfl, h⟩
  | throw => exact absurd h (by intro h; cases h)
  | ub => exact absurd h (by intro h; cases h)

theorem rdBind_eq_ok {β γ : Type} {r : Rd β} {f : β → Rd γ} {s : Bytes} {y : γ × Bytes} (h : Rd.bind r f s = .ok y) :
    ∃ a t, r s = .ok (a, t) ∧ f a t = .ok y := by
  obtain ⟨⟨a, t⟩, h1, h2⟩ := bind_eq_ok h
  exact ⟨a, t, h1, h2⟩

theorem rdLift_eq_ok {β : Type} {o : Outcome β} {s : Bytes} {y : β × Bytes} (h : Rd.lift o s = .ok y) :
    o = .ok y.1 ∧ s = y.2 := by
  obtain ⟨a, h1, h2⟩ := bind_eq_ok h
  cases h2
  exact ⟨h1, rfl⟩

theorem rdPure_eq_ok {β : Type} {x : β} {s : Bytes} {y : β × Bytes} (h : Rd.pure x s = .ok y) : x = y.1 ∧ s = y.2 := by
  cases h; exact ⟨rfl, rfl⟩

theorem rdMany_length {β : Type} {r : Rd β} : ∀ {n : ℕ} {s : Bytes} {xs : List β} {t : Bytes},
    rdMany r n s = .ok (xs, t) → xs.length = n
  | 0, s, xs, t, h => by cases h; rfl
  | n + 1, s, xs, t, h => by
    obtain ⟨a, t1, _, h2⟩ := rdBind_eq_ok h
    obtain ⟨b, t2, h3, h4⟩ := rdBind_eq_ok h2
    obtain ⟨rfl, _⟩ := rdPure_eq_ok h4
    simp [rdMany_length h3]

theorem rdLayout_lengths {r : Rd (Mat F32)} : ∀ {L : Decs F32} {s : Bytes} {d : Decs F32} {t : Bytes},
    rdLayout r L s = .ok (d, t) → d.map List.length = L.map List.length
  | [], s, d, t, h => by cases h; rfl
  | c :: L, s, d, t, h => by
    obtain ⟨a, t1, h1, h2⟩ := rdBind_eq_ok h
    obtain ⟨b, t2, h3, h4⟩ := rdBind_eq_ok h2
    obtain ⟨rfl, _⟩ := rdPure_eq_ok h4
    simp [rdMany_length h1, rdLayout_lengths h3]

theorem rdLegacyChannel_length {e : Ext} {p : Params} : ∀ {n i : ℕ} {s : Bytes} {xs : List (Mat F32)} {t : Bytes},
    rdLegacyChannel e p i n s = .ok (some xs, t) → xs.length = n
  | 0, i, s, xs, t, h => by cases h; rfl
  | n + 1, i, s, xs, t, h => by
    obtain ⟨a, t1, _, h2⟩ := rdBind_eq_ok h
    cases a with
    | none => cases h2
    | some m =>
      obtain ⟨b, t2, h3, h4⟩ := rdBind_eq_ok h2
      obtain ⟨h5, _⟩ := rdPure_eq_ok h4
      cases b with
      | none => cases h5
      | some ys =>
        simp only [Option.map_some, Option.some.injEq] at h5
        rw [← h5]
        simp [rdLegacyChannel_length h3]

theorem rdLegacyDecs_lengths {e : Ext} {p : Params} : ∀ {L : Decs F32} {s : Bytes} {d : Decs F32} {t : Bytes},
    rdLegacyDecs e p L s = .ok (some d, t) → d.map List.length = L.map List.length
  | [], s, d, t, h => by cases h; rfl
  | c :: L, s, d, t, h => by
    obtain ⟨a, t1, h1, h2⟩ := rdBind_eq_ok h
    cases a with
    | none => cases h2
    | some m =>
      obtain ⟨b, t2, h3, h4⟩ := rdBind_eq_ok h2
      obtain ⟨h5, _⟩ := rdPure_eq_ok h4
      cases b with
      | none => cases h5
      | some ys =>
        simp only [Option.map_some, Option.some.injEq] at h5
        rw [← h5]
        simp [rdLegacyChannel_length h1, rdLegacyDecs_lengths h3]

theorem newBuffer_eq_ok {e : Ext} {p : Params} {b : Buffer F32} (h : newBuffer e p = .ok b) :
    ValidParams p ∧ b = emptyBuffer p := by
  obtain ⟨a, h1, h2⟩ := bind_eq_ok h
  obtain ⟨hv, _, ha⟩ := ctor_valid_of_ok h1
  obtain ⟨_, _, h3⟩ := bind_eq_ok h2
  cases h3
  exact ⟨hv, ha⟩

theorem rdHeader_eq_ok {e : Ext} {s t : Bytes} {b : Buffer F32} {l : Option ℕ} (h : rdHeader e s = .ok ((b, l), t)) :
    ValidParams b.params ∧ b = emptyBuffer b.params ∧ ∃ w, rdStart e s = .ok (b.params, w) := by
  rw [rdHeader_eq] at h
  obtain ⟨⟨p, w⟩, h1, h2⟩ := bind_eq_ok h
  obtain ⟨sf, _, _, h3⟩ := rdBind_eq_ok h2
  obtain ⟨b', _, h4, h5⟩ := rdBind_eq_ok h3
  obtain ⟨h6, _⟩ := rdLift_eq_ok h4
  obtain ⟨h7, _⟩ := rdPure_eq_ok h5
  simp only [Prod.mk.injEq] at h7
  obtain ⟨rfl, rfl⟩ := h7
  obtain ⟨hv, hb⟩ := newBuffer_eq_ok h6
  rw [show b' = emptyBuffer p from hb]
  exact ⟨hv, rfl, w, h1⟩

theorem caught_eq_some {β : Type} {o : Outcome (Option β × Bytes)} {x : β} (h : caught o = .ok (some x)) :
    ∃ t, o = .ok (some x, t) := by
  unfold caught at h
  split at h
  · cases h; exact ⟨_, rfl⟩
  · cases h
  · cases h

theorem wellFormed_of_lengths {p : Params} (hv : ValidParams p) {d : Decs F32}
    (h : d.map List.length = (emptyBuffer (α := F32) p).decs.map List.length) : WellFormed (⟨p, d⟩ : Buffer F32) := by
  have h2 : d.map List.length = List.replicate p.signalNumber (subbandCount p) := by
    rw [h]; simp [emptyBuffer]
  refine ⟨hv, ?_, ?_⟩
  · simpa using congrArg List.length h2
  · intro c hc
    have : c.length ∈ d.map List.length := List.mem_map.2 ⟨c, hc, rfl⟩
    rw [h2] at this
    exact (List.mem_replicate.1 this).2

theorem parseV3_some {e : Ext} {s : Bytes} {b : Buffer F32} (h : parseV3 e s = .ok (some b)) :
    WellFormed b ∧ ∃ w, rdStart e s = .ok (b.params, w) := by
  obtain ⟨t, h⟩ := caught_eq_some h
  obtain ⟨⟨b0, l⟩, t1, h1, h2⟩ := rdBind_eq_ok h
  obtain ⟨d, t2, h3, h4⟩ := rdBind_eq_ok h2
  obtain ⟨h5, _⟩ := rdPure_eq_ok h4
  cases h5
  obtain ⟨hv, hb, hw⟩ := rdHeader_eq_ok h1
  refine ⟨wellFormed_of_lengths (p := b0.params) hv ?_, hw⟩
  rw [← hb]
  exact rdLayout_lengths h3

theorem parseV2_some {e : Ext} {s : Bytes} {b : Buffer F32} (h : parseV2 e s = .ok (some b)) :
    ValidParams b.params ∧ (∃ w, rdStart e s = .ok (b.params, w)) ∧
      (WellFormed b ∨ ∃ w, rdHeader e s = .ok ((emptyBuffer b.params, some 0), w)) := by
  obtain ⟨t, h⟩ := caught_eq_some h
  obtain ⟨⟨b0, l⟩, t1, h1, h2⟩ := rdBind_eq_ok h
  obtain ⟨hv, hb, hw⟩ := rdHeader_eq_ok h1
  cases l with
  | none => cases h2
  | some l =>
    simp only [useLevel] at h2
    by_cases hl : l = 0
    · subst hl
      rw [if_neg (by simp)] at h2
      obtain ⟨d, t2, h3, h4⟩ := rdBind_eq_ok h2
      obtain ⟨h5, _⟩ := rdPure_eq_ok h4
      cases h5
      refine ⟨hv, hw, .inr ⟨t1, ?_⟩⟩
      rw [h1, ← hb]
    · rw [if_pos hl] at h2
      obtain ⟨d, t2, h3, h4⟩ := rdBind_eq_ok h2
      obtain ⟨h5, _⟩ := rdPure_eq_ok h4
      cases d with
      | none => cases h5
      | some d =>
        cases h5
        refine ⟨hv, hw, .inl (wellFormed_of_lengths (p := b0.params) hv ?_)⟩
        rw [← hb]
        exact rdLegacyDecs_lengths h3

theorem le_fromLE : ∀ l : Bytes, le l.length (fromLE l) = l
  | [] => rfl
  | x :: l => by
    rw [List.length_cons, le_succ, fromLE]
    have h1 : (x.toNat + 256 * fromLE l) / 256 = fromLE l := by
      have := x.toNat_lt
      omega
    have h2 : UInt8.ofNat (x.toNat + 256 * fromLE l) = x := by
      apply UInt8.toNat_inj.1
      simp only [UInt8.toNat_ofNat']
      have := x.toNat_lt
      omega
    rw [h1, h2, le_fromLE l]

theorem rdField_eq_ok {n x : ℕ} {s t : Bytes} (h : rdField n s = .ok (x, t)) : s = le n x ++ t := by
  unfold rdField at h
  split at h
  · cases h
  · rename_i hl
    cases h
    have : (s.take n).length = n := by simp; omega
    have h2 := le_fromLE (s.take n)
    rw [this] at h2
    rw [h2, List.take_append_drop]

theorem rdMany_field_eq_ok : ∀ {k n : ℕ} {s t : Bytes} {xs : List ℕ}, rdMany (rdField n) k s = .ok (xs, t) →
    s = xs.flatMap (le n) ++ t
  | 0, n, s, t, xs, h => by cases h; rfl
  | k + 1, n, s, t, xs, h => by
    obtain ⟨a, t1, h1, h2⟩ := rdBind_eq_ok h
    obtain ⟨b, t2, h3, h4⟩ := rdBind_eq_ok h2
    obtain ⟨rfl, rfl⟩ := rdPure_eq_ok h4
    rw [rdField_eq_ok h1, rdMany_field_eq_ok h3]
    simp

theorem rdStart_eq_ok {e : Ext} {s w : Bytes} {p : Params} (h : rdStart e s = .ok (p, w)) :
    ∃ v, s = startBytes v p ++ w := by
  obtain ⟨v, t0, h0, g0⟩ := rdBind_eq_ok h
  obtain ⟨dim, t1, h1, g1⟩ := rdBind_eq_ok g0
  obtain ⟨_, t2, h2, g2⟩ := rdBind_eq_ok g1
  obtain ⟨_, h2'⟩ := rdLift_eq_ok h2
  simp only at h2'
  subst h2'
  obtain ⟨shape, t3, h3, g3⟩ := rdBind_eq_ok g2
  obtain ⟨ch, t4, h4, g4⟩ := rdBind_eq_ok g3
  obtain ⟨st, t5, h5, g5⟩ := rdBind_eq_ok g4
  obtain ⟨ty, t6, h6, g6⟩ := rdBind_eq_ok g5
  have hlen := rdMany_length h3
  by_cases ht : 8 ≤ ty
  · rw [if_pos ht] at g6; cases g6
  · rw [if_neg ht] at g6
    obtain ⟨rfl, rfl⟩ := rdPure_eq_ok g6
    refine ⟨UInt8.ofNat v, ?_⟩
    rw [rdField_eq_ok h0, rdField_eq_ok h1, rdMany_field_eq_ok h3, rdField_eq_ok h4, rdField_eq_ok h5,
      rdField_eq_ok h6]
    simp [startBytes, serParams, hlen, le]

/-! ### Version 2 without compression -/

theorem littleEndian_eq : ∀ n x, littleEndian n x = le n x
  | 0, _ => rfl
  | n + 1, x => by rw [littleEndian, littleEndian_eq n, le_succ]

theorem archiveMatrix_eq (m : Mat F32) : archiveMatrix m = serMat m := by
  unfold archiveMatrix serMat
  simp only [littleEndian_eq, List.flatMap_def]

theorem encodeParams_eq (p : Params) : encodeParams p = serParams p := by
  unfold encodeParams serParams
  simp only [littleEndian_eq, List.flatMap_def]
  rw [show littleEndian 8 = le 8 from funext (littleEndian_eq 8)]

theorem reads_archiveVector {β : Type} {e : Ext} {es : UInt8} {r : Rd β} {other} {enc : β → Bytes} {xs : List β}
    (h : ∀ x ∈ xs, Reads false r (enc x) x) (hl : xs.length < 2 ^ 64) (ha : e.alloc 1 xs.length = .ok ()) :
    Reads false (rdVector e 0 es.toNat r other) (archiveVector es enc xs) xs := by
  have := reads_vector (e := e) (et := 0) (es := es) (r := r) (other := other) (enc := enc) h hl ha
  refine this.of_eq rfl ?_ rfl
  simp [archiveVector, littleEndian_eq, List.flatMap_def]

theorem reads_decs {e : Ext} {M : ℕ} {b : Buffer F32} (hb : WellFormed b) (hf : FitsFormat b) (hM : Room e M)
    (hm : FitsMemory b M) :
    Reads false (rdDecs e) (archiveVector 24 (archiveVector 40 archiveMatrix) b.decs) b.decs := by
  have hst := steps_lt hb.1 hf.1
  have hcount : subbandCount b.params < 2 ^ 64 := by
    obtain ⟨hd, _, hst'⟩ := hb.1
    have h63 : b.params.steps < 64 := by
      by_cases hw : b.params.wtype = 0
      · rw [if_pos hw] at hst'; omega
      · rw [if_neg hw] at hst'
        obtain ⟨n, hn⟩ : ∃ n, n ∈ b.params.shape := by
          rcases hp : b.params.shape with _ | ⟨n, l⟩
          · simp [hp] at hd
          · exact ⟨n, by simp⟩
        have h1 := hst' n hn
        have h2 := hf.1 n hn
        have h3 : 2 ^ b.params.steps ≤ 2 ^ b.params.steps * (2 * b.params.wtype - 1) :=
          Nat.le_mul_of_pos_right _ (by omega)
        have h4 : 2 ^ b.params.steps < 2 ^ 64 := by omega
        exact (Nat.pow_lt_pow_iff_right (a := 2) (by norm_num)).1 h4
    unfold subbandCount detailsPerStep
    split <;> · norm_num; omega
  have hpos : 0 < subbandCount b.params := by unfold subbandCount; omega
  refine reads_archiveVector (es := 24) ?_ ?_ ?_
  · intro c hc
    refine reads_archiveVector (es := 40) ?_ ?_ ?_
    · intro m hmc
      rw [archiveMatrix_eq]
      exact reads_mat (hf.2.2.2 c hc m hmc).1 (hf.2.2.2 c hc m hmc).2 (hM _ _ (hm.2 c hc m hmc))
    · rw [hb.2.2 c hc]; exact hcount
    · have hn : 0 < b.decs.length := List.length_pos_of_mem hc
      rw [hb.2.1] at hn
      refine hM _ _ ?_
      rw [hb.2.2 c hc, Nat.one_mul]
      exact (Nat.le_mul_of_pos_left _ hn).trans hm.1
  · rw [hb.2.1]; exact hf.2.1
  · refine hM _ _ ?_
    rw [hb.2.1, Nat.one_mul]
    exact (Nat.le_mul_of_pos_right _ hpos).trans hm.1

theorem parseV2_encode {e : Ext} {M : ℕ} {b : Buffer F32} (hb : WellFormed b) (hf : FitsFormat b) (hM : Room e M)
    (hm : FitsMemory b M) (h2 : 2 ≤ M) (v : UInt8) (t : Bytes) :
    parseV2 e ([v] ++ encodeParams b.params ++ [0] ++ archiveVector 24 (archiveVector 40 archiveMatrix) b.decs ++ t) =
      .ok (some b) := by
  have hd : b.params.shape.length ≤ 2 := by rcases hb.1.1 with h | h <;> omega
  have hs : [v] ++ encodeParams b.params ++ [0] ++ archiveVector 24 (archiveVector 40 archiveMatrix) b.decs ++ t =
      startBytes v b.params ++ ([0] ++ (archiveVector 24 (archiveVector 40 archiveMatrix) b.decs ++ t)) := by
    simp [startBytes, encodeParams_eq]
  rw [hs]
  unfold parseV2
  simp only [Rd.bind]
  rw [rdHeader_full hb.1 hf.1 hf.2.1 hf.2.2.1 (hM _ _ (by omega)) (hM _ _ hm.1), Outcome.bind_ok]
  simp only [useLevel]
  rw [if_neg (by decide)]
  unfold Rd.bind
  rw [(reads_decs hb hf hM hm).full]
  rfl

end WB
