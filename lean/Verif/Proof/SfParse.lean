import Verif.Proof.Parse
import Verif.Model.SfCompressor
import Verif.Spec.SfParse

/-! Helper lemmas: version-2 blobs with compressed subbands. -/

namespace WB

open WB.Spec

theorem littleEndian_eq_le (n x : ℕ) : littleEndian n x = le n x := by
  induction n generalizing x with
  | zero => rfl
  | succ n ih => rw [littleEndian, le_succ, ih]

theorem archiveBytes_eq (v : Bytes) : archiveBytes v = serBytes v := by
  unfold archiveBytes serBytes
  simp only [littleEndian_eq_le]

theorem rdBytes_archive {e : Ext} {v : Bytes} (hl : v.length < 2 ^ 64) (ha : e.alloc 1 v.length = .ok ()) (t : Bytes) :
    rdBytes e (archiveBytes v ++ t) = .ok (v, t) := by
  rw [archiveBytes_eq]
  exact (reads_bytes hl ha).full t

theorem rdLegacySubband_archive {e : Ext} {p : Params} {s : ℕ} {v : Bytes} (hl : v.length < 2 ^ 64) (ha : e.alloc 1 v.length = .ok ())
    (t : Bytes) : rdLegacySubband e p s (archiveBytes v ++ t) = (e.legacySubband p s v >>= fun x => .ok (x, t)) := by
  unfold rdLegacySubband Rd.bind
  rw [rdBytes_archive hl ha]
  rfl

/-- A whole channel. -/
theorem rdLegacyChannel_archive {e : Ext} {p : Params} {P : Mat F32 → Mat F32 → Prop} : ∀ (ms : List (Mat F32)) (bs : List Bytes) (s : ℕ),
    bs.length = ms.length →
    (∀ k m b, ms[k]? = some m → bs[k]? = some b →
      b.length < 2 ^ 64 ∧ e.alloc 1 b.length = .ok () ∧ ∃ m', e.legacySubband p (s + k) b = .ok (some m') ∧ P m m') →
    ∃ ms', (∀ t, rdLegacyChannel e p s ms.length ((bs.map archiveBytes).flatten ++ t) = .ok (some ms', t)) ∧ List.Forall₂ P ms ms'
  | [], [], s, _, _ => ⟨[], fun _ => rfl, .nil⟩
  | m :: ms, b :: bs, s, hlen, h => by
    obtain ⟨h1, h2, m', h3, h4⟩ := h 0 m b rfl rfl
    obtain ⟨ms', h5, h6⟩ := rdLegacyChannel_archive ms bs (s + 1) (by simpa using hlen) (by
      intro k m2 b2 hm hb
      have := h (k + 1) m2 b2 (by simpa using hm) (by simpa using hb)
      rwa [show s + (k + 1) = s + 1 + k by omega] at this)
    refine ⟨m' :: ms', ?_, .cons h4 h6⟩
    intro t
    rw [List.map_cons, List.flatten_cons, List.append_assoc, List.length_cons]
    unfold rdLegacyChannel Rd.bind
    rw [rdLegacySubband_archive h1 h2, show s = s + 0 from rfl, h3, Outcome.bind_ok, Outcome.bind_ok]
    show (rdLegacyChannel e p (s + 1) ms.length ((bs.map archiveBytes).flatten ++ t) >>= _) = _
    rw [h5]
    rfl

/-- All channels. -/
theorem rdLegacyDecs_archive {e : Ext} {p : Params} {P : Mat F32 → Mat F32 → Prop} : ∀ (d d0 : Decs F32) (streams : List (List Bytes)),
    d0.map List.length = d.map List.length → streams.length = d.length →
    (∀ (n : ℕ) (c : List (Mat F32)) (bs : List Bytes), d[n]? = some c → streams[n]? = some bs → bs.length = c.length ∧ ∀ k m b, c[k]? = some m → bs[k]? = some b →
      b.length < 2 ^ 64 ∧ e.alloc 1 b.length = .ok () ∧ ∃ m', e.legacySubband p k b = .ok (some m') ∧ P m m') →
    ∃ d', (∀ t, rdLegacyDecs e p d0 ((streams.map fun c => (c.map archiveBytes).flatten).flatten ++ t) = .ok (some d', t)) ∧
      List.Forall₂ (List.Forall₂ P) d d'
  | [], [], [], _, _, _ => ⟨[], fun _ => rfl, .nil⟩
  | c :: d, c0 :: d0, bs :: streams, hl, hlen, h => by
    rw [List.map_cons, List.map_cons, List.cons.injEq] at hl
    obtain ⟨h1, h2⟩ := h 0 c bs rfl rfl
    obtain ⟨c', h3, h4⟩ := rdLegacyChannel_archive (e := e) (p := p) (P := P) c bs 0 h1 (by
      intro k m b hm hb
      have := h2 k m b hm hb
      rwa [Nat.zero_add])
    obtain ⟨d', h5, h6⟩ := rdLegacyDecs_archive (e := e) (p := p) (P := P) d d0 streams hl.2 (by simpa using hlen)
      (fun n c bs hc hbs => h (n + 1) c bs (by simpa using hc) (by simpa using hbs))
    refine ⟨c' :: d', ?_, .cons h4 h6⟩
    intro t
    rw [List.map_cons, List.flatten_cons, List.append_assoc]
    unfold rdLegacyDecs Rd.bind
    rw [hl.1, h3, Outcome.bind_ok]
    show (rdLegacyDecs e p d0 _ >>= _) = _
    rw [h5]
    rfl
  | [], _ :: _, _, hl, _, _ => by simp at hl
  | _ :: _, [], _, hl, _, _ => by simp at hl
  | [], [], _ :: _, _, hlen, _ => by simp at hlen
  | _ :: _, _ :: _, [], _, hlen, _ => by simp at hlen

theorem parse_streams_head {e : Ext} {M : ℕ} {p : Params} (hv : ValidParams p) (hs : ∀ n ∈ p.shape, n < 2 ^ 64) (hn : p.signalNumber < 2 ^ 64)
    (hw : p.wtype < 8) (hM : Room e M) (hm : p.signalNumber * subbandCount p ≤ M) (h2 : 2 ≤ M) (level : UInt8) (h0 : level ≠ 0)
    (streams : List (List Bytes)) (t : Bytes) :
    parse e (encodeV2Streams p level streams ++ t) =
      caught (rdLegacyDecs e p (emptyBuffer (α := F32) p).decs ((streams.map fun c => (c.map archiveBytes).flatten).flatten ++ t) >>=
        fun d => .ok (d.1.map fun d => (⟨p, d⟩ : Buffer F32), d.2)) := by
  have hd : p.shape.length ≤ 2 := by rcases hv.1 with h | h <;> omega
  have hs' : encodeV2Streams p level streams ++ t =
      startBytes 2 p ++ ([level] ++ ((streams.map fun c => (c.map archiveBytes).flatten).flatten ++ t)) := by
    simp [encodeV2Streams, startBytes, encodeParams_eq]
  have hs2 : encodeV2Streams p level streams ++ t = 2 :: (encodeParams p ++ [level] ++
      ((streams.map fun c => (c.map archiveBytes).flatten).flatten ++ t)) := by
    simp [encodeV2Streams]
  rw [hs2, parse_two, ← hs2, hs']
  unfold parseV2
  simp only [Rd.bind]
  rw [rdHeader_full hv hs hn hw (hM _ _ (by omega)) (hM _ _ hm), Outcome.bind_ok]
  have hl : level.toNat ≠ 0 := fun h => h0 (UInt8.toNat_inj.1 h)
  simp only [useLevel]
  rw [if_pos hl]
  rfl

theorem fold_entries {m : Mat F32} (f : F32 → F32) (h0 : 0 < m.rows * m.cols) :
    ∃ m', ((entries m).map fun x => (x.1, f x.2)).foldlM putEntry (Mat.ofFn m.rows m.cols fun _ _ => 0) = .ok m' ∧ MappedNonzeros f m m' := by
  have hc : 0 < m.cols := Nat.pos_of_mul_pos_left h0
  let L := (entries m).map (fun x => (x.1, f x.2))
  obtain ⟨m', h1, h2, h3, h4⟩ := fold_put (r := m.rows) hc L (Mat.ofFn m.rows m.cols fun _ _ => 0) rfl rfl (by
    intro x hx
    obtain ⟨y, hy, rfl⟩ := List.mem_map.1 hx
    exact (entries_lt hy : y.1 < _))
  refine ⟨m', h1, h2, h3, ?_⟩
  intro i hi j hj
  rw [isZero_eq]
  apply h4 i hi j hj
  · intro x hx hxi
    obtain ⟨y, hy, rfl⟩ := List.mem_map.1 hx
    obtain ⟨i', hi', j', hj', hz, rfl⟩ := mem_entries.1 hy
    have hii : i' = i := by
      have := congrArg (· / m.cols) hxi
      simpa [Mat.idx_div hj', Mat.idx_div hj] using this
    have hjj : j' = j := by
      have := congrArg (· % m.cols) hxi
      simpa [Mat.idx_mod hj', Mat.idx_mod hj] using this
    subst hii hjj
    simp [hz]
  · by_cases hz : F32.isZero (m.get i j) = true
    · left; rw [Mat.get_ofFn hi hj, if_pos hz]
    · right
      exact ⟨_, List.mem_map.2 ⟨_, mem_entries.2 ⟨i, hi, j, hj, by simpa using hz, rfl⟩, rfl⟩, rfl⟩

theorem memorySize_le (shape : List ℕ) (s : ℕ) : Sf.memorySize shape s ≤ Sf.memorySize shape 0 := by
  unfold Sf.memorySize
  split <;>
  · refine Nat.div_le_div_left ?_ (by norm_num)
    simp only [pow_zero, Nat.zero_div]
    exact Nat.mul_le_mul_left _ (Nat.one_le_pow _ _ (by norm_num))

theorem memorySize_lt (shape : List ℕ) (s : ℕ) : Sf.memorySize shape s < 2 ^ 65 := by
  refine lt_of_le_of_lt (memorySize_le shape s) ?_
  have h := fun a : ℕ => Nat.mod_lt a (show 0 < 2 ^ 64 by norm_num)
  unfold Sf.memorySize
  split
  · have := h (shape.getD 0 0 * 4)
    norm_num at this ⊢
    omega
  · have := h (shape.getD 0 0 * shape.getD 1 0 * 4)
    norm_num at this ⊢
    omega

end WB
