import Verif.Proof.Damage
import Verif.Props.Local
import Verif.Props.Serialize
import Verif.Model.FloatBits

/-!
C119: where a coefficient is in an archive, and what changed bytes do.
-/

namespace WB.Props

open WB.Spec

/-- C119. In an archive without compression the coefficient `(i, j)` of subband `q` of channel `n` is the four bytes at `placeOf`, least
significant first. -/
theorem C119_place (e : Ext) (b : Buffer F32) (old : Bytes) (hb : WellFormed b) (hf : FitsFormat b) :
    ∃ blob, serialize e b old 0 = .ok (true, blob) ∧ ∀ (n q i j : ℕ) (c : List (Mat F32)) (m : Mat F32), b.decs[n]? = some c →
      c[q]? = some m → i < m.rows → j < m.cols →
      placeOf b n q i j + 4 ≤ blob.length ∧ (blob.drop (placeOf b n q i j)).take 4 = littleEndian 4 (m.get i j).toNat := by
  have h0 : effectiveLevel b 0 = 0 := by unfold effectiveLevel; split <;> rfl
  have hser := serialize_eq (e := e) hb hf.2.2.1 old 0 (by rw [h0]; exact serSubbands_zero e _)
  refine ⟨_, hser, fun n q i j c m hc hm hi hj => ?_⟩
  obtain ⟨A, B, hA, h⟩ := plain_split e hb hf hc hm hi hj
  have hself : putAt m (i * m.cols + j) (m.get i j) = m := by
    have hk : i * m.cols + j < m.data.length := by rw [m.wf]; nlinarith
    unfold putAt Mat.get
    have : m.data.set (i * m.cols + j) (m.data.getD (i * m.cols + j) default) = m.data := by
      rw [List.getD_eq_getElem _ _ hk, List.set_getElem_self]
    cases m
    simp only [Mat.mk.injEq, true_and]
    exact this
  have h := h (m.get i j) old
  rw [hself, putBand_self hc hm] at h
  rw [hser] at h
  simp only [Outcome.ok.injEq, Prod.mk.injEq, true_and] at h
  rw [h, ← hA]
  refine ⟨by simp, ?_⟩
  rw [List.drop_left, List.take_left' (by simp), littleEndian_eq]

/-- C119. When only these four bytes of the archive change, to whatever values, the archive is still read, and the result is the buffer in
which only that coefficient is another one: the float with the new bytes. -/
theorem C119_damage (e : Ext) (M : ℕ) (b : Buffer F32) (old : Bytes) (hb : WellFormed b) (hf : FitsFormat b) (hM : Room e M)
    (hm : FitsMemory b M) :
    ∃ blob, serialize e b old 0 = .ok (true, blob) ∧ ∀ (n q i j : ℕ) (c : List (Mat F32)) (m : Mat F32), b.decs[n]? = some c →
      c[q]? = some m → i < m.rows → j < m.cols → ∀ blob' : Bytes, blob'.length = blob.length → blob.length ≤ M →
      (∀ t, t < placeOf b n q i j ∨ placeOf b n q i j + 4 ≤ t → blob'[t]? = blob[t]?) →
      ∃ d', parse e blob' = .ok (some ⟨b.params, d'⟩) ∧
        SameElsewhere (SameBut i j (BitVec.ofNat 32 (ofLittleEndian ((blob'.drop (placeOf b n q i j)).take 4)))) n q b.decs d' := by
  obtain ⟨blob, hser, hplace⟩ := C119_place e b old hb hf
  refine ⟨blob, hser, fun n q i j c m hc hmq hi hj blob' hlen hroom hsame => ?_⟩
  obtain ⟨hp1, hp2⟩ := hplace n q i j c m hc hmq hi hj
  obtain ⟨A, B, hA, h⟩ := plain_split e hb hf hc hmq hi hj
  set P := placeOf b n q i j with hP
  set w := (blob'.drop P).take 4 with hw
  have hwl : w.length = 4 := by rw [hw, List.length_take, List.length_drop]; omega
  have hwlt : fromLE w < 2 ^ 32 := by
    have := fromLE_lt_pow w
    rw [hwl] at this
    norm_num at this ⊢
    exact this
  have hv : le 4 (BitVec.ofNat 32 (ofLittleEndian w)).toNat = w := by
    rw [ofLittleEndian_eq, BitVec.toNat_ofNat, Nat.mod_eq_of_lt hwlt]
    have := le_fromLE w
    rwa [hwl] at this
  have hS := putBand_same (R := SameBut i j (BitVec.ofNat 32 (ofLittleEndian w))) hc hmq
    (putAt_sameBut (i := i) hj (BitVec.ofNat 32 (ofLittleEndian w)))
  refine ⟨_, ?_, hS⟩
  have hblob : blob = A ++ (le 4 (m.get i j).toNat ++ B) := by
    have hself : putAt m (i * m.cols + j) (m.get i j) = m := by
      have hk : i * m.cols + j < m.data.length := by rw [m.wf]; nlinarith
      unfold putAt Mat.get
      have : m.data.set (i * m.cols + j) (m.data.getD (i * m.cols + j) default) = m.data := by
        rw [List.getD_eq_getElem _ _ hk, List.set_getElem_self]
      cases m
      simp only [Mat.mk.injEq, true_and]
      exact this
    have h := h (m.get i j) old
    rw [hself, putBand_self hc hmq, hser] at h
    simpa using h
  have hblob' : blob' = A ++ (w ++ B) := by
    have e1 : blob'.take P = A := by
      apply List.ext_getElem?
      intro t
      rw [List.getElem?_take]
      split_ifs with ht
      · rw [hsame t (Or.inl ht), hblob, List.getElem?_append_left (by omega)]
      · rw [List.getElem?_eq_none (by omega)]
    have e2 : blob'.drop (P + 4) = B := by
      apply List.ext_getElem?
      intro t
      rw [List.getElem?_drop, hsame _ (Or.inr (by omega)), hblob, List.getElem?_append_right (by omega),
        List.getElem?_append_right (by rw [length_le]; omega), length_le, hA]
      congr 1
      omega
    calc blob' = blob'.take P ++ blob'.drop P := (List.take_append_drop _ _).symm
      _ = blob'.take P ++ ((blob'.drop P).take 4 ++ (blob'.drop P).drop 4) := by rw [List.take_append_drop 4]
      _ = _ := by rw [e1, List.drop_drop, e2]
  have hb' := sameElsewhere_wellFormed (p := b.params) hS hb
  have hf' : FitsFormat (Buffer.mk b.params (putBand b.decs n q (putAt m (i * m.cols + j) (BitVec.ofNat 32 (ofLittleEndian w))))) :=
    ⟨hf.1, hf.2.1, hf.2.2.1, sameElsewhere_sizes (P := fun r c => r < 2 ^ 64 ∧ c < 2 ^ 64) (fun _ _ h => h.1) hS hf.2.2.2⟩
  have hm' : FitsMemory (Buffer.mk b.params (putBand b.decs n q (putAt m (i * m.cols + j) (BitVec.ofNat 32 (ofLittleEndian w))))) M :=
    ⟨hm.1, sameElsewhere_sizes (P := fun r c => r * c ≤ M) (fun _ _ h => h.1) hS hm.2⟩
  obtain ⟨bl, k1, k2⟩ := C27_uncompressed_round_trip e M _ old hb' hf' hM hm'
  rw [h, hv] at k1
  simp only [Outcome.ok.injEq, Prod.mk.injEq, true_and] at k1
  rw [hblob', k1]
  exact k2 (by rw [← k1, ← hblob', hlen]; exact hroom)

/-- Two decompositions that differ in one coefficient are composed to signals that differ only where it reaches. -/
theorem samples_of_one {α : Type} [Zero α] [Add α] [Mul α] [Neg α] [Inhabited α] (k : Kit α) (p : Params) (dx dy : Decs α)
    (hx : WellFormed (Buffer.mk p dx)) (hk : FilterPresent k p) (sx : ∀ c ∈ dx, PrescribedShapes p c) {n q i j : ℕ} {v : α}
    (h : SameElsewhere (SameBut i j v) n q dx dy) (hy : WellFormed (Buffer.mk p dy)) (sy : ∀ c ∈ dy, PrescribedShapes p c)
    (s : ℕ) (hs : s ≤ p.steps) :
    ∃ ox oy, (Buffer.mk p dx).compose k s = .ok ox ∧ (Buffer.mk p dy).compose k s = .ok oy ∧ ox.length = oy.length ∧
      ∀ (n' : ℕ) (x y : Mat α), ox[n']? = some x → oy[n']? = some y → ∀ a < x.rows, ∀ b < x.cols,
        ¬ (n' = n ∧ Touches p s q i j (a + ((levelSides p s).1 - x.rows) / 2) (b + ((levelSides p s).2 - x.cols) / 2)) →
        x.get a b = y.get a b := by
  obtain ⟨ox, oy, h1, h2, h3, h4, h5⟩ := C118_samples k p dx dy hx hy hk sx sy s hs
  refine ⟨ox, oy, h1, h2, by rw [h3, h4, h.1], fun n' x y hn hn' a ha b hb hno => ?_⟩
  have hl : n' < dx.length := by rw [← h3]; exact (List.getElem?_eq_some_iff.1 hn).1
  obtain ⟨cy, g1, g2, g3⟩ := h.2 n' _ (List.getElem?_eq_getElem hl)
  have key : ∀ q' mx my, dx[n'][q']? = some mx → cy[q']? = some my → ∀ a' < mx.rows, ∀ b' < mx.cols,
      ¬ (n' = n ∧ q' = q ∧ a' = i ∧ b' = j) → mx.get a' b' = my.get a' b' := by
    intro q' mx my hmx hmy a' ha' b' hb' hne
    obtain ⟨m', e1, e2⟩ := g3 q' mx hmx
    rw [hmy] at e1
    cases e1
    split at e2
    · rename_i hq
      rw [e2.2 a' ha' b' hb', if_neg (fun hh => hne ⟨hq.1, hq.2, hh⟩)]
    · rw [e2]
  refine h5 n' _ cy x y (List.getElem?_eq_getElem hl) g1 hn hn' a ha b hb ⟨?_, ?_⟩
  · intro s' hs1 hs2 r hr mx my hmx hmy a' ha' b' hb' r1 r2
    refine key _ mx my hmx hmy a' ha' b' hb' ?_
    rintro ⟨e1, e2, rfl, rfl⟩
    have hlt : s' * detailsPerStep p + r < p.steps * detailsPerStep p := by
      calc s' * detailsPerStep p + r < s' * detailsPerStep p + detailsPerStep p := by omega
        _ = (s' + 1) * detailsPerStep p := by ring
        _ ≤ _ := Nat.mul_le_mul_right _ hs2
    have hst : stepOf p q = s' + 1 := by
      unfold stepOf
      rw [← e2, if_pos hlt, Nat.mul_comm, Nat.mul_add_div (by omega), Nat.div_eq_of_lt hr]
    refine hno ⟨e1, ?_⟩
    unfold Touches
    rw [hst]
    exact ⟨Or.inl (by omega), r1, r2⟩
  · intro mx my hmx hmy a' ha' b' hb' r1 r2
    refine key _ mx my hmx hmy a' ha' b' hb' ?_
    rintro ⟨e1, e2, rfl, rfl⟩
    have hst : stepOf p q = p.steps := by unfold stepOf; rw [← e2, if_neg (by omega)]
    refine hno ⟨e1, ?_⟩
    unfold Touches
    rw [hst]
    exact ⟨Or.inr e2.symm, r1, r2⟩

/-- C119. And the samples composed from the changed archive, at every scale, are bit for bit those composed from the original one in all
other channels and, in the same channel, wherever the coefficient does not reach: this is so for every floating point arithmetic, with
NaN and infinities. -/
theorem C119_samples (o : FloatOps) (k : Kit (Bits o)) (e : Ext) (M : ℕ) (b : Buffer F32) (old : Bytes) (hb : WellFormed b)
    (hf : FitsFormat b) (hM : Room e M) (hm : FitsMemory b M) (hk : FilterPresent k b.params)
    (hs : ∀ c ∈ b.decs, PrescribedShapes b.params c) :
    ∃ blob, serialize e b old 0 = .ok (true, blob) ∧ ∀ (n q i j : ℕ) (c : List (Mat F32)) (m : Mat F32), b.decs[n]? = some c →
      c[q]? = some m → i < m.rows → j < m.cols → ∀ blob' : Bytes, blob'.length = blob.length → blob.length ≤ M →
      (∀ t, t < placeOf b n q i j ∨ placeOf b n q i j + 4 ≤ t → blob'[t]? = blob[t]?) →
      ∃ d', parse e blob' = .ok (some ⟨b.params, d'⟩) ∧ ∀ s ≤ b.params.steps,
        ∃ ox oy, Buffer.compose (α := Bits o) k ⟨b.params, b.decs⟩ s = .ok ox ∧ Buffer.compose (α := Bits o) k ⟨b.params, d'⟩ s = .ok oy ∧
          ox.length = oy.length ∧ ∀ (n' : ℕ) (x y : Mat F32), ox[n']? = some x → oy[n']? = some y → ∀ a < x.rows, ∀ a' < x.cols,
            ¬ (n' = n ∧ Touches b.params s q i j (a + ((levelSides b.params s).1 - x.rows) / 2)
              (a' + ((levelSides b.params s).2 - x.cols) / 2)) → x.get a a' = y.get a a' := by
  obtain ⟨blob, h1, h2⟩ := C119_damage e M b old hb hf hM hm
  refine ⟨blob, h1, fun n q i j c m hc hq hi hj blob' hl hr hsame => ?_⟩
  obtain ⟨d', h3, h4⟩ := h2 n q i j c m hc hq hi hj blob' hl hr hsame
  refine ⟨d', h3, fun s hss => ?_⟩
  have hb' := sameElsewhere_wellFormed (p := b.params) h4 hb
  exact samples_of_one (α := Bits o) k b.params b.decs d' hb hk hs h4 hb' (sameElsewhere_shapes (fun _ _ h => h.1) h4 hs) s hss

/-- C119. In a compressed archive the payloads of a subband are what the two codecs made of the positions and the values of its nonzero
coefficients. When only these bytes change, to whatever values, then the archive is read with all other subbands as they were and sizes as
they were, or `Parse` returns null, or the codecs or the conversion leave defined behaviour; other subbands are never affected. -/
theorem C119_packed (e : Ext) (trunc : ℕ → F32 → F32) (M level : ℕ) (b : Buffer F32) (old : Bytes) (hb : WellFormed b) (hf : FitsFormat b)
    (hw : CodecsWork e trunc) (hcomp : Compressible b) (hM : Room e M) (hm : FitsMemory b M) (hl : 1 ≤ level) (n q : ℕ)
    (c : List (Mat F32)) (m : Mat F32) (hc : b.decs[n]? = some c) (hq : c[q]? = some m) :
    ∃ (A B C X Y : Bytes) (d : Decs F32), serialize e b old level = .ok (true, A ++ (X ++ (B ++ (Y ++ C)))) ∧
      X = e.svbEnc ((List.range (m.rows * m.cols)).filter fun k => !isZeroPattern (m.data.getD k 0)) ∧
      e.fpzEnc (33 - min 31 level) (m.data.filter fun x => !isZeroPattern x) = .ok Y ∧
      ((A ++ (X ++ (B ++ (Y ++ C)))).length ≤ M → parse e (A ++ (X ++ (B ++ (Y ++ C)))) = .ok (some ⟨b.params, d⟩) ∧
        ∀ X' Y' : Bytes, X'.length = X.length → Y'.length = Y.length →
          parse e (A ++ (X' ++ (B ++ (Y' ++ C)))) = .ub ∨ parse e (A ++ (X' ++ (B ++ (Y' ++ C)))) = .ok none ∨
          ∃ d', parse e (A ++ (X' ++ (B ++ (Y' ++ C)))) = .ok (some ⟨b.params, d'⟩) ∧ SameElsewhere EqualSides n q d d') := by
  obtain ⟨hn, hcn⟩ := List.getElem?_eq_some_iff.1 hc
  obtain ⟨hqc, hqm⟩ := List.getElem?_eq_some_iff.1 hq
  have hcd : c ∈ b.decs := List.mem_of_getElem? hc
  have hmc : m ∈ c := List.mem_of_getElem? hq
  have hthrough := compressed_through hw hM hm hcomp hl
  have hm0 := hcomp c hcd m hmc
  have hmM := hm.2 c hcd m hmc
  have he : ¬ b.isEmpty = true := by
    rw [isEmpty_iff]
    intro h
    have := h c hcd m hmc
    omega
  have heff : effectiveLevel b level = min 31 level := by unfold effectiveLevel; rw [if_neg he]
  set sf := min 31 level with hsf
  rw [heff] at hthrough
  obtain ⟨P', d1, p1, p2, p3⟩ := decs_through (d := b.decs.take n) fun x hx => hthrough x (List.mem_of_mem_take hx)
  obtain ⟨P, c1, g1, g2, g3⟩ := subbands_through (ms := c.take q) fun x hx => hthrough c hcd x (List.mem_of_mem_take hx)
  obtain ⟨S, c2, s1, s2, s3⟩ := subbands_through (ms := c.drop (q + 1)) fun x hx => hthrough c hcd x (List.mem_of_mem_drop hx)
  obtain ⟨S', d2, t1, t2, t3⟩ := decs_through (d := b.decs.drop (n + 1)) fun x hx => hthrough x (List.mem_of_mem_drop hx)
  obtain ⟨vs, hv0, hv1, hv2⟩ := hw.floats (33 - sf) ((entries m).map Prod.snd) (by omega) (by omega) (by
    have := length_entries_le m; rw [List.length_map]; omega)
  have hlen := length_entries_le m
  have hcmp : compress e m (33 - sf) = .ok ⟨(entries m).length, m.rows, m.cols, e.svbEnc ((entries m).map Prod.fst), vs⟩ := by
    unfold compress
    rw [toCSR_ok hm0.1 hm0.2, Outcome.bind_ok]
    simp only [List.length_map]
    rw [if_neg (by omega), hv0]
    rfl
  have hserm : serSubband e sf m = .ok (serArchived ⟨(entries m).length, m.rows, m.cols, e.svbEnc ((entries m).map Prod.fst), vs⟩) := by
    unfold serSubband
    rw [if_neg (by omega), hcmp, Outcome.bind_ok]
    rfl
  obtain ⟨bm, m1, hm1, hm2, hm3⟩ := goesThrough_compressed hw hM hm0.1 hm0.2 hmM (sf := sf) (by omega) (by omega)
  rw [hserm] at hm1
  cases hm1
  obtain ⟨hi1, -⟩ := hw.integers ((entries m).map Prod.fst) (by
    intro x hx
    obtain ⟨y, hy, rfl⟩ := List.mem_map.1 hx
    have := entries_lt hy
    have := hm0.2
    norm_num at this ⊢; omega) (by rw [List.length_map]; omega)
  set X := e.svbEnc ((entries m).map Prod.fst) with hX
  have hr : 0 < m.rows := Nat.pos_of_mul_pos_right hm0.1
  have hcc : 0 < m.cols := Nat.pos_of_mul_pos_left hm0.1
  have hr2 : m.rows ≤ m.rows * m.cols := Nat.le_mul_of_pos_right _ hcc
  have hc2 : m.cols ≤ m.rows * m.cols := Nat.le_mul_of_pos_left _ hr
  have hbody : serSubbands e sf b.decs.flatten =
      .ok (P' ++ ((P ++ (serArchived ⟨(entries m).length, m.rows, m.cols, X, vs⟩ ++ S)) ++ S')) := by
    have hfl := flatten_putBand hc hq m
    rw [putBand_self hc hq] at hfl
    rw [hfl, serSubbands_append, serSubbands_append, p1, Outcome.bind_ok, g1, Outcome.bind_ok, serSubbands, hserm, Outcome.bind_ok,
      serSubbands_append, s1, Outcome.bind_ok, t1]
    simp only [Outcome.bind_ok, List.append_assoc]
    rfl
  have hser := serialize_eq (e := e) hb hf.2.2.1 old level (by rw [heff]; exact hbody)
  rw [heff] at hser
  have hsf255 : (UInt8.ofNat sf).toNat = sf := by rw [UInt8.toNat_ofNat']; omega
  let A := startBytes 3 b.params ++ ([UInt8.ofNat sf] ++ (P' ++ (P ++ (le 8 (entries m).length ++ (le 8 m.rows ++ (le 8 m.cols ++
    ([1, 0, 2, 1] ++ (le 8 X.length ++ le 8 X.length))))))))
  let B : Bytes := [1, 0, 2, 1] ++ (le 8 vs.length ++ le 8 vs.length)
  let C := S ++ S'
  have form : ∀ X' Y' : Bytes, X'.length = X.length → Y'.length = vs.length → A ++ (X' ++ (B ++ (Y' ++ C))) =
      blob3 b.params (UInt8.ofNat sf) (P' ++ ((P ++ (serArchived ⟨(entries m).length, m.rows, m.cols, X', Y'⟩ ++ S)) ++ S')) := by
    intro X' Y' h1 h2
    simp only [A, B, C, blob3, serArchived, serBytes, h1, h2, List.append_assoc]
  let d := d1 ++ (c1 ++ m1 :: c2) :: d2
  have l1 : d1.length = n := by rw [← p2.length_eq, List.length_take]; omega
  have l2 : c1.length = q := by rw [← g2.length_eq, List.length_take]; omega
  have hput : ∀ m' : Mat F32, m'.rows = m.rows → m'.cols = m.cols → SameElsewhere EqualSides n q d (d1 ++ (c1 ++ m' :: c2) :: d2) := by
    intro m' e1 e2
    have hdn : d[n]? = some (c1 ++ m1 :: c2) := by
      simp only [d]; rw [List.getElem?_append_right (by omega), l1, Nat.sub_self]; rfl
    have hdq : (c1 ++ m1 :: c2)[q]? = some m1 := by
      rw [List.getElem?_append_right (by omega), l2, Nat.sub_self]; rfl
    have := putBand_same (R := EqualSides) (m' := m') hdn hdq ⟨e1.trans hm2.1.symm, e2.trans hm2.2.1.symm⟩
    have heq : putBand d n q m' = d1 ++ (c1 ++ m' :: c2) :: d2 := by
      unfold putBand
      rw [List.getD_eq_getElem?_getD, hdn, Option.getD_some]
      simp only [d]
      rw [List.set_append_right _ _ (by omega), List.set_append_right _ _ (by omega), l1, l2, Nat.sub_self, Nat.sub_self]
      rfl
    rwa [heq] at this
  refine ⟨A, B, C, X, vs, d, ?_, by rw [hX, entries_positions], by rw [← entries_values]; exact hv0, fun hroom => ?_⟩
  · rw [form X vs rfl rfl]; exact hser
  · have hA : A.length + X.length + B.length + vs.length + C.length ≤ M := by
      simp only [List.length_append] at hroom ⊢; omega
    have hlens : P'.length ≤ M ∧ P.length ≤ M ∧ S.length ≤ M ∧ S'.length ≤ M ∧ X.length ≤ M ∧ vs.length ≤ M ∧ b.params.shape.length ≤ M ∧
        (serArchived ⟨(entries m).length, m.rows, m.cols, X, vs⟩).length ≤ M := by
      simp only [A, B, C, List.length_append, length_startBytes, serArchived, serBytes, length_le] at hA ⊢
      simp only [List.length_cons, List.length_nil] at hA ⊢
      omega
    obtain ⟨k1, k2, k3, k4, k5, k6, k7, k8⟩ := hlens
    have hL := layout_lengths hb
    have hLn : n < (emptyBuffer (α := F32) b.params).decs.length := by
      have := congrArg List.length hL
      simp only [List.length_map] at this
      omega
    have hsplit : (emptyBuffer (α := F32) b.params).decs = (emptyBuffer (α := F32) b.params).decs.take n ++
        (emptyBuffer (α := F32) b.params).decs[n] :: (emptyBuffer (α := F32) b.params).decs.drop (n + 1) := by
      rw [List.getElem_cons_drop, List.take_append_drop]
    have hln : ((emptyBuffer (α := F32) b.params).decs[n]).length = (c.take q).length + ((c.drop (q + 1)).length + 1) := by
      have h1 : ((emptyBuffer (α := F32) b.params).decs.map List.length)[n]? = (b.decs.map List.length)[n]? := by rw [hL]
      rw [List.getElem?_map, List.getElem?_map, List.getElem?_eq_getElem hLn, hc] at h1
      simp only [Option.map_some, Option.some.injEq] at h1
      rw [h1, List.length_take, List.length_drop]
      omega
    have all : ∀ X' Y' : Bytes, X'.length = X.length → Y'.length = vs.length →
        Does (rdLayout (rdSubband e (UInt8.ofNat sf).toNat) (emptyBuffer b.params).decs)
          (P' ++ ((P ++ (serArchived ⟨(entries m).length, m.rows, m.cols, X', Y'⟩ ++ S)) ++ S'))
          (decompress e ⟨(entries m).length, m.rows, m.cols, X', Y'⟩ >>= fun x => .ok (d1 ++ (c1 ++ x :: c2) :: d2)) := by
      intro X' Y' e1 e2
      rw [hsf255, hsplit]
      have hmm := hm0.2
      exact does_layout (does_archived hM (by omega) (by norm_num at hmm ⊢; omega) (by norm_num at hmm ⊢; omega)
        (by norm_num at hmm ⊢; omega) (by rw [e1]; exact hi1) (by rw [e2]; exact hv1) (by omega) (by omega))
        (g3 k2) (s3 k3) (p3 _ (by rw [List.map_take, List.map_take, hL]) k1) (t3 _ (by rw [List.map_drop, List.map_drop, hL]) k4) hln
    have hdec : decompress e ⟨(entries m).length, m.rows, m.cols, X, vs⟩ = .ok m1 := by
      have hmm := hm0.2
      have h1 := does_archived (sf := sf) (nz := (entries m).length) (r := m.rows) (c := m.cols) (w1 := X) (w2 := vs) hM (by omega)
        (by norm_num at hmm ⊢; omega) (by norm_num at hmm ⊢; omega) (by norm_num at hmm ⊢; omega) hi1 hv1 k5 k6 []
      rw [(hm3 k8).full] at h1
      cases hd : decompress e ⟨(entries m).length, m.rows, m.cols, X, vs⟩ with
      | ok x => rw [hd] at h1; cases h1; rfl
      | throw => rw [hd] at h1; cases h1
      | ub => rw [hd] at h1; cases h1
    have pd := fun X' Y' e1 e2 => parse_does hb.1 hf.1 hf.2.1 hf.2.2.1 (hM _ _ (by omega)) (hM _ _ hm.1) (all X' Y' e1 e2)
    refine ⟨?_, fun X' Y' e1 e2 => ?_⟩
    · rw [form X vs rfl rfl]
      exact (pd X vs rfl rfl).2.2 _ (by rw [hdec]; rfl)
    · rw [form X' Y' e1 e2]
      have := pd X' Y' e1 e2
      cases hd : decompress e ⟨(entries m).length, m.rows, m.cols, X', Y'⟩ with
      | ub => exact Or.inl (this.1 (by rw [hd]; rfl))
      | throw => exact Or.inr (Or.inl (this.2.1 (by rw [hd]; rfl)))
      | ok x =>
        obtain ⟨q1, q2⟩ := decompress_sides hd
        exact Or.inr (Or.inr ⟨_, this.2.2 _ (by rw [hd]; rfl), hput x q1 q2⟩)

/-- C119: the first value of the approximation of `exSignal` is the four bytes from 102 on. A changed byte among them reaches the samples 0 and
1 and not the samples 2 and 3. -/
example : ∃ blob, serialize exExt exSignal [] 0 = .ok (true, blob) ∧ blob.length ≤ 1000 ∧ placeOf exSignal 0 1 0 0 = 102 ∧
    (blob.set 105 0x7f).length = blob.length ∧
    (∀ t, t < placeOf exSignal 0 1 0 0 ∨ placeOf exSignal 0 1 0 0 + 4 ≤ t → (blob.set 105 0x7f)[t]? = blob[t]?) ∧
    blob.set 105 0x7f ≠ blob ∧ (∀ c ∈ exSignal.decs, PrescribedShapes exSignal.params c) ∧
    Touches exSignal.params 0 1 0 0 1 0 ∧ ¬ Touches exSignal.params 0 1 0 0 2 0 := by
  have hp : placeOf exSignal 0 1 0 0 = 102 := by decide
  refine ⟨_, rfl, by decide +kernel, hp, List.length_set, ?_, by decide +kernel, ?_, ?_, ?_⟩
  · intro t ht
    rw [hp] at ht
    rw [List.getElem?_set_ne (by omega)]
  · intro c hc
    simp only [exSignal, List.mem_singleton] at hc
    subst hc
    refine ⟨by simp [subbandCount, detailsPerStep, exSignal], ?_, ?_⟩
    · intro s hs j hj m hm
      obtain rfl : s = 0 := by simpa [exSignal] using hs
      obtain rfl : j = 0 := by simpa [detailsPerStep, exSignal] using hj
      simp [detailsPerStep, exSignal] at hm
      subst hm
      simp [HasShape, paddedSide, exSignal, Mat.ofCol]
    · intro m hm
      simp [detailsPerStep, exSignal] at hm
      subst hm
      simp [HasShape, paddedSide, exSignal, Mat.ofCol]
  · refine ⟨Or.inl (by decide), ⟨1, by decide, by decide⟩, ⟨0, by decide, by decide⟩⟩
  · rintro ⟨_, ⟨t, ht, h⟩, _⟩
    have ht : t ≤ 1 := ht
    have h : (2 * 0 + t) % 4 = 2 := h
    omega

/-- C119: `exSignal` has subbands that can be compressed. -/
example : WellFormed exSignal ∧ FitsFormat exSignal ∧ CodecsWork exExt exTrunc ∧ Compressible exSignal ∧ Room exExt 1000 ∧
    FitsMemory exSignal 1000 ∧ ∃ blob, serialize exExt exSignal [] 5 = .ok (true, blob) ∧ blob.length ≤ 1000 :=
  ⟨exSignal_ok.1, exSignal_ok.2.1, exExt_works, exSignal_ok.2.2.1, exSignal_ok.2.2.2.2, exSignal_ok.2.2.2.1, _, rfl, by decide +kernel⟩

end WB.Props
