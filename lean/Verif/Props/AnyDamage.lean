import Verif.Proof.AnyDamage
import Verif.Props.Damage

/-!
C125: the coefficients of an uncompressed archive may be any bytes, and an archive determines its buffer.
-/

namespace WB.Props

open WB.Spec

/-- C125. When any of the coefficient bytes of an archive without compression change, to whatever values, and no others, then the archive is
read, the buffer has the same parameters and subbands of the same sizes, every coefficient is the float whose bytes are found at its place,
and serialising that buffer gives the changed bytes. -/
theorem C125_any_bytes (e : Ext) (M : ℕ) (b : Buffer F32) (old : Bytes) (hb : WellFormed b) (hf : FitsFormat b) (hM : Room e M)
    (hm : FitsMemory b M) :
    ∃ blob, serialize e b old 0 = .ok (true, blob) ∧ ∀ blob' : Bytes, blob'.length = blob.length → blob.length ≤ M →
      (∀ t, (∀ n q i j, HasPlace b.decs n q i j → t < placeOf b n q i j ∨ placeOf b n q i j + 4 ≤ t) → blob'[t]? = blob[t]?) →
      ∃ d', parse e blob' = .ok (some ⟨b.params, d'⟩) ∧ serialize e ⟨b.params, d'⟩ old 0 = .ok (true, blob') ∧
        sidesOf d' = sidesOf b.decs ∧
        ∀ (n q i j : ℕ) (c : List (Mat F32)) (m : Mat F32), d'[n]? = some c → c[q]? = some m → i < m.rows → j < m.cols →
          m.get i j = floatAt blob' (placeOf b n q i j) := by
  obtain ⟨p, d⟩ := b
  have hser := plain_archive e hb hf old
  refine ⟨_, hser, fun blob' hlen hroom hsame => ?_⟩
  obtain ⟨d', h1, h2⟩ := archive_of_changed e p blob' old blob'.length d _ hb hf hser hlen (fun t ht => by omega) hsame
  have hb' := sides_wellFormed h1 hb
  have hf' := sides_fits h1 hf
  obtain ⟨bl, k1, k2⟩ := C27_uncompressed_round_trip e M _ old hb' hf' hM (sides_memory h1 hm)
  rw [h2] at k1
  simp only [Outcome.ok.injEq, Prod.mk.injEq, true_and] at k1
  subst k1
  refine ⟨d', k2 (by rw [hlen]; exact hroom), h2, h1, fun n q i j c m hc hq hi hj => ?_⟩
  obtain ⟨bl, g1, g2⟩ := C119_place e ⟨p, d'⟩ old hb' hf'
  rw [h2] at g1
  simp only [Outcome.ok.injEq, Prod.mk.injEq, true_and] at g1
  subst g1
  obtain ⟨_, g3⟩ := g2 n q i j c m hc hq hi hj
  rw [← placeOf_of_sides h1.symm ⟨c, m, hc, hq, hi, hj⟩] at g3
  unfold floatAt
  rw [g3, ofLittleEndian_eq, littleEndian_eq, fromLE_le_of_lt (by have := (m.get i j).isLt; norm_num at this ⊢; exact this)]
  simp

/-- Two decompositions of the same sides are composed to signals that agree wherever all coefficients that reach agree. -/
theorem samples_of_kept {α : Type} [Zero α] [Add α] [Mul α] [Neg α] [Inhabited α] (k : Kit α) (p : Params) (dx dy : Decs α)
    (hx : WellFormed (Buffer.mk p dx)) (hy : WellFormed (Buffer.mk p dy)) (hk : FilterPresent k p) (sx : ∀ c ∈ dx, PrescribedShapes p c)
    (h : sidesOf dy = sidesOf dx) (s : ℕ) (hs : s ≤ p.steps) :
    ∃ ox oy, (Buffer.mk p dx).compose k s = .ok ox ∧ (Buffer.mk p dy).compose k s = .ok oy ∧ ox.length = oy.length ∧
      ∀ (n : ℕ) (x y : Mat α), ox[n]? = some x → oy[n]? = some y → ∀ a < x.rows, ∀ b < x.cols,
        (∀ (q i j : ℕ) (cx cy : List (Mat α)) (mx my : Mat α), dx[n]? = some cx → dy[n]? = some cy → cx[q]? = some mx → cy[q]? = some my →
          i < mx.rows → j < mx.cols → Touches p s q i j (a + ((levelSides p s).1 - x.rows) / 2) (b + ((levelSides p s).2 - x.cols) / 2) →
          mx.get i j = my.get i j) → x.get a b = y.get a b := by
  obtain ⟨ox, oy, g1, g2, g3, g4, g5⟩ := C118_samples k p dx dy hx hy hk sx (sides_shapes h sx) s hs
  have hlen : dy.length = dx.length := by simpa [sidesOf] using congrArg List.length h
  refine ⟨ox, oy, g1, g2, by rw [g3, g4, hlen], fun n x y hx hy a ha b hb key => ?_⟩
  have hn : n < dx.length := by rw [← g3]; exact (List.getElem?_eq_some_iff.1 hx).1
  have hn' : n < dy.length := by omega
  refine g5 n _ _ x y (List.getElem?_eq_getElem hn) (List.getElem?_eq_getElem hn') hx hy a ha b hb ⟨?_, ?_⟩
  · intro s' hs1 hs2 r hr mx my hmx hmy i hi j hj r1 r2
    refine key _ i j _ _ mx my (List.getElem?_eq_getElem hn) (List.getElem?_eq_getElem hn') hmx hmy hi hj ?_
    have hlt : s' * detailsPerStep p + r < p.steps * detailsPerStep p := by
      calc s' * detailsPerStep p + r < s' * detailsPerStep p + detailsPerStep p := by omega
        _ = (s' + 1) * detailsPerStep p := by ring
        _ ≤ _ := Nat.mul_le_mul_right _ hs2
    have hst : stepOf p (s' * detailsPerStep p + r) = s' + 1 := by
      unfold stepOf
      rw [if_pos hlt, Nat.mul_comm, Nat.mul_add_div (by omega), Nat.div_eq_of_lt hr]
    unfold Touches
    rw [hst]
    exact ⟨Or.inl (by omega), r1, r2⟩
  · intro mx my hmx hmy i hi j hj r1 r2
    refine key _ i j _ _ mx my (List.getElem?_eq_getElem hn) (List.getElem?_eq_getElem hn') hmx hmy hi hj ?_
    have hst : stepOf p (p.steps * detailsPerStep p) = p.steps := by unfold stepOf; rw [if_neg (by omega)]
    unfold Touches
    rw [hst]
    exact ⟨Or.inr rfl, r1, r2⟩

/-- C125. And the samples composed from the changed archive, at every scale, are bit for bit those composed from the original one wherever
the four bytes of every coefficient that reaches the sample are unchanged. This is so for every floating point arithmetic, with NaN and
infinities. -/
theorem C125_samples (o : FloatOps) (k : Kit (Bits o)) (e : Ext) (M : ℕ) (b : Buffer F32) (old : Bytes) (hb : WellFormed b)
    (hf : FitsFormat b) (hM : Room e M) (hm : FitsMemory b M) (hk : FilterPresent k b.params)
    (hs : ∀ c ∈ b.decs, PrescribedShapes b.params c) :
    ∃ blob, serialize e b old 0 = .ok (true, blob) ∧ ∀ blob' : Bytes, blob'.length = blob.length → blob.length ≤ M →
      (∀ t, (∀ n q i j, HasPlace b.decs n q i j → t < placeOf b n q i j ∨ placeOf b n q i j + 4 ≤ t) → blob'[t]? = blob[t]?) →
      ∃ d', parse e blob' = .ok (some ⟨b.params, d'⟩) ∧ ∀ s ≤ b.params.steps,
        ∃ ox oy, Buffer.compose (α := Bits o) k ⟨b.params, b.decs⟩ s = .ok ox ∧ Buffer.compose (α := Bits o) k ⟨b.params, d'⟩ s = .ok oy ∧
          ox.length = oy.length ∧ ∀ (n : ℕ) (x y : Mat F32), ox[n]? = some x → oy[n]? = some y → ∀ a < x.rows, ∀ a' < x.cols,
            (∀ q i j, HasPlace b.decs n q i j → Touches b.params s q i j (a + ((levelSides b.params s).1 - x.rows) / 2)
              (a' + ((levelSides b.params s).2 - x.cols) / 2) →
              ∀ t, placeOf b n q i j ≤ t → t < placeOf b n q i j + 4 → blob'[t]? = blob[t]?) → x.get a a' = y.get a a' := by
  obtain ⟨blob, h1, h2⟩ := C125_any_bytes e M b old hb hf hM hm
  refine ⟨blob, h1, fun blob' hl hr hsame => ?_⟩
  obtain ⟨d', h3, h4, h5, h6⟩ := h2 blob' hl hr hsame
  refine ⟨d', h3, fun s hss => ?_⟩
  have hb' : WellFormed (Buffer.mk b.params d') := sides_wellFormed h5 hb
  obtain ⟨bl, u1, u2⟩ := C119_place e b old hb hf
  rw [h1] at u1
  simp only [Outcome.ok.injEq, Prod.mk.injEq, true_and] at u1
  subst u1
  obtain ⟨ox, oy, g1, g2, g3, g4⟩ := samples_of_kept (α := Bits o) k b.params b.decs d' hb hb' hk hs h5 s hss
  refine ⟨ox, oy, g1, g2, g3, fun n x y hx hy a ha a' ha' hno => g4 n x y hx hy a ha a' ha' ?_⟩
  intro q i j (c : List (Mat F32)) (c' : List (Mat F32)) (mx : Mat F32) (my : Mat F32) hc hc' hmx hmy hi hj ht
  -- coefficients with unchanged bytes are unchanged
  obtain ⟨c'', m', v1, v2, _, v4, v5⟩ := sidesOf_getElem? (α := F32) h5 hc hmx
  have v1 : d'[n]? = some c'' := v1
  have v2 : c''[q]? = some m' := v2
  have hc' : d'[n]? = some c' := hc'
  have hmy : c'[q]? = some my := hmy
  rw [hc'] at v1
  cases v1
  rw [hmy] at v2
  cases v2
  have hi : i < mx.rows := hi
  have hj : j < mx.cols := hj
  have hm1 := h6 n q i j c' my hc' hmy (by omega) (by omega)
  obtain ⟨w1, w2⟩ := u2 n q i j c mx hc hmx hi hj
  have hsm := hno q i j ⟨c, mx, hc, hmx, hi, hj⟩ ht
  have hb4 : (blob'.drop (placeOf b n q i j)).take 4 = (blob.drop (placeOf b n q i j)).take 4 := by
    apply List.ext_getElem?
    intro t
    rw [List.getElem?_take, List.getElem?_take]
    split_ifs with ht
    · rw [List.getElem?_drop, List.getElem?_drop, hsm _ (by omega) (by omega)]
    · rfl
  unfold floatAt at hm1
  rw [hb4, w2, ofLittleEndian_eq, littleEndian_eq, fromLE_le_of_lt (by have := (mx.get i j).isLt; norm_num at this ⊢; exact this)] at hm1
  have : mx.get i j = my.get i j := by rw [hm1]; simp
  exact this

/-- C125. An archive without compression determines its buffer: two buffers with the same archive are the same, bit for bit. -/
theorem C125_one_to_one (e e' : Ext) (b b' : Buffer F32) (old old' blob : Bytes) (hb : WellFormed b) (hf : FitsFormat b) (hb' : WellFormed b')
    (hf' : FitsFormat b') (h : serialize e b old 0 = .ok (true, blob)) (h' : serialize e' b' old' 0 = .ok (true, blob)) : b = b' := by
  let f : Ext := { e with alloc := fun _ _ => .ok () }
  have key : ∀ (x : Buffer F32), WellFormed x → FitsFormat x → ∀ (y : Ext) (o : Bytes), serialize y x o 0 = .ok (true, blob) →
      parse f blob = .ok (some x) := by
    intro x hx hfx y o hs
    have hmem : ∃ M, FitsMemory x M := by
      refine ⟨x.params.signalNumber * subbandCount x.params + ((x.decs.flatten).map fun m => m.rows * m.cols).sum, by omega, fun c hc m hm => ?_⟩
      have : m.rows * m.cols ≤ ((x.decs.flatten).map fun m => m.rows * m.cols).sum :=
        List.le_sum_of_mem (List.mem_map_of_mem (List.mem_flatten.2 ⟨c, hc, hm⟩))
      omega
    obtain ⟨M, hM⟩ := hmem
    obtain ⟨bl, k1, k2⟩ := C27_uncompressed_round_trip f (M + blob.length) x o hx hfx (fun _ _ _ => rfl)
      ⟨by have := hM.1; omega, fun c hc m hm => by have := hM.2 c hc m hm; omega⟩
    rw [plain_archive y hx hfx] at hs
    rw [plain_archive f hx hfx, hs] at k1
    simp only [Outcome.ok.injEq, Prod.mk.injEq, true_and] at k1
    subst k1
    exact k2 (by omega)
  have h1 := key b hb hf e old h
  rw [key b' hb' hf' e' old' h'] at h1
  simp only [Outcome.ok.injEq, Option.some.injEq] at h1
  exact h1.symm

/-- C125: all four bytes of a detail and one of the approximation of `exSignal` changed at the same time. The places that must stay as they are
include the record header of the second subband. -/
example : WellFormed exSignal ∧ FitsFormat exSignal ∧ Room exExt 1000 ∧ FitsMemory exSignal 1000 ∧
    ∃ blob, serialize exExt exSignal [] 0 = .ok (true, blob) ∧ blob.length ≤ 1000 ∧ placeOf exSignal 0 0 0 0 = 66 ∧
    placeOf exSignal 0 1 0 0 = 102 ∧
    let blob' := ((((blob.set 66 1).set 67 2).set 68 3).set 69 0x7f).set 105 0x7f
    blob'.length = blob.length ∧ blob' ≠ blob ∧ floatAt blob' 66 = 0x7f030201 ∧
    ∀ t, (∀ n q i j, HasPlace exSignal.decs n q i j → t < placeOf exSignal n q i j ∨ placeOf exSignal n q i j + 4 ≤ t) →
      blob'[t]? = blob[t]? := by
  have h0 : placeOf exSignal 0 0 0 0 = 66 := by decide
  have h1 : placeOf exSignal 0 1 0 0 = 102 := by decide
  refine ⟨exSignal_ok.1, exSignal_ok.2.1, exSignal_ok.2.2.2.2, exSignal_ok.2.2.2.1, _, rfl, by decide +kernel, h0, h1, ?_⟩
  refine ⟨by simp, by decide +kernel, by decide +kernel, fun t ht => ?_⟩
  have a := ht 0 0 0 0 ⟨_, _, rfl, rfl, by decide, by decide⟩
  have b := ht 0 1 0 0 ⟨_, _, rfl, rfl, by decide, by decide⟩
  rw [h0] at a
  rw [h1] at b
  rw [List.getElem?_set_ne (by omega), List.getElem?_set_ne (by omega), List.getElem?_set_ne (by omega), List.getElem?_set_ne (by omega),
    List.getElem?_set_ne (by omega)]

end WB.Props
