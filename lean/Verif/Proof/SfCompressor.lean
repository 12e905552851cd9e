import Verif.Proof.SfDecode
import Verif.Spec.Code

/-! Compress followed by Decompress. -/

namespace WB.Sf

open WB.Spec

/-! ### Pools in use -/

theorem topUsed_spec (q : ℕ → ℕ) (c : ℕ) : topUsed q c ≤ c ∧ (∀ t < c, 0 < q t → t < topUsed q c) := by
  induction c with
  | zero => exact ⟨le_refl _, by simp⟩
  | succ c ih =>
    unfold topUsed
    split
    · exact ⟨le_refl _, fun t ht _ => ht⟩
    next h =>
      refine ⟨by omega, fun t ht hq => ih.2 t ?_ hq⟩
      by_contra hc
      have : t = c := by omega
      subst this
      exact h hq

theorem poolsUsed_spec (exp : Bool) (slots : List Slot) (hne : slots ≠ []) :
    1 ≤ poolsUsed exp slots ∧ poolsUsed exp slots ≤ baseCount exp ∧
    ∀ s ∈ slots, s.sym exp ≤ srcLast exp (baseCount exp - 1) → s.sym exp ≤ srcLast exp (poolsUsed exp slots - 1) := by
  obtain ⟨h1, h2⟩ := topUsed_spec (dsQty exp slots) (baseCount exp)
  have hlt : ∀ s ∈ slots, findSrc exp (s.sym exp) < poolsUsed exp slots := by
    intro s hs
    refine h2 _ (findSrc_spec exp _).1 ?_
    unfold dsQty
    exact List.length_pos_iff.2 (List.ne_nil_of_mem (List.mem_filter.2 ⟨hs, by simp⟩))
  obtain ⟨s, hs⟩ := List.exists_mem_of_ne_nil slots hne
  have := hlt s hs
  refine ⟨by omega, h1, ?_⟩
  intro s hs hmax
  obtain ⟨a, -, c⟩ := findSrc_spec exp (s.sym exp)
  have hle : s.sym exp ≤ srcLast exp (findSrc exp (s.sym exp)) := by
    rcases c with c | c
    · rwa [show findSrc exp (s.sym exp) = baseCount exp - 1 by omega]
    · exact c
  refine hle.trans (srcLast_le exp ?_ ?_)
  · have := hlt s hs; omega
  · have := hlt s hs
    unfold poolsUsed at *
    omega

/-! ### Writing -/

theorem putCodes {code : ℕ → ℕ → ℕ × ℕ} (cap : ℕ) (fs : List (ℕ × ℕ))
    (hsel : ∀ f ∈ fs, (code f.1 f.2).1 < 32 ∧ (code f.1 f.2).2 < 2 ^ (code f.1 f.2).1) (hroom : 4 * fs.length ≤ cap) :
    ∃ s, fs.foldlM (fun s f => putBits cap s (code f.1 f.2).1 (code f.1 f.2).2) ⟨[], 0⟩ = .ok s ∧
      byteBits s.rev.reverse = (fs.flatMap fun f => bitsOf (code f.1 f.2).1 (code f.1 f.2).2) ++ List.replicate s.free false := by
  have hsum : ((fs.map fun f => code f.1 f.2).map Prod.fst).sum ≤ 8 * cap := by
    have : ((fs.map fun f => code f.1 f.2).map Prod.fst).sum ≤ 32 * fs.length := by
      clear hroom
      induction fs with
      | nil => simp
      | cons f fs ih =>
        have h1 := (hsel f (by simp)).1
        have := ih (fun g hg => hsel g (by simp [hg]))
        simp only [List.map_cons, List.sum_cons, List.length_cons]
        omega
    omega
  obtain ⟨s, h1, h2, h3⟩ := putAll (cap := cap) (fs.map fun f => code f.1 f.2) (s := ⟨[], 0⟩) (L := []) ⟨rfl, rfl⟩ (by simp)
    (by
      intro g hg
      obtain ⟨f, hf', rfl⟩ := List.mem_map.1 hg
      exact ⟨(hsel f hf').1.le, (hsel f hf').2⟩) (by simpa using hsum)
  refine ⟨s, ?_, ?_⟩
  · rw [List.foldlM_map] at h1
    exact h1
  · have := h2.byteBits
    rw [List.nil_append, List.flatMap_map] at this
    exact this

theorem put_fields (cap : ℕ) (fs : List (ℕ × ℕ)) (hf : ∀ f ∈ fs, f.1 < f.2 ∧ f.2 ≤ 2 ^ 31) (hroom : 4 * fs.length ≤ cap) :
    ∃ s, fs.foldlM (putSel cap) ⟨[], 0⟩ = .ok s ∧ byteBits s.rev.reverse = bitsOfFields fs ++ List.replicate s.free false :=
  putCodes (code := sevenOfNine) cap fs (fun f h => ⟨(selection (hf f h).1 (hf f h).2).1, (selection (hf f h).1 (hf f h).2).2.1⟩) hroom

/-! ### The header -/

theorem sel_reads {v n : ℕ} (h : v < n) (h2 : n ≤ 2 ^ 31) : Reads (nineOfSeven n) (selBits v n) v := (selection h h2).2.2

attribute [local irreducible] nineOfSeven sevenOfNine readValues readPool u32

theorem fragCode_back {L : ℕ} (h7 : 7 ≤ L) (h23 : L ≤ 23) (h22 : L ≠ 22) :
    u8 (u8 (if L < 22 then L - 7 else L - 8) + if 14 < u8 (if L < 22 then L - 7 else L - 8) then 8 else 7) = L := by
  unfold u8
  split_ifs <;> omega

/-- The body of the stream is read back. -/
theorem body_reads {cap row col n rc sgn len2 len3 L : ℕ} {rb : Bool} {f2 f3 fb : List (ℕ × ℕ)} {J Z : Table} {is : List ℕ} {vs : List F32}
    (hrc : rc < 32) (hrow : row < 2 ^ rc) (hcol : col < 2 ^ rc) (hsgn : sgn < 4) (htot : row * col + 1 ≤ 2147483648) (hn : n < row * col + 1)
    (h7 : 7 ≤ L) (h23 : L ≤ 23) (h22 : L ≠ 22) (hl2 : len2 < 8) (hl3 : len3 < 32)
    (hJ : Reads (readPool true len2 Table.fresh) (bitsOfFields f2) J) (hZ : Reads (readPool false len3 Table.fresh) (bitsOfFields f3) Z)
    (hB : Reads (readValues cap J Z sgn L true n 0 4294967295 127) (bitsOfFields fb) (is, vs)) :
    Reads (readBody cap Pools.fresh)
      (bitsOfFields ([(rb.toNat, 2), (rc, 32), (row, 2 ^ rc), (col, 2 ^ rc), (sgn, 4), (n, row * col + 1),
        (if L < 22 then L - 7 else L - 8, 16), (len2, 8), (len3, 32)] ++ f2 ++ f3 ++ fb))
      (⟨L, rb, row, col, is, vs⟩, ⟨J, Z⟩) := by
  have hp : 2 ^ rc ≤ 2 ^ 31 := Nat.pow_le_pow_right (by norm_num) (by omega)
  have hrb : rb.toNat < 2 := by cases rb <;> decide
  have hu8rc : u8 rc = rc := u8_eq (by omega)
  have hu8s : u8 sgn = sgn := u8_eq (by omega)
  have hu82 : u8 len2 = len2 := u8_eq (by omega)
  have hu83 : u8 len3 = len3 := u8_eq (by omega)
  have hu32 : u32 (row * col + 1) = row * col + 1 := u32_eq (by omega)
  have hfc : (if L < 22 then L - 7 else L - 8) < 16 := by split_ifs <;> omega
  have hback := fragCode_back h7 h23 h22
  generalize (if L < 22 then L - 7 else L - 8) = fc at hfc hback ⊢
  simp only [List.cons_append, List.nil_append, bitsOfFields_cons, bitsOfFields_append]
  unfold readBody
  rw [show selBits rb.toNat 2 = bitsOf 1 rb.toNat from selBits_pow (m := 1) (by omega)]
  refine Reads.bind (fromBits_reads (by omega) hrb) ?_
  refine Reads.bind (sel_reads (by omega) (by norm_num)) ?_
  rw [hu8rc, show pow2 rc = .ok (2 ^ rc) by unfold pow2; rw [if_pos hrc], ← List.nil_append (selBits row _ ++ _)]
  refine Reads.bind (Reads.lift _) ?_
  refine Reads.bind (sel_reads hrow hp) ?_
  refine Reads.bind (sel_reads hcol hp) ?_
  refine Reads.bind (sel_reads hsgn (by norm_num)) ?_
  simp only [hu32]
  refine Reads.bind (sel_reads hn (by norm_num; omega)) ?_
  refine Reads.bind (sel_reads hfc (by norm_num)) ?_
  refine Reads.bind (sel_reads hl2 (by norm_num)) ?_
  rw [if_neg (by omega)]
  refine Reads.bind (sel_reads hl3 (by norm_num)) ?_
  rw [hu82, hu83, hu8s, hback, List.append_assoc]
  refine Reads.bind hJ ?_
  refine Reads.bind hZ ?_
  rw [← List.append_nil (bitsOfFields fb)]
  refine Reads.bind hB ?_
  have : decide (rb.toNat ≠ 0) = rb := by cases rb <;> rfl
  rw [this]
  exact Reads.pure _

/-! ### The whole stream -/

theorem codeQty_eq (exp : Bool) {t : ℕ} (h : t < baseCount exp) : (codeQty exp t : ℚ) = (border exp (t + 1) : ℚ) - border exp t := by
  cases t with
  | zero => cases exp <;> simp [codeQty, border, srcLast, baseCount, lastBase]
  | succ t =>
    have h1 : srcLast exp t < srcLast exp (t + 1) := srcLast_strict exp (Nat.lt_succ_self t) h
    have h2 := srcLast_max exp h
    unfold codeQty
    rw [if_neg (by omega), Nat.add_sub_cancel, sub32_eq (by omega) h1.le, Nat.cast_sub h1.le]
    simp [border]

theorem taken_sum (exp : Bool) (lens : ℕ → ℕ) (k : ℕ) (h : k ≤ baseCount exp) :
    taken exp lens k 0 = ∑ t ∈ Finset.range k, (codeQty exp t : ℚ) / 2 ^ lens t := by
  induction k with
  | zero => simp [taken]
  | succ k ih =>
    rw [taken_last, Finset.sum_range_succ, ih (by omega), codeQty_eq exp (by omega), Nat.zero_add]

theorem rising_of_pairwise : ∀ (is : List ℕ) (vs : List F32) (prev : Option ℕ), is.Pairwise (· < ·) → (∀ i ∈ is, i < 2147483648) →
    (∀ p, prev = some p → ∀ i ∈ is, p < i) → Rising prev (is.zip vs)
  | [], _, _, _, _, _ => trivial
  | _ :: _, [], _, _, _, _ => trivial
  | i :: is, v :: vs, prev, h, hb, hp => by
    rw [List.pairwise_cons] at h
    exact ⟨fun p e => hp p e i (by simp), hb i (by simp), rising_of_pairwise is vs (some i) h.2 (fun j hj => hb j (by simp [hj]))
      (fun p e j hj => by cases e; exact h.1 j hj)⟩

theorem length_le_of_pairwise {is : List ℕ} {N : ℕ} (h : is.Pairwise (· < ·)) (hb : ∀ i ∈ is, i < N) : is.length ≤ N := by
  have hn : is.Nodup := h.imp (fun hab => Nat.ne_of_lt hab)
  have hs : is ⊆ List.range N := fun i hi => List.mem_range.2 (hb i hi)
  simpa using (hn.subperm hs).length_le

theorem findLog_size {m : ℕ} (h1 : m + 1 ≤ 2147483648) : findLog (m + 1) < 32 ∧ m < 2 ^ findLog (m + 1) ∧ (0 < m → 0 < findLog (m + 1)) := by
  obtain ⟨b, hb, hlo, hhi⟩ := exists_log (n := m + 1) (by norm_num; omega)
  rw [findLog_eq hb hlo hhi]
  refine ⟨hb, by omega, fun hm => ?_⟩
  rcases Nat.eq_zero_or_pos b with h | h
  · subst h; omega
  · exact h

/-- The slots of an input. -/
def inputSlots (o : Origin) : List Slot := slotsOf o.frag none 127 (o.indexes.zip o.values)

theorem fields_read {cap : ℕ} {o : Origin} {jumps zeros : List Entry} {l2 l3 : ℕ} (h7 : 7 ≤ o.frag) (h23 : o.frag ≤ 23) (h22 : o.frag ≠ 22)
    (hlen : o.indexes.length = o.values.length) (hne : o.indexes ≠ []) (hinc : o.indexes.Pairwise (· < ·))
    (hlt : ∀ i ∈ o.indexes, i < o.rows * o.cols) (hsz : o.rows * o.cols < 2147483648) (hfin : ∀ x ∈ o.values, RoundsFinite o.frag x)
    (hcap : o.indexes.length ≤ cap)
    (hJ : Good true 1 l2 (-1) (-1) jumps) (hJn : jumps ≠ []) (hJh : (jumps.headD ⟨0, 0, 0, 0⟩).len = l2) (hl2 : l2 < 8)
    (hJl : ∃ e, jumps.getLast? = some e ∧ e.last = srcLast true (poolsUsed true (inputSlots o) - 1))
    (hZ : Good false 1 l3 (-1) (-1) zeros) (hZn : zeros ≠ []) (hZh : (zeros.headD ⟨0, 0, 0, 0⟩).len = l3) (hl3 : l3 < 32)
    (hZl : ∃ e, zeros.getLast? = some e ∧ e.last = srcLast false (poolsUsed false (inputSlots o) - 1)) :
    ∃ fs p, allFields o o.rows o.cols o.indexes.length (inputSlots o) jumps zeros = .ok ((0, 4) :: fs) ∧
      fs.length ≤ 73 + 3 * o.indexes.length ∧ (∀ f ∈ fs, f.1 < f.2 ∧ f.2 ≤ 2 ^ 31) ∧
      Reads (readBody cap Pools.fresh) (bitsOfFields fs)
        (⟨o.frag, o.rowBased, o.rows, o.cols, o.indexes, o.values.map (roundTo o.frag)⟩, p) := by
  have hL : FragOk o.frag := ⟨h7, h23⟩
  set l := o.indexes.zip o.values with hl
  have hfst : l.map Prod.fst = o.indexes := by rw [hl, List.map_fst_zip hlen.le]
  have hsnd : l.map Prod.snd = o.values := by rw [hl, List.map_snd_zip hlen.ge]
  have hll : l.length = o.indexes.length := by rw [hl, List.length_zip, hlen]; simp
  have hn := length_le_of_pairwise hinc hlt
  have hpos : 0 < o.indexes.length := List.length_pos_iff.2 hne
  have hrise : Rising none l := rising_of_pairwise _ _ none hinc (fun i hi => (hlt i hi).trans (by omega)) (by simp)
  have hrows : 0 < o.rows := Nat.pos_of_ne_zero (by rintro h; rw [h, Nat.zero_mul] at hn; omega)
  have hcols : 0 < o.cols := Nat.pos_of_ne_zero (by rintro h; rw [h, Nat.mul_zero] at hn; omega)
  have hr1 : o.rows ≤ o.rows * o.cols := Nat.le_mul_of_pos_right _ hcols
  have hc1 : o.cols ≤ o.rows * o.cols := Nat.le_mul_of_pos_left _ hrows
  have hslots : inputSlots o = slotsOf o.frag none 127 l := rfl
  have hsl : (inputSlots o).length = o.indexes.length := by rw [hslots, slotsOf_length, hll]
  have hsne : inputSlots o ≠ [] := List.length_pos_iff.1 (by omega)
  have hbounds := slotsOf_bounds (L := o.frag) l none 127 hrise
  rw [← hslots] at hbounds
  obtain ⟨sg1, sg2, sg3⟩ := signsUsed_spec (inputSlots o) (fun s hs => (hbounds s hs).2.2) hsne
  obtain ⟨f2, J, a1, a2, a3, a4, a5⟩ := pool_ready hJ hJn hJh hJl
  obtain ⟨f3, Z, b1, b2, b3, b4, b5⟩ := pool_ready hZ hZn hZh hZl
  have hsr : ∀ s ∈ inputSlots o, SlotReads zeros jumps Z J s := by
    intro s hs
    have hz := b5 s.zeros ((poolsUsed_spec false _ hsne).2.2 s hs (by
      have := (hbounds s hs).1
      have e : srcLast false (baseCount false - 1) = 2147483648 := by decide +kernel
      show s.zeros ≤ _
      omega))
    have hj := a5 s.jump ((poolsUsed_spec true _ hsne).2.2 s hs (by
      have := (hbounds s hs).2.1
      have e : srcLast true (baseCount true - 1) = 256 := by decide +kernel
      show s.jump ≤ _
      omega))
    refine ⟨hz.1, ?_⟩
    rw [hJh]
    split
    · exact hj.1
    · exact hj.2 (by omega)
  generalize hsgnU : signsUsed (inputSlots o) = sgnU at *
  rw [hslots] at hsr sg3
  obtain ⟨fb, c1, c2, c3, c4⟩ := slots_read (cap := cap) hL l none 127 4294967295 0 hrise (by omega) (Or.inl ⟨rfl, rfl⟩)
    (fun a ha => hfin a.2 (by rw [← hsnd]; exact List.mem_map_of_mem ha)) hsr sg3 (by omega)
  rw [hfst, hll, show (l.map fun a => roundTo o.frag a.2) = o.values.map (roundTo o.frag) by rw [← hsnd, List.map_map]; rfl] at c4
  rw [hll] at c2
  have hmax : max o.rows o.cols + 1 ≤ 2147483648 := by omega
  have hu : u32 (max o.rows o.cols + 1) = max o.rows o.cols + 1 := u32_eq (by omega)
  obtain ⟨d1, d2, d3⟩ := findLog_size hmax
  have d3' := d3 (by omega)
  have hut : u32 (o.rows * o.cols + 1) = o.rows * o.cols + 1 := u32_eq (by omega)
  have hbody := body_reads (rb := o.rowBased) (row := o.rows) (col := o.cols) d1 (show o.rows < _ by omega) (show o.cols < _ by omega)
    (show sgnU < 4 by omega) (by omega) (show o.indexes.length < _ by omega) h7 h23 h22 hl2 hl3 a4 b4 c4
  generalize hrc : findLog (max o.rows o.cols + 1) = rc at *
  have hp31 : 2 ^ rc ≤ 2 ^ 31 := Nat.pow_le_pow_right (by norm_num) (by omega)
  have hrb : o.rowBased.toNat < 2 := by cases o.rowBased <;> decide
  have hfr : (if sgnU = 3 then o.frag + 1 else o.frag) < 32 := by split_ifs <;> omega
  refine ⟨_, _, ?_, ?_, ?_, hbody⟩
  · unfold allFields
    simp only [hu, hut, hrc, hsgnU]
    rw [if_neg (by omega), show pow2 rc = .ok (2 ^ rc) by unfold pow2; rw [if_pos d1], a1, b1,
      show pow2 (if sgnU = 3 then o.frag + 1 else o.frag) = .ok (2 ^ (if sgnU = 3 then o.frag + 1 else o.frag)) by
        unfold pow2; rw [if_pos hfr], decide_eq_true (show o.indexes.length < o.rows * o.cols + 1 by omega), hslots, hJh, hZh,
      if_pos (show o.indexes.length < o.rows * o.cols + 1 by omega)]
    show (slotsFields zeros jumps true _ (slotsOf o.frag none 127 l) >>= _) = _
    rw [c1]
    rfl
  · simp only [List.length_append, List.length_cons, List.length_nil]
    omega
  · have hfc : (if o.frag < 22 then o.frag - 7 else o.frag - 8) < 16 := by split_ifs <;> omega
    generalize (if o.frag < 22 then o.frag - 7 else o.frag - 8) = fc at *
    intro f hf
    simp only [List.append_assoc, List.mem_append, List.mem_cons, List.not_mem_nil, or_false] at hf
    rcases hf with (rfl | rfl | rfl | rfl | rfl | rfl | rfl | rfl | rfl) | hf | hf | hf
    · exact ⟨hrb, by norm_num⟩
    · exact ⟨d1, by norm_num⟩
    · exact ⟨by omega, hp31⟩
    · exact ⟨by omega, hp31⟩
    · exact ⟨by omega, by norm_num⟩
    · exact ⟨by omega, by norm_num; omega⟩
    · exact ⟨hfc, by norm_num⟩
    · exact ⟨hl2, by norm_num⟩
    · exact ⟨hl3, by norm_num⟩
    · exact ⟨(a3 f hf).1, (a3 f hf).2.trans (by norm_num)⟩
    · exact ⟨(b3 f hf).1, (b3 f hf).2.trans (by norm_num)⟩
    · exact c3 f hf

/-! ### A matrix without values -/

theorem selBits_zero {n : ℕ} (hn : 0 < n) (h : n ≤ 2 ^ 31) : ∃ k ≤ 31, selBits 0 n = List.replicate k false := by
  have h1 := (selection hn h).1
  have h2 : (sevenOfNine 0 n).2 = 0 := by
    unfold sevenOfNine
    simp only
    split_ifs <;> first | rfl | omega
  exact ⟨(sevenOfNine 0 n).1, by omega, by rw [selBits, h2, bitsOf_zero]⟩

theorem empty_reads {cap rows cols : ℕ} (rb : Bool) (hpos : 0 < rows * cols) (hsz : rows * cols < 2147483648) :
    ∃ k fs, emptyFields rb rows cols = (0, 4) :: fs ∧ (∀ f ∈ fs, f.1 < f.2 ∧ f.2 ≤ 2 ^ 31) ∧ k ≤ 43 ∧
      Reads (readBody cap Pools.fresh) (bitsOfFields fs ++ List.replicate k false) (⟨7, rb, rows, cols, [], []⟩, .fresh) := by
  have hrows : 0 < rows := Nat.pos_of_mul_pos_right hpos
  have hcols : 0 < cols := Nat.pos_of_mul_pos_left hpos
  have hr1 : rows ≤ rows * cols := Nat.le_mul_of_pos_right _ hcols
  have hc1 : cols ≤ rows * cols := Nat.le_mul_of_pos_left _ hrows
  obtain ⟨d1, d2, -⟩ := findLog_size (m := max rows cols) (by omega)
  have he : emptyFields rb rows cols = (0, 4) :: [(rb.toNat, 2), (findLog (max rows cols + 1), 32),
    (rows, 2 ^ findLog (max rows cols + 1)), (cols, 2 ^ findLog (max rows cols + 1)), (0, 4)] := rfl
  rw [he]
  clear he
  generalize findLog (max rows cols + 1) = rc at d1 d2 ⊢
  have hp : 2 ^ rc ≤ 2 ^ 31 := Nat.pow_le_pow_right (by norm_num) (by omega)
  have hrow : rows < 2 ^ rc := by omega
  have hcol : cols < 2 ^ rc := by omega
  have hrb : rb.toNat < 2 := by cases rb <;> decide
  obtain ⟨k, hk, hk2⟩ := selBits_zero (n := rows * cols + 1) (by omega) (by norm_num; omega)
  have hbody := body_reads (cap := cap) (rb := rb) (n := 0) (sgn := 0) (L := 7) (len2 := 0) (len3 := 0) (f2 := []) (f3 := []) (fb := [])
    (J := Table.fresh) (Z := Table.fresh) (is := []) (vs := []) d1 hrow hcol (by norm_num)
    (by omega) (by omega) (by norm_num) (by norm_num) (by norm_num) (by norm_num) (by norm_num)
    (by unfold readPool; rw [if_pos rfl]; exact Reads.pure _) (by unfold readPool; rw [if_pos rfl]; exact Reads.pure _)
    (by unfold readValues; exact Reads.pure _)
  refine ⟨k + 12, _, rfl, ?_, by omega, ?_⟩
  · intro f hf
    simp only [List.mem_cons, List.not_mem_nil, or_false] at hf
    rcases hf with rfl | rfl | rfl | rfl | rfl
    · exact ⟨hrb, by norm_num⟩
    · exact ⟨d1, by norm_num⟩
    · exact ⟨hrow, hp⟩
    · exact ⟨hcol, hp⟩
    · exact ⟨by norm_num, by norm_num⟩
  · rw [show (if 7 < 22 then 7 - 7 else 7 - 8) = 0 from rfl] at hbody
    simp only [List.append_nil, bitsOfFields_cons, bitsOfFields_nil, hk2] at hbody
    rw [show selBits 0 16 = List.replicate 4 false from (selBits_pow (m := 4) (by omega)).trans (bitsOf_zero 4),
      show selBits 0 8 = List.replicate 3 false from (selBits_pow (m := 3) (by omega)).trans (bitsOf_zero 3),
      show selBits 0 32 = List.replicate 5 false from (selBits_pow (m := 5) (by omega)).trans (bitsOf_zero 5)] at hbody
    rw [List.replicate_append_replicate, List.replicate_append_replicate, List.replicate_append_replicate] at hbody
    simp only [bitsOfFields_cons, bitsOfFields_nil, List.append_nil, List.append_assoc]
    exact hbody

theorem byteBits_zeros (n : ℕ) : byteBits (List.replicate n 0) = List.replicate (8 * n) false := by
  induction n with
  | zero => rfl
  | succ n ih =>
    rw [List.replicate_succ, byteBits_cons, ih, show (0 : UInt8).toNat = 0 from rfl, bitsOf_zero, List.replicate_append_replicate]
    congr 1
    omega

end WB.Sf
