import Verif.Proof.SfTable

/-! Reading one symbol with a code table of the version-2 compressor. -/

namespace WB.Sf

open WB.Spec

/-- A canonical code by index. -/
structure Canon (m : ℕ) (len last off : ℕ → ℕ) : Prop where
  len31 : ∀ t < m, len t ≤ 31
  fits : ∀ t < m, off t + last t + 1 ≤ 2 ^ len t
  step : ∀ t, t + 1 < m → len t < len (t + 1) ∧ last t < last (t + 1) ∧
    off (t + 1) + last t + 1 = (off t + last t + 1) * 2 ^ (len (t + 1) - len t)
  first : off 0 = 0

/-- The entry at index `t`. -/
def entryAt (es : List Entry) (t : ℕ) : Entry := es.getD t ⟨0, 0, 0, 0⟩

theorem good_end {exp : Bool} {free : ℚ} {d : ℕ} {lc lp : ℤ} {e : Entry} {es : List Entry} (h : Good exp free d lc lp (e :: es)) :
    (e.offset : ℚ) + e.last + 1 = (1 - (free - ((e.last : ℚ) - lc) / 2 ^ e.len)) * 2 ^ e.len := by
  obtain ⟨-, -, -, -, -, -, h7, -⟩ := h
  rw [h7]
  field_simp
  ring

theorem good_index {exp : Bool} (es : List Entry) : ∀ {free : ℚ} {d : ℕ} {lc lp : ℤ}, Good exp free d lc lp es → ∀ t,
    (t < es.length → (entryAt es t).len ≤ 31 ∧ (entryAt es t).offset + (entryAt es t).last + 1 ≤ 2 ^ (entryAt es t).len) ∧
    (t + 1 < es.length → (entryAt es t).len < (entryAt es (t + 1)).len ∧ (entryAt es t).last < (entryAt es (t + 1)).last ∧
      (entryAt es (t + 1)).offset + (entryAt es t).last + 1 =
        ((entryAt es t).offset + (entryAt es t).last + 1) * 2 ^ ((entryAt es (t + 1)).len - (entryAt es t).len)) := by
  induction es with
  | nil => intro free d lc lp _ t; simp
  | cons e es ih =>
    intro free d lc lp h t
    cases t with
    | succ t =>
      obtain ⟨i1, i2⟩ := ih h.2.2.2.2.2.2.2 t
      refine ⟨fun ht => ?_, fun ht => ?_⟩
      · exact i1 (by simpa using ht)
      · exact i2 (by simpa using ht)
    | zero =>
      have hend := good_end h
      obtain ⟨g1, g2, g3, g4, g5, g6, g7, g8⟩ := h
      have hp2 : (0 : ℚ) < 2 ^ e.len := by positivity
      refine ⟨fun _ => ⟨g2, ?_⟩, fun ht => ?_⟩
      · have h1 : ((e.offset + e.last + 1 : ℕ) : ℚ) ≤ ((2 ^ e.len : ℕ) : ℚ) := by
          push_cast
          rw [hend]
          have := g8.nonneg
          nlinarith
        exact_mod_cast h1
      · cases es with
        | nil => simp at ht
        | cons e2 es =>
          obtain ⟨k1, k2, k3, k4, k5, k6, k7, k8⟩ := g8
          show e.len < e2.len ∧ e.last < e2.last ∧ e2.offset + e.last + 1 = (e.offset + e.last + 1) * 2 ^ (e2.len - e.len)
          refine ⟨by omega, by exact_mod_cast k6, ?_⟩
          have : ((e2.offset + e.last + 1 : ℕ) : ℚ) = (((e.offset + e.last + 1) * 2 ^ (e2.len - e.len) : ℕ) : ℚ) := by
            push_cast
            rw [hend, k7, mul_assoc, ← pow_add, show e.len + (e2.len - e.len) = e2.len by omega]
            push_cast
            ring
          exact_mod_cast this

theorem good_canon {exp : Bool} {es : List Entry} {d : ℕ} (h : Good exp 1 d (-1) (-1) es) :
    Canon es.length (fun t => (entryAt es t).len) (fun t => (entryAt es t).last) (fun t => (entryAt es t).offset) := by
  refine ⟨fun t ht => ((good_index es h t).1 ht).1, fun t ht => ((good_index es h t).1 ht).2,
    fun t ht => (good_index es h t).2 ht, ?_⟩
  cases es with
  | nil => rfl
  | cons e es =>
    obtain ⟨-, -, -, -, -, -, h7, -⟩ := h
    have : (e.offset : ℚ) = 0 := by rw [h7]; push_cast; ring
    show e.offset = 0
    exact_mod_cast this

theorem Canon.last_mono {m : ℕ} {len last off : ℕ → ℕ} (h : Canon m len last off) {i j : ℕ} (hij : i ≤ j) (hj : j < m) :
    last i ≤ last j := by
  induction j with
  | zero => rw [Nat.le_zero.1 hij]
  | succ j ih =>
    rcases Nat.lt_or_ge i (j + 1) with h1 | h1
    · exact (ih (by omega) (by omega)).trans (h.step j hj).2.1.le
    · rw [show i = j + 1 by omega]

theorem Canon.len_mono {m : ℕ} {len last off : ℕ → ℕ} (h : Canon m len last off) {i j : ℕ} (hij : i ≤ j) (hj : j < m) :
    len i ≤ len j := by
  induction j with
  | zero => rw [Nat.le_zero.1 hij]
  | succ j ih =>
    rcases Nat.lt_or_ge i (j + 1) with h1 | h1
    · exact (ih (by omega) (by omega)).trans (h.step j hj).1.le
    · rw [show i = j + 1 by omega]

/-- A code word of length `len T` is beyond all shorter words at every shorter length. -/
theorem Canon.prefix_beyond {m : ℕ} {len last off : ℕ → ℕ} (h : Canon m len last off) {T x : ℕ} (hT : T < m)
    (hx : T = 0 ∨ last (T - 1) < x) (k : ℕ) : ∀ t, t + k + 1 = T → off t + last t < (x + off T) / 2 ^ (len T - len t) := by
  induction k with
  | zero =>
    intro t ht
    obtain ⟨s1, s2, s3⟩ := h.step t (by omega)
    rw [show t + 1 = T by omega] at s1 s2 s3
    have hx' : last t < x := by
      rcases hx with hx | hx
      · omega
      · rwa [show T - 1 = t by omega] at hx
    rw [Nat.lt_iff_add_one_le, Nat.le_div_iff_mul_le (by positivity), ← s3]
    omega
  | succ k ih =>
    intro t ht
    have i := ih (t + 1) (by omega)
    obtain ⟨s1, s2, s3⟩ := h.step t (by omega)
    have hl := h.len_mono (show t + 1 ≤ T by omega) hT
    have e : len T - len t = (len T - len (t + 1)) + (len (t + 1) - len t) := by omega
    rw [e, pow_add, ← Nat.div_div_eq_div_mul, Nat.lt_iff_add_one_le, Nat.le_div_iff_mul_le (by positivity), ← s3]
    omega

theorem Canon.word_lt {m : ℕ} {len last off : ℕ → ℕ} (h : Canon m len last off) {T x : ℕ} (hT : T < m) (hx : x ≤ last T) :
    x + off T < 2 ^ len T := by
  have := h.fits T hT
  omega

theorem pow_le_31 {k : ℕ} (h : k ≤ 31) : 2 ^ k ≤ 2147483648 := by
  have : 2 ^ k ≤ 2 ^ 31 := Nat.pow_le_pow_right (by norm_num) h
  simpa using this

theorem bitsOf_split (a b n : ℕ) : bitsOf (a + b) n = bitsOf a (n / 2 ^ b) ++ bitsOf b (n % 2 ^ b) := by
  rw [bitsOf_append, bitsOf_mod]

theorem div_two_pow_mod {a k l : ℕ} : a / 2 ^ k % 2 ^ l + a / 2 ^ (k + l) * 2 ^ l = a / 2 ^ k := by
  rw [pow_add, ← Nat.div_div_eq_div_mul]
  have := Nat.mod_add_div (a / 2 ^ k) (2 ^ l)
  rw [mul_comm (2 ^ l)] at this
  exact this

/-- The loop over the longer words finds the symbol. -/
theorem symLoop_reads {tab : Table} {m : ℕ} (h : Canon m tab.len tab.last tab.offset) {T x : ℕ} (hT : T < m)
    (hx1 : T = 0 ∨ tab.last (T - 1) < x) (hx2 : x ≤ tab.last T) (k : ℕ) :
    ∀ t j, 1 ≤ t → t + k = T → k < j →
      Reads (symLoop tab j t ((x + tab.offset T) / 2 ^ (tab.len T - tab.len (t - 1))))
        (bitsOf (tab.len T - tab.len (t - 1)) (x + tab.offset T)) x := by
  have hw := h.word_lt hT hx2
  have h31 := h.len31 T hT
  have hmax := pow_le_31 h31
  induction k with
  | zero =>
    intro t j ht htk hj
    obtain ⟨j, rfl⟩ := Nat.exists_eq_succ_of_ne_zero (show j ≠ 0 by omega)
    have : t = T := by omega
    subst this
    obtain ⟨s1, -, -⟩ := h.step (t - 1) (by omega)
    rw [show t - 1 + 1 = t by omega] at s1
    unfold symLoop
    have hpush : u8 (tab.len t + 256 - tab.len (t - 1)) = tab.len t - tab.len (t - 1) := by unfold u8; omega
    simp only [hpush]
    rw [if_neg (by omega), ← bitsOf_mod, ← List.append_nil (bitsOf _ _)]
    refine Reads.bind (fromBits_reads (by omega) (Nat.mod_lt _ (by positivity))) ?_
    have hv : u32 ((x + tab.offset t) / 2 ^ (tab.len t - tab.len (t - 1)) * 2 ^ (tab.len t - tab.len (t - 1)) +
        (x + tab.offset t) % 2 ^ (tab.len t - tab.len (t - 1))) = x + tab.offset t := by
      rw [Nat.div_add_mod', u32_eq (by omega)]
    have hf := h.fits t hT
    rw [hv, u32_eq (show tab.last t + tab.offset t < 4294967296 by omega), if_pos (by omega), sub32_eq (by omega) (by omega),
      Nat.add_sub_cancel]
    exact Reads.pure x
  | succ k ih =>
    intro t j ht htk hj
    obtain ⟨j, rfl⟩ := Nat.exists_eq_succ_of_ne_zero (show j ≠ 0 by omega)
    obtain ⟨s1, -, -⟩ := h.step (t - 1) (by omega)
    rw [show t - 1 + 1 = t by omega] at s1
    have hl := h.len_mono (show t ≤ T by omega) hT
    have hb := h.prefix_beyond hT hx1 k t (by omega)
    unfold symLoop
    have hpush : u8 (tab.len t + 256 - tab.len (t - 1)) = tab.len t - tab.len (t - 1) := by unfold u8; omega
    simp only [hpush]
    rw [if_neg (by omega)]
    have e : tab.len T - tab.len (t - 1) = (tab.len t - tab.len (t - 1)) + (tab.len T - tab.len t) := by omega
    have e' : tab.len T - tab.len (t - 1) = (tab.len T - tab.len t) + (tab.len t - tab.len (t - 1)) := by omega
    have hbits : bitsOf (tab.len T - tab.len (t - 1)) (x + tab.offset T) =
        bitsOf (tab.len t - tab.len (t - 1)) ((x + tab.offset T) / 2 ^ (tab.len T - tab.len t) % 2 ^ (tab.len t - tab.len (t - 1))) ++
        bitsOf (tab.len T - tab.len t) (x + tab.offset T) := by
      rw [e, bitsOf_append, bitsOf_mod]
    rw [hbits]
    refine Reads.bind (fromBits_reads (by omega) (Nat.mod_lt _ (by positivity))) ?_
    have hle : (x + tab.offset T) / 2 ^ (tab.len T - tab.len t) ≤ x + tab.offset T := Nat.div_le_self _ _
    have hv : u32 ((x + tab.offset T) / 2 ^ (tab.len T - tab.len (t - 1)) * 2 ^ (tab.len t - tab.len (t - 1)) +
        (x + tab.offset T) / 2 ^ (tab.len T - tab.len t) % 2 ^ (tab.len t - tab.len (t - 1))) =
        (x + tab.offset T) / 2 ^ (tab.len T - tab.len t) := by
      rw [e', add_comm ((x + tab.offset T) / _ * _), div_two_pow_mod, u32_eq (by omega)]
    have hf := h.fits t (by omega)
    have hmax' := pow_le_31 (h.len31 t (by omega))
    rw [hv, u32_eq (show tab.last t + tab.offset t < 4294967296 by omega), if_neg (by omega)]
    have := ih (t + 1) j (by omega) (by omega) (by omega)
    simpa using this

/-- Every symbol up to the last one is read back. -/
theorem readSym_reads {tab : Table} {m : ℕ} (h : Canon m tab.len tab.last tab.offset) (hm : tab.count = m) {T x : ℕ} (hT : T < m)
    (hx1 : T = 0 ∨ tab.last (T - 1) < x) (hx2 : x ≤ tab.last T) :
    Reads (readSym tab) (bitsOf (tab.len T) (x + tab.offset T)) x := by
  have hw := h.word_lt hT hx2
  have h31 := h.len31 T hT
  have hl := h.len_mono (show 0 ≤ T by omega) hT
  unfold readSym
  have e : tab.len T = tab.len 0 + (tab.len T - tab.len 0) := by omega
  have hbits : bitsOf (tab.len T) (x + tab.offset T) =
      bitsOf (tab.len 0) ((x + tab.offset T) / 2 ^ (tab.len T - tab.len 0)) ++ bitsOf (tab.len T - tab.len 0) (x + tab.offset T) := by
    conv_lhs => rw [e]
    rw [bitsOf_append]
  rw [hbits]
  have hlt : (x + tab.offset T) / 2 ^ (tab.len T - tab.len 0) < 2 ^ tab.len 0 := by
    rw [Nat.div_lt_iff_lt_mul (by positivity), ← pow_add, ← e]
    exact hw
  refine Reads.bind (fromBits_reads (by omega) hlt) ?_
  by_cases h0 : T = 0
  · subst h0
    simp only [Nat.sub_self, pow_zero, Nat.div_one, h.first, Nat.add_zero, bitsOf_none]
    rw [if_pos hx2]
    exact Reads.pure x
  · have hb := h.prefix_beyond hT hx1 (T - 1) 0 (by omega)
    rw [h.first, Nat.zero_add] at hb
    rw [if_neg (by omega), hm]
    exact symLoop_reads h hT hx1 hx2 (T - 1) 1 (m - 1) (by omega) (by omega) (by omega)

theorem Holds.at {tab : Table} {es : List Entry} : ∀ {s : ℕ}, Holds tab s es → ∀ t < es.length,
    tab.len (s + t) = (entryAt es t).len ∧ tab.last (s + t) = (entryAt es t).last ∧ tab.offset (s + t) = (entryAt es t).offset := by
  induction es with
  | nil => intro s _ t ht; simp at ht
  | cons e es ih =>
    intro s h t ht
    cases t with
    | zero => exact ⟨h.1, h.2.1, h.2.2.1⟩
    | succ t =>
      have := ih h.2.2.2 t (by simpa using ht)
      rw [show s + (t + 1) = s + 1 + t by omega]
      exact this

theorem selBits_pow {v m : ℕ} (hm : m < 32) : selBits v (2 ^ m) = bitsOf m v := by
  have hlog : findLog (2 ^ m) = m := by
    refine findLog_eq hm ?_ (le_refl _)
    rcases Nat.eq_zero_or_pos m with h | h
    · exact Or.inl h
    · exact Or.inr (Nat.pow_lt_pow_right (by norm_num) (by omega))
  unfold selBits
  rw [seven_full hlog (by rw [mampf_eq Nat.one_le_two_pow hm (le_refl _)]; omega)]

/-- The field written for a symbol is read back with the table. -/
theorem symField_reads {exp : Bool} {es : List Entry} {d : ℕ} (hg : Good exp 1 d (-1) (-1) es) (hne : es ≠ []) (h64 : es.length ≤ 64)
    {tab : Table} (hh : Holds tab 0 es) (hc : tab.count = es.length) {x : ℕ} (hx : x ≤ (entryAt es (es.length - 1)).last) :
    ∃ v m, symField es x = .ok (v, 2 ^ m) ∧ m < 32 ∧ v < 2 ^ m ∧ Reads (readSym tab) (selBits v (2 ^ m)) x := by
  have hcan := good_canon hg
  have hpos : 1 ≤ es.length := List.length_pos_iff.2 hne
  have htab : Canon es.length tab.len tab.last tab.offset := by
    have hat := fun t ht => hh.at (s := 0) t ht
    simp only [Nat.zero_add] at hat
    refine ⟨fun t ht => ?_, fun t ht => ?_, fun t ht => ?_, ?_⟩
    · rw [(hat t ht).1]; exact hcan.len31 t ht
    · rw [(hat t ht).1, (hat t ht).2.1, (hat t ht).2.2]; exact hcan.fits t ht
    · rw [(hat t (by omega)).1, (hat t (by omega)).2.1, (hat t (by omega)).2.2, (hat _ ht).1, (hat _ ht).2.1, (hat _ ht).2.2]
      exact hcan.step t ht
    · rw [(hat 0 hpos).2.2]; exact hcan.first
  set last : ℕ → ℕ := fun t => (es.getD t ⟨0, 0, 0, 0⟩).last with hlast
  obtain ⟨f1, f2, f3⟩ := findPool_spec (last := last) hpos h64 (fun i j hij hj => hcan.last_mono hij hj) x
  set T := findPool es.length last x with hT
  have hatT := hh.at (s := 0) T f1
  rw [Nat.zero_add] at hatT
  have hx2 : x ≤ tab.last T := by
    rw [hatT.2.1]
    rcases f3 with f3 | f3
    · rwa [show T = es.length - 1 by omega]
    · exact f3
  have hx1 : T = 0 ∨ tab.last (T - 1) < x := by
    rcases Nat.eq_zero_or_pos T with h | h
    · exact Or.inl h
    · have hat' := hh.at (s := 0) (T - 1) (by omega)
      rw [Nat.zero_add] at hat'
      right
      rw [hat'.2.1]
      exact f2 (T - 1) (by omega)
  have hr := readSym_reads htab hc f1 hx1 hx2
  have hw := htab.word_lt f1 hx2
  have h31 := htab.len31 T f1
  have hmax := pow_le_31 h31
  refine ⟨x + tab.offset T, tab.len T, ?_, by omega, hw, ?_⟩
  · unfold symField
    have hrd : rd es T = .ok (entryAt es T) := by
      unfold rd entryAt
      rw [List.getElem?_eq_getElem f1, List.getD_eq_getElem _ _ f1]
    rw [hrd]
    show (pow2 (entryAt es T).len >>= fun n => pure (u32 (x + (entryAt es T).offset), n)) = _
    rw [← hatT.1, ← hatT.2.2, show pow2 (tab.len T) = .ok (2 ^ tab.len T) by unfold pow2; rw [if_pos (by omega)]]
    show Outcome.ok _ = _
    rw [u32_eq (by omega)]
  · rw [selBits_pow (by omega)]
    exact hr

end WB.Sf
