import Verif.Proof.SfSymbol
import Verif.Spec.Bf
import Mathlib.Tactic.IntervalCases

/-! The values of the version-2 compressor. -/

namespace WB.Sf

open WB.Spec

/-- The fraction lengths that `Compress` accepts. -/
def FragOk (L : ℕ) : Prop := 7 ≤ L ∧ L ≤ 23

/-- Exponent and fraction after rounding. -/
def mant (L z : ℕ) : ℕ := (z % 2147483648 + 2 ^ (23 - L) / 2) / 2 ^ (23 - L)

theorem toBF_eq {L : ℕ} (hL : FragOk L) {x : F32} (h0 : F32.isZero x = false) (hx : expBits x < 255) :
    toBF L x = .ok ⟨mant L x.toNat / 2 ^ L, x.toNat / 2147483648, mant L x.toNat % 2 ^ L + x.toNat / 2147483648 * 2 ^ L⟩ := by
  have hz := x.isLt
  unfold expBits at hx
  unfold toBF mant u32
  rw [if_neg (by simp [h0])]
  generalize x.toNat = z at *
  obtain ⟨h7, h23⟩ := hL
  interval_cases L <;> norm_num at hx hz ⊢ <;> (try split_ifs) <;> (try simp only [Outcome.ok.injEq, BF.mk.injEq, true_and]) <;> omega

theorem mant_lt {L : ℕ} (hL : FragOk L) {x : F32} (hx : RoundsFinite L x) : mant L x.toNat / 2 ^ L < 255 := by
  have hz := x.isLt
  obtain ⟨h1, h2⟩ := hx
  unfold expBits at h1
  unfold roundBits at h2
  unfold mant
  generalize x.toNat = z at *
  obtain ⟨h7, h23⟩ := hL
  interval_cases L <;> norm_num at h1 h2 hz ⊢ <;> omega

theorem toFloat_eq {L : ℕ} (hL : FragOk L) {x : F32} (hx : RoundsFinite L x) :
    toFloat (decide (x.toNat / 2147483648 = 1)) L (mant L x.toNat / 2 ^ L) (mant L x.toNat % 2 ^ L) = .ok (roundTo L x) := by
  have h3 := mant_lt hL hx
  have hz := x.isLt
  obtain ⟨h1, h2⟩ := hx
  unfold expBits at h1
  have hb : (x.toNat / 2147483648) * 2147483648 + mant L x.toNat / 2 ^ L * 8388608 + mant L x.toNat % 2 ^ L * 2 ^ (23 - L) =
      roundBits L x := by
    unfold roundBits mant
    generalize x.toNat = z at *
    obtain ⟨h7, h23⟩ := hL
    interval_cases L <;> norm_num at h1 hz ⊢ <;> omega
  have hs : x.toNat / 2147483648 = 0 ∨ x.toNat / 2147483648 = 1 := by omega
  have hf : mant L x.toNat % 2 ^ L * 2 ^ (23 - L) < 8388608 := by
    have a : mant L x.toNat % 2 ^ L < 2 ^ L := Nat.mod_lt _ (by positivity)
    have b : 2 ^ L * 2 ^ (23 - L) = 8388608 := by
      rw [← pow_add, show L + (23 - L) = 23 by have := hL.2; omega]; norm_num
    calc _ < 2 ^ L * 2 ^ (23 - L) := Nat.mul_lt_mul_of_pos_right a (by positivity)
      _ = _ := b
  have hexp : roundBits L x / 2 ^ 23 % 256 = mant L x.toNat / 2 ^ L := by
    rw [← hb]
    norm_num
    omega
  have hn : (decide (x.toNat / 2147483648 = 1)).toNat * 2 ^ 31 + mant L x.toNat / 2 ^ L * 2 ^ 23 +
      mant L x.toNat % 2 ^ L * 2 ^ (23 - L) = roundBits L x := by
    rw [← hb]
    norm_num
    rcases hs with hs | hs <;> rw [hs] <;> rfl
  unfold toFloat roundTo
  rw [hexp, hn]
  split
  · rfl
  · rw [if_neg (by omega)]

/-! ### The loop over the values -/

/-- The slot of one value. -/
def slotOf (L : ℕ) (prev : Option ℕ) (last i : ℕ) (x : F32) : Slot :=
  ⟨sub32 i (match prev with | none => 0 | some p => u32 (1 + p)), expJump last (mant L x.toNat / 2 ^ L),
    mant L x.toNat % 2 ^ L + x.toNat / 2147483648 * 2 ^ L, x.toNat / 2147483648⟩

/-- The slots of all values. -/
def slotsOf (L : ℕ) : Option ℕ → ℕ → List (ℕ × F32) → List Slot
  | _, _, [] => []
  | prev, last, (i, x) :: rest => slotOf L prev last i x :: slotsOf L (some i) (mant L x.toNat / 2 ^ L) rest

theorem timeline_eq {L : ℕ} (hL : FragOk L) (l : List (ℕ × F32)) : ∀ (prev : Option ℕ) (last : ℕ),
    (∀ a ∈ l, F32.isZero a.2 = false ∧ expBits a.2 < 255) → timeline L prev last l = .ok (slotsOf L prev last l) := by
  induction l with
  | nil => intro prev last _; rfl
  | cons a l ih =>
    intro prev last h
    obtain ⟨i, x⟩ := a
    obtain ⟨h0, hx⟩ := h (i, x) (by simp)
    unfold timeline slotsOf
    rw [toBF_eq hL h0 hx]
    show (timeline L (some i) (mant L x.toNat / 2 ^ L) l >>= _) = _
    rw [ih _ _ (fun a ha => h a (by simp [ha]))]
    rfl

theorem slotsOf_length (L : ℕ) (l : List (ℕ × F32)) : ∀ (prev : Option ℕ) (last : ℕ), (slotsOf L prev last l).length = l.length := by
  induction l with
  | nil => intro _ _; rfl
  | cons a l ih => intro _ _; simp [slotsOf, ih]

/-- The indexes go up, from the index before on, and stay below 2^31. -/
def Rising : Option ℕ → List (ℕ × F32) → Prop
  | _, [] => True
  | prev, (i, _) :: rest => (∀ p, prev = some p → p < i) ∧ i < 2147483648 ∧ Rising (some i) rest

theorem slotOf_zeros {L : ℕ} {prev : Option ℕ} {last i : ℕ} {x : F32} (h : ∀ p, prev = some p → p < i) (hi : i < 2147483648) :
    (slotOf L prev last i x).zeros = i - (match prev with | none => 0 | some p => 1 + p) := by
  cases prev with
  | none =>
    show sub32 i 0 = i - 0
    exact sub32_eq (by omega) (by omega)
  | some p =>
    have := h p rfl
    show sub32 i (u32 (1 + p)) = i - (1 + p)
    rw [u32_eq (by omega), sub32_eq (by omega) (by omega)]

theorem slotsOf_bounds {L : ℕ} (l : List (ℕ × F32)) : ∀ (prev : Option ℕ) (last : ℕ), Rising prev l →
    ∀ s ∈ slotsOf L prev last l, s.zeros < 2147483648 ∧ s.jump < 256 ∧ s.sgn ≤ 1 := by
  induction l with
  | nil => intro _ _ _ s hs; simp [slotsOf] at hs
  | cons a l ih =>
    obtain ⟨i, x⟩ := a
    intro prev last hr s hs
    obtain ⟨r1, r2, r3⟩ := hr
    rcases List.mem_cons.1 hs with rfl | hs
    · refine ⟨?_, expJump_lt, ?_⟩
      · rw [slotOf_zeros r1 r2]; omega
      · have := x.isLt
        show x.toNat / 2147483648 ≤ 1
        omega
    · exact ih _ _ r3 s hs

/-- The signs that occur. -/
theorem signsUsed_spec (slots : List Slot) (h : ∀ s ∈ slots, s.sgn ≤ 1) (hne : slots ≠ []) :
    1 ≤ signsUsed slots ∧ signsUsed slots ≤ 3 ∧ (signsUsed slots = 3 ∨ ∀ s ∈ slots, s.sgn + 1 = signsUsed slots) := by
  have key : ∀ (l : List Slot) (a : ℕ), a < 4 → (∀ s ∈ l, s.sgn ≤ 1) →
      l.foldl (fun a s => (s.sgn + 1) ||| a) a < 4 ∧ a ||| l.foldl (fun a s => (s.sgn + 1) ||| a) a = l.foldl (fun a s => (s.sgn + 1) ||| a) a ∧
      ∀ s ∈ l, (s.sgn + 1) ||| l.foldl (fun a s => (s.sgn + 1) ||| a) a = l.foldl (fun a s => (s.sgn + 1) ||| a) a := by
    intro l
    induction l with
    | nil => intro a ha _; exact ⟨ha, Nat.or_self a, by simp⟩
    | cons s l ih =>
      intro a ha hl
      have hs := hl s (by simp)
      have hlt : (s.sgn + 1) ||| a < 4 := Nat.or_lt_two_pow (n := 2) (by omega) ha
      obtain ⟨i1, i2, i3⟩ := ih ((s.sgn + 1) ||| a) hlt (fun x hx => hl x (by simp [hx]))
      simp only [List.foldl_cons]
      generalize l.foldl (fun a s => (s.sgn + 1) ||| a) ((s.sgn + 1) ||| a) = r at *
      have hs2 : (s.sgn + 1) ||| r = r := by
        rw [← i2, ← Nat.or_assoc, ← Nat.or_assoc, Nat.or_self]
      refine ⟨i1, ?_, ?_⟩
      · rw [← i2, ← Nat.or_assoc, Nat.or_comm (s.sgn + 1) a, ← Nat.or_assoc, Nat.or_self]
      · intro x hx
        rcases List.mem_cons.1 hx with rfl | hx
        · exact hs2
        · exact i3 x hx
  obtain ⟨k1, k2, k3⟩ := key slots 0 (by omega) h
  change signsUsed slots < 4 at k1
  change ∀ s ∈ slots, (s.sgn + 1) ||| signsUsed slots = signsUsed slots at k3
  generalize signsUsed slots = r at *
  have hfin : ∀ a < 2, ∀ r < 4, (a + 1) ||| r = r → 1 ≤ r ∧ (r = 3 ∨ a + 1 = r) := by decide
  obtain ⟨s, hs⟩ := List.exists_mem_of_ne_nil slots hne
  have h1 := hfin s.sgn (by have := h s hs; omega) r k1 (k3 s hs)
  refine ⟨h1.1, by omega, ?_⟩
  by_cases h3 : r = 3
  · exact Or.inl h3
  · right
    intro x hx
    have := hfin x.sgn (by have := h x hx; omega) r k1 (k3 x hx)
    omega

/-- What the tables must do for a slot. -/
def SlotReads (zeros jumps : List Entry) (Z J : Table) (s : Slot) : Prop :=
  (∃ v m, symField zeros s.zeros = .ok (v, 2 ^ m) ∧ m < 32 ∧ v < 2 ^ m ∧ Reads (readSym Z) (selBits v (2 ^ m)) s.zeros) ∧
  if 0 < (jumps.headD ⟨0, 0, 0, 0⟩).len then
    ∃ v m, symField jumps s.jump = .ok (v, 2 ^ m) ∧ m < 32 ∧ v < 2 ^ m ∧ Reads (readSym J) (selBits v (2 ^ m)) s.jump
  else Reads (readSym J) [] s.jump

/-- The zeros and the jump of a slot. -/
theorem slot_syms {zeros jumps : List Entry} {Z J : Table} {s : Slot} (h : SlotReads zeros jumps Z J s) (fragCodes : ℕ) :
    ∃ fz fj : List (ℕ × ℕ), slotFields zeros jumps true fragCodes s = .ok (fz ++ fj ++ [(s.frag % fragCodes, fragCodes)]) ∧
      fz.length ≤ 1 ∧ fj.length ≤ 1 ∧ (∀ f ∈ fz ++ fj, f.1 < f.2 ∧ f.2 ≤ 2 ^ 31) ∧
      Reads (readSym Z) (bitsOfFields fz) s.zeros ∧ Reads (readSym J) (bitsOfFields fj) s.jump := by
  obtain ⟨⟨v, m, h1, h2, h3, h4⟩, hj⟩ := h
  have hm : 2 ^ m ≤ 2 ^ 31 := Nat.pow_le_pow_right (by norm_num) (by omega)
  unfold slotFields
  rw [show optField true (symField zeros s.zeros) = .ok [(v, 2 ^ m)] by rw [h1]; rfl]
  by_cases h0 : 0 < (jumps.headD ⟨0, 0, 0, 0⟩).len
  · rw [if_pos h0] at hj
    obtain ⟨w, k, j1, j2, j3, j4⟩ := hj
    have hk : 2 ^ k ≤ 2 ^ 31 := Nat.pow_le_pow_right (by norm_num) (by omega)
    refine ⟨[(v, 2 ^ m)], [(w, 2 ^ k)], ?_, by simp, by simp, ?_, by simpa using h4, by simpa using j4⟩
    · rw [decide_eq_true h0, j1]; rfl
    · intro f hf
      simp only [List.cons_append, List.nil_append, List.mem_cons, List.not_mem_nil, or_false] at hf
      rcases hf with rfl | rfl
      · exact ⟨h3, hm⟩
      · exact ⟨j3, hk⟩
  · rw [if_neg h0] at hj
    refine ⟨[(v, 2 ^ m)], [], ?_, by simp, by simp, ?_, by simpa using h4, hj⟩
    · rw [decide_eq_false h0]; rfl
    · intro f hf
      simp only [List.append_nil, List.mem_cons, List.not_mem_nil, or_false] at hf
      rcases hf with rfl
      exact ⟨h3, hm⟩

end WB.Sf
