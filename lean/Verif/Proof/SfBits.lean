import Verif.Model.SfBits
import Verif.Spec.SfBits
import Mathlib.Tactic.Ring
import Mathlib.Tactic.IntervalCases

/-! Lemmas about bit strings, the bit writer and the bit reader. -/

namespace WB.Sf

open WB.Spec

@[simp] theorem bitsOf_length (k n : ℕ) : (bitsOf k n).length = k := by simp [bitsOf]

theorem bitsOf_ext {k a b : ℕ} (h : ∀ i < k, a.testBit i = b.testBit i) : bitsOf k a = bitsOf k b := by
  unfold bitsOf
  apply List.map_congr_left
  intro i hi
  rw [List.mem_range] at hi
  exact h _ (by omega)

theorem bitsOf_mod (k n : ℕ) : bitsOf k (n % 2 ^ k) = bitsOf k n :=
  bitsOf_ext fun i hi => by simp [Nat.testBit_mod_two_pow, hi]

theorem bitsOf_append (a b n : ℕ) : bitsOf (a + b) n = bitsOf a (n / 2 ^ b) ++ bitsOf b n := by
  apply List.ext_getElem
  · simp
  · intro i h1 h2
    simp only [bitsOf_length] at h1
    by_cases hi : i < a
    · rw [List.getElem_append_left (by simpa using hi)]
      simp only [bitsOf, List.getElem_map, List.getElem_range, Nat.testBit_div_two_pow]
      congr 1; omega
    · rw [List.getElem_append_right (by simpa using hi)]
      simp only [bitsOf, List.getElem_map, List.getElem_range, List.length_map, List.length_range]
      congr 1; omega

theorem bitsOf_zero (k : ℕ) : bitsOf k 0 = List.replicate k false := by
  apply List.ext_getElem <;> simp [bitsOf]

@[simp] theorem bitsOf_none (n : ℕ) : bitsOf 0 n = [] := rfl

theorem ofBits_append (a b : List Bool) : ofBits (a ++ b) = ofBits a * 2 ^ b.length + ofBits b := by
  unfold ofBits
  rw [List.foldl_append]
  generalize List.foldl (fun acc (b : Bool) => 2 * acc + b.toNat) 0 a = x
  have : ∀ (l : List Bool) (x y : ℕ), l.foldl (fun acc (b : Bool) => 2 * acc + b.toNat) (x + y) =
      x * 2 ^ l.length + l.foldl (fun acc (b : Bool) => 2 * acc + b.toNat) y := by
    intro l
    induction l with
    | nil => intro x y; simp
    | cons c l ih =>
      intro x y
      simp only [List.foldl_cons, List.length_cons]
      rw [show 2 * (x + y) + c.toNat = 2 * x + (2 * y + c.toNat) by ring, ih, pow_succ]
      ring
  simpa using this b x 0

theorem ofBits_bitsOf (k n : ℕ) : ofBits (bitsOf k n) = n % 2 ^ k := by
  induction k generalizing n with
  | zero => simp [ofBits, Nat.mod_one]
  | succ k ih =>
    rw [bitsOf_append, ofBits_append, ih]
    have : ofBits (bitsOf 1 n) = n % 2 := by
      simp only [ofBits, bitsOf, List.range_one, List.map_cons, List.map_nil, List.foldl_cons, List.foldl_nil]
      rw [Nat.testBit_zero]
      rcases Nat.mod_two_eq_zero_or_one n with h | h <;> simp [h]
    rw [this, bitsOf_length, pow_one, pow_succ, mul_comm (2 ^ k) 2, Nat.mod_mul]
    ring

theorem ofBits_bitsOf_lt {k n : ℕ} (h : n < 2 ^ k) : ofBits (bitsOf k n) = n := by
  rw [ofBits_bitsOf, Nat.mod_eq_of_lt h]

/-- The bits of a byte string. -/
def byteBits (l : Bytes) : List Bool := l.flatMap fun b => bitsOf 8 b.toNat

@[simp] theorem byteBits_nil : byteBits [] = [] := rfl
@[simp] theorem byteBits_cons (b : UInt8) (l : Bytes) : byteBits (b :: l) = bitsOf 8 b.toNat ++ byteBits l := rfl
theorem byteBits_append (a b : Bytes) : byteBits (a ++ b) = byteBits a ++ byteBits b := by simp [byteBits]
theorem byteBits_length (a : Bytes) : (byteBits a).length = 8 * a.length := by
  induction a with
  | nil => rfl
  | cons b a ih => simp [ih]; ring

/-- The writer has written exactly the bits `L`; unused bits of the last byte are zero. -/
def Written (s : BitOut) (L : List Bool) : Prop :=
  match s.rev with
  | [] => s.free = 0 ∧ L = []
  | b :: bs => s.free ≤ 8 ∧ ∃ h, h < 2 ^ (8 - s.free) ∧ b.toNat = h * 2 ^ s.free ∧
      L = byteBits bs.reverse ++ bitsOf (8 - s.free) h

theorem Written.byteBits {s : BitOut} {L : List Bool} (h : Written s L) :
    byteBits s.rev.reverse = L ++ List.replicate s.free false := by
  obtain ⟨rev, free⟩ := s
  cases rev with
  | nil => obtain ⟨h1, h2⟩ := h; simp only at h1; subst h1; subst h2; rfl
  | cons b bs =>
    obtain ⟨hf, n, hn, hb, hL⟩ := h
    simp only at hf hn hb hL
    rw [hL, List.reverse_cons, byteBits_append, byteBits_cons, byteBits_nil, List.append_nil, List.append_assoc]
    congr 1
    have : bitsOf 8 b.toNat = bitsOf ((8 - free) + free) b.toNat := by congr 1; omega
    rw [this, bitsOf_append, hb, Nat.mul_div_cancel _ (by positivity), ← bitsOf_zero]
    congr 1
    rw [← bitsOf_mod free (n * 2 ^ free)]
    simp

/-- Adding `w < 2^free` to the last byte. -/
theorem Written.add {s : BitOut} {L : List Bool} (h : Written s L) (hfree : 0 < s.free) {used v : ℕ} (hu : used ≤ s.free)
    (hv : v < 2 ^ used) :
    Written ⟨s.add (u32 (v * 2 ^ (s.free - used))), s.free - used⟩ (L ++ bitsOf used v) := by
  obtain ⟨rev, free⟩ := s
  cases rev with
  | nil => exact absurd h.1 (by simp only at hfree ⊢; omega)
  | cons b bs =>
    obtain ⟨hf, n, hn, hb, hL⟩ := h
    simp only at hf hn hb hL hfree hu
    have hvm : v * 2 ^ (free - used) < 2 ^ free := by
      calc v * 2 ^ (free - used) < 2 ^ used * 2 ^ (free - used) := Nat.mul_lt_mul_of_pos_right hv (by positivity)
        _ = 2 ^ free := by rw [← pow_add]; congr 1; omega
    have h256 : n * 2 ^ free + v * 2 ^ (free - used) < 256 := by
      calc n * 2 ^ free + v * 2 ^ (free - used) < n * 2 ^ free + 2 ^ free := by omega
        _ = (n + 1) * 2 ^ free := by ring
        _ ≤ 2 ^ (8 - free) * 2 ^ free := Nat.mul_le_mul_right _ (by omega)
        _ = 256 := by rw [← pow_add, show 8 - free + free = 8 by omega]; norm_num
    have hu32 : u32 (v * 2 ^ (free - used)) = v * 2 ^ (free - used) := Nat.mod_eq_of_lt (by omega)
    refine ⟨by simp only; omega, n * 2 ^ used + v, ?_, ?_, ?_⟩
    · simp only
      calc n * 2 ^ used + v < n * 2 ^ used + 2 ^ used := by omega
        _ = (n + 1) * 2 ^ used := by ring
        _ ≤ 2 ^ (8 - free) * 2 ^ used := Nat.mul_le_mul_right _ (by omega)
        _ = 2 ^ (8 - (free - used)) := by rw [← pow_add]; congr 1; omega
    · simp only
      rw [hu32, hb, UInt8.toNat_ofNat', Nat.mod_eq_of_lt (by norm_num; omega), add_mul]
      congr 1
      rw [mul_assoc, ← pow_add]; congr 2; omega
    · simp only
      rw [hL, List.append_assoc]
      congr 1
      rw [show 8 - (free - used) = (8 - free) + used by omega, bitsOf_append]
      congr 1
      · rw [mul_comm, Nat.mul_add_div (by positivity), Nat.div_eq_of_lt hv, add_zero]
      · rw [← bitsOf_mod used (n * 2 ^ used + v), mul_comm, Nat.mul_add_mod, bitsOf_mod]

theorem Written.room {s s' : BitOut} {L : List Bool} {cap : ℕ} (h : Written s L) (hr : s.room cap = .ok s') :
    Written s' L ∧ 0 < s'.free ∧ s'.free ≤ 8 := by
  unfold BitOut.room at hr
  split at hr
  next h0 =>
    split at hr
    · cases hr
      refine ⟨⟨by simp, 0, by simp, by simp, ?_⟩, by simp, by simp⟩
      have := h.byteBits
      rw [h0] at this
      simpa using this.symm
    · cases hr
  next h0 =>
    cases hr
    refine ⟨h, by omega, ?_⟩
    unfold Written at h
    split at h
    · omega
    · exact h.1

theorem putLoop_written {cap : ℕ} (fuel : ℕ) {s s' : BitOut} {L : List Bool} {used out : ℕ} (h : Written s L)
    (hfuel : used ≤ fuel) (ho : out < 2 ^ used) (hp : putLoop cap fuel s used out = .ok s') :
    Written s' (L ++ bitsOf used out) := by
  induction fuel generalizing s used out L with
  | zero =>
    have : used = 0 := by omega
    subst this
    simp only [putLoop] at hp
    cases hp; simpa using h
  | succ fuel ih =>
    simp only [putLoop] at hp
    split at hp
    next h0 => subst h0; cases hp; simpa using h
    next h0 =>
      generalize hr : s.room cap = r at hp
      cases r with
      | ub => simp at hp
      | throw => simp at hp
      | ok t =>
        simp only [Outcome.bind_ok] at hp
        obtain ⟨ht, hf0, hf8⟩ := h.room hr
        split at hp
        next hle => cases hp; exact ht.add hf0 hle ho
        next hgt =>
          split at hp
          · cases hp
          · have hsplit : bitsOf used out = bitsOf t.free (out / 2 ^ (used - t.free)) ++ bitsOf (used - t.free) (out % 2 ^ (used - t.free)) := by
              rw [bitsOf_mod, ← bitsOf_append]; congr 1; omega
            rw [hsplit, ← List.append_assoc]
            have hlt : out / 2 ^ (used - t.free) < 2 ^ t.free := by
              rw [Nat.div_lt_iff_lt_mul (by positivity), ← pow_add]
              rwa [show t.free + (used - t.free) = used by omega]
            have hadd := ht.add hf0 (le_refl _) hlt
            simp only [Nat.sub_self, pow_zero, mul_one] at hadd
            have hu : u32 (out / 2 ^ (used - t.free)) = out / 2 ^ (used - t.free) := by
              apply Nat.mod_eq_of_lt
              calc _ < 2 ^ t.free := hlt
                _ ≤ 2 ^ 8 := Nat.pow_le_pow_right (by norm_num) hf8
                _ < _ := by norm_num
            rw [hu] at hadd
            exact ih hadd (by omega) (Nat.mod_lt _ (by positivity)) hp

theorem putBits_written {cap : ℕ} {s s' : BitOut} {L : List Bool} {used out : ℕ} (h : Written s L)
    (ho : out < 2 ^ used) (hp : putBits cap s used out = .ok s') : Written s' (L ++ bitsOf used out) :=
  putLoop_written used h (le_refl _) ho hp

theorem room_ok {cap : ℕ} {s : BitOut} (h : s.rev.length < cap) : ∃ s', s.room cap = .ok s' ∧
    s'.rev.length ≤ s.rev.length + 1 ∧ (s.free = 0 ∨ s' = s) ∧ (s.free = 0 → s'.free = 8 ∧ s'.rev.length = s.rev.length + 1) := by
  unfold BitOut.room
  by_cases h0 : s.free = 0
  · simp [h0, h]
  · simp [h0]

theorem add_length (s : BitOut) (x : ℕ) : (s.add x).length = s.rev.length := by
  unfold BitOut.add; split <;> simp_all

/-- Writing succeeds when there is room. -/
theorem putLoop_ok {cap : ℕ} (fuel : ℕ) {s : BitOut} {L : List Bool} {used out : ℕ} (h : Written s L) (h32 : used ≤ 32)
    (hfuel : used ≤ fuel) (ho : out < 2 ^ used) (hroom : L.length + used ≤ 8 * cap) :
    ∃ s', putLoop cap fuel s used out = .ok s' := by
  induction fuel generalizing s used out L with
  | zero => exact ⟨_, rfl⟩
  | succ fuel ih =>
    simp only [putLoop]
    split
    · exact ⟨_, rfl⟩
    next h0 =>
      have hlen := congrArg List.length h.byteBits
      rw [byteBits_length, List.length_append, List.length_replicate, List.length_reverse] at hlen
      have : ∃ t, s.room cap = .ok t := by
        unfold BitOut.room
        split
        next hz => rw [if_pos (by omega)]; exact ⟨_, rfl⟩
        · exact ⟨_, rfl⟩
      obtain ⟨t, ht⟩ := this
      obtain ⟨hw, hf0, hf8⟩ := h.room ht
      simp only [ht, Outcome.bind_ok]
      split
      · exact ⟨_, rfl⟩
      next hgt =>
        rw [if_neg (by omega)]
        have hlt : out / 2 ^ (used - t.free) < 2 ^ t.free := by
          rw [Nat.div_lt_iff_lt_mul (by positivity), ← pow_add]
          rwa [show t.free + (used - t.free) = used by omega]
        have hadd := hw.add hf0 (le_refl _) hlt
        simp only [Nat.sub_self, pow_zero, mul_one] at hadd
        have hu : u32 (out / 2 ^ (used - t.free)) = out / 2 ^ (used - t.free) := by
          apply Nat.mod_eq_of_lt
          calc _ < 2 ^ t.free := hlt
            _ ≤ 2 ^ 8 := Nat.pow_le_pow_right (by norm_num) hf8
            _ < _ := by norm_num
        rw [hu] at hadd
        refine ih hadd (by omega) (by omega) (Nat.mod_lt _ (by positivity)) ?_
        rw [List.length_append, bitsOf_length]
        omega

theorem putBits_ok {cap : ℕ} {s : BitOut} {L : List Bool} {used out : ℕ} (h : Written s L) (h32 : used ≤ 32)
    (ho : out < 2 ^ used) (hroom : L.length + used ≤ 8 * cap) : ∃ s', putBits cap s used out = .ok s' :=
  putLoop_ok used h h32 (le_refl _) ho hroom

theorem putLoop_free {cap : ℕ} (fuel : ℕ) {s s' : BitOut} {used out : ℕ} (hf : s.free < 8)
    (hp : putLoop cap fuel s used out = .ok s') : s'.free < 8 := by
  induction fuel generalizing s used out with
  | zero => simp only [putLoop] at hp; cases hp; exact hf
  | succ fuel ih =>
    simp only [putLoop] at hp
    split at hp
    · cases hp; exact hf
    next h0 =>
      generalize hr : s.room cap = r at hp
      cases r with
      | ub => simp at hp
      | throw => simp at hp
      | ok t =>
        simp only [Outcome.bind_ok] at hp
        have ht : t.free ≤ 8 := by
          unfold BitOut.room at hr
          split at hr
          · split at hr
            · cases hr; simp
            · cases hr
          · cases hr; omega
        split at hp
        next hle => cases hp; simp only; omega
        next hgt =>
          split at hp
          · cases hp
          · exact ih (by simp) hp

/-- A sequence of fields. -/
theorem putAll {cap : ℕ} (fs : List (ℕ × ℕ)) {s : BitOut} {L : List Bool} (h : Written s L) (hf8 : s.free < 8)
    (hf : ∀ f ∈ fs, f.1 ≤ 32 ∧ f.2 < 2 ^ f.1) (hroom : L.length + (fs.map Prod.fst).sum ≤ 8 * cap) :
    ∃ s', fs.foldlM (fun s f => putBits cap s f.1 f.2) s = .ok s' ∧ Written s' (L ++ fs.flatMap fun f => bitsOf f.1 f.2) ∧
      s'.free < 8 := by
  induction fs generalizing s L with
  | nil => exact ⟨s, rfl, by simpa using h, hf8⟩
  | cons f fs ih =>
    simp only [List.map_cons, List.sum_cons] at hroom
    obtain ⟨h1, h2⟩ := hf f (by simp)
    obtain ⟨t, ht⟩ := putBits_ok h h1 h2 (cap := cap) (by omega)
    obtain ⟨s', e, hw, hf'⟩ := ih (putBits_written h h2 ht) (putLoop_free _ hf8 ht) (fun g hg => hf g (by simp [hg]))
      (by rw [List.length_append, bitsOf_length]; omega)
    refine ⟨s', ?_, by simpa using hw, hf'⟩
    rw [List.foldlM_cons, ht]
    exact e

/-! ### Reader -/

/-- The bits not yet read. -/
def remaining (s : BitIn) : List Bool :=
  match s.bytes with
  | [] => []
  | b :: bs => bitsOf s.free (b.toNat / 2 ^ (8 - s.free)) ++ byteBits bs

/-- The reader is in a proper state with the bits `L` in front of it. -/
def Ahead (s : BitIn) (L : List Bool) : Prop := s.free ≤ 8 ∧ remaining s = L

theorem append_split {α : Type} {a b x r : List α} (h : a ++ b = x ++ r) (hl : a.length ≤ x.length) :
    ∃ y, x = a ++ y ∧ b = y ++ r := by
  obtain ⟨y, hy⟩ | ⟨y, hy⟩ := List.append_eq_append_iff.1 h
  · exact ⟨y, hy.1, hy.2⟩
  · have : y = [] := by
      have := congrArg List.length hy.1
      simp at this
      exact List.length_eq_zero_iff.1 (by omega)
    subst this
    exact ⟨[], by simpa using hy.1.symm, by simpa using hy.2.symm⟩

theorem u32_idem (a k b : ℕ) : u32 (u32 a * k + b) = u32 (a * k + b) := by
  simp [u32, Nat.add_mod, Nat.mul_mod]

theorem getLoop_reads (bytes : Bytes) {free rest acc : ℕ} (hf : free ≤ 8) (hr : 0 < rest) {X R : List Bool}
    (hX : X.length = rest) (h : remaining ⟨bytes, free⟩ = X ++ R) :
    ∃ s', getLoop bytes free rest acc = .ok (u32 (acc * 2 ^ rest + ofBits X), s') ∧ Ahead s' R := by
  induction bytes generalizing free rest acc X with
  | nil =>
    simp only [remaining] at h
    have := congrArg List.length h
    simp at this
    omega
  | cons b bs ih =>
    simp only [getLoop]
    simp only [remaining] at h
    have next : remaining ⟨bs, 8⟩ = byteBits bs := by
      cases bs <;> simp [remaining]
    split
    next h0 =>
      subst h0
      simp only [bitsOf_none, List.nil_append] at h
      exact ih (le_refl _) hr hX (next.trans h)
    next h0 =>
      split
      next hle =>
        have hsplit : bitsOf free (b.toNat / 2 ^ (8 - free)) =
            bitsOf rest (b.toNat / 2 ^ (8 - rest)) ++ bitsOf (free - rest) (b.toNat / 2 ^ (8 - free)) := by
          conv_lhs => rw [show free = rest + (free - rest) by omega]
          rw [bitsOf_append, Nat.div_div_eq_div_mul, ← pow_add]
          congr 3
          · congr 1; omega
          · rw [show rest + (free - rest) = free by omega]
        rw [hsplit, List.append_assoc] at h
        obtain ⟨h1, h2⟩ := List.append_inj h (by simp [hX])
        refine ⟨⟨UInt8.ofNat (b.toNat * 2 ^ rest) :: bs, free - rest⟩, ?_, ?_, ?_⟩
        rotate_left
        · simp only
          omega
        · simp only [remaining]
          rw [← h2]
          congr 1
          apply bitsOf_ext
          intro i hi
          rw [Nat.testBit_div_two_pow, Nat.testBit_div_two_pow, UInt8.toNat_ofNat', Nat.testBit_mod_two_pow,
            mul_comm, Nat.testBit_two_pow_mul]
          have e1 : 8 - (free - rest) + i < 8 := by omega
          have e2 : rest ≤ 8 - (free - rest) + i := by omega
          have e3 : 8 - (free - rest) + i - rest = 8 - free + i := by omega
          simp [e1, e2, e3, add_comm i]
        · congr 4
          rw [← h1, ofBits_bitsOf]
          refine (Nat.mod_eq_of_lt ?_).symm
          rw [Nat.div_lt_iff_lt_mul (by positivity), ← pow_add, show rest + (8 - rest) = 8 by omega]
          exact b.toNat_lt
      next hgt =>
        obtain ⟨Y, hY, hR⟩ := append_split h (by simp [hX]; omega)
        have hYl : Y.length = rest - free := by
          have := congrArg List.length hY
          simp at this; omega
        obtain ⟨s', h1, h2⟩ := ih (free := 8) (rest := rest - free) (acc := u32 (acc * 2 ^ free + b.toNat / 2 ^ (8 - free)))
          (X := Y) (le_refl _) (by omega) hYl (next.trans hR)
        refine ⟨s', ?_, h2⟩
        rw [h1, u32_idem, hY, ofBits_append, hYl, ofBits_bitsOf]
        have hlt : b.toNat / 2 ^ (8 - free) < 2 ^ free := by
          rw [Nat.div_lt_iff_lt_mul (by positivity), ← pow_add, show free + (8 - free) = 8 by omega]
          exact b.toNat_lt
        rw [Nat.mod_eq_of_lt hlt]
        congr 3
        rw [show rest = free + (rest - free) by omega, pow_add, Nat.add_sub_cancel_left]
        ring

/-- A step that reads exactly the bits `b` and returns `x`, whatever follows. -/
def Reads {β : Type} (g : Get β) (b : List Bool) (x : β) : Prop :=
  ∀ s R, Ahead s (b ++ R) → ∃ s', g s = .ok (x, s') ∧ Ahead s' R

theorem Reads.bind {β γ : Type} {g : Get β} {f : β → Get γ} {a b : List Bool} {x : β} {y : γ} (h1 : Reads g a x)
    (h2 : Reads (f x) b y) : Reads (Get.bind g f) (a ++ b) y := by
  intro s R h
  rw [List.append_assoc] at h
  obtain ⟨s1, e1, h1⟩ := h1 s _ h
  obtain ⟨s2, e2, h2⟩ := h2 s1 R h1
  exact ⟨s2, by simp [Get.bind, e1, e2], h2⟩

theorem Reads.pure {β : Type} (x : β) : Reads (Get.pure x) [] x := by
  intro s R h
  exact ⟨s, rfl, by simpa using h⟩

theorem Reads.lift {β : Type} (x : β) : Reads (Get.lift (.ok x)) [] x := by
  intro s R h
  exact ⟨s, rfl, by simpa using h⟩

theorem fromBits_reads {k v : ℕ} (hk : k ≤ 32) (hv : v < 2 ^ k) : Reads (fromBits k) (bitsOf k v) v := by
  intro s R h
  have h8 : u8 k = k := Nat.mod_eq_of_lt (by omega)
  unfold fromBits
  rw [h8]
  split
  next h0 =>
    subst h0
    have : v = 0 := by simpa using hv
    subst this
    exact ⟨s, rfl, by simpa using h⟩
  next h0 =>
    obtain ⟨bytes, free⟩ := s
    obtain ⟨s', h1, h2⟩ := getLoop_reads bytes (acc := 0) h.1 (show 0 < k by omega) (X := bitsOf k v) (R := R) (by simp) h.2
    refine ⟨s', ?_, h2⟩
    simp only
    rw [h1, ofBits_bitsOf_lt hv]
    have : u32 (0 * 2 ^ k + v) = v := by
      rw [zero_mul, zero_add]
      apply Nat.mod_eq_of_lt
      calc v < 2 ^ k := hv
        _ ≤ 2 ^ 32 := Nat.pow_le_pow_right (by norm_num) hk
        _ = _ := by norm_num
    rw [this]

end WB.Sf
