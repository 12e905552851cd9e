import Verif.Proof.SfBits
import Mathlib.Data.Nat.Log

/-! Lemmas about the pool search, the selection code and the exponent jumps. -/

namespace WB.Sf

open WB.Spec

/-! ### Pool search -/

theorem bisec_last {count : ℕ} {last : ℕ → ℕ} (hm : ∀ i j, i ≤ j → j < count → last i ≤ last j) (x b : ℕ)
    (h1 : 2 ^ b < count) (hc : count ≤ 2 ^ (b + 1)) :
    let r := [count - 2 ^ b].foldr (fun step r => if last (step + r - 1) < x then step + r else r) 0
    r + 2 ^ b ≤ count ∧ (r = 0 ∨ last (r - 1) < x) ∧ (r + 2 ^ b = count ∨ x ≤ last (r + 2 ^ b - 1)) := by
  rw [pow_succ] at hc
  intro r
  have hr : r = if last (count - 2 ^ b - 1) < x then count - 2 ^ b else 0 := rfl
  clear_value r
  by_cases h : last (count - 2 ^ b - 1) < x
  · rw [if_pos h] at hr
    subst hr
    exact ⟨by omega, Or.inr h, Or.inl (by omega)⟩
  · rw [if_neg h] at hr
    subst hr
    refine ⟨by omega, Or.inl rfl, Or.inr ?_⟩
    exact (Nat.not_lt.1 h).trans (hm _ _ (by omega) (by omega))

theorem bisecLoop_spec {count : ℕ} {last : ℕ → ℕ} (hm : ∀ i j, i ≤ j → j < count → last i ≤ last j) (x fuel b : ℕ)
    (h1 : 2 ^ b < count) (h2 : count ≤ 2 ^ (b + 1 + fuel)) :
    let r := (bisecLoop count fuel b).foldr (fun step r => if last (step + r - 1) < x then step + r else r) 0
    r + 2 ^ b ≤ count ∧ (r = 0 ∨ last (r - 1) < x) ∧ (r + 2 ^ b = count ∨ x ≤ last (r + 2 ^ b - 1)) := by
  induction fuel generalizing b with
  | zero => exact bisec_last hm x b h1 (by simpa using h2)
  | succ fuel ih =>
    simp only [bisecLoop]
    by_cases h : 2 ^ (b + 1) < count
    · rw [if_pos h]
      simp only [List.foldr_cons]
      obtain ⟨i1, i2, i3⟩ := ih (b + 1) h (by rwa [show b + 1 + 1 + fuel = b + 1 + (fuel + 1) by omega])
      generalize (bisecLoop count fuel (b + 1)).foldr (fun step r => if last (step + r - 1) < x then step + r else r) 0 = r at *
      rw [pow_succ] at i1 i3
      by_cases ht : last (2 ^ b + r - 1) < x
      · rw [if_pos ht]
        refine ⟨by omega, Or.inr ht, ?_⟩
        rw [show 2 ^ b + r + 2 ^ b = r + 2 ^ b * 2 by ring]
        exact i3
      · rw [if_neg ht]
        refine ⟨by omega, i2, Or.inr ?_⟩
        rw [add_comm r]; exact Nat.not_lt.1 ht
    · rw [if_neg h]
      exact bisec_last hm x b h1 (Nat.not_lt.1 h)

/-- The search returns the first entry that is not below the number, or the last entry if there is none. -/
theorem findPool_spec {count : ℕ} {last : ℕ → ℕ} (hc : 1 ≤ count) (hc64 : count ≤ 64)
    (hm : ∀ i j, i ≤ j → j < count → last i ≤ last j) (x : ℕ) :
    findPool count last x < count ∧ (∀ i < findPool count last x, last i < x) ∧
    (findPool count last x + 1 = count ∨ x ≤ last (findPool count last x)) := by
  unfold findPool bisecSteps
  split
  next h =>
    obtain ⟨h1, h2, h3⟩ := bisecLoop_spec hm x 5 0 (by simpa using h) (by simpa using hc64)
    generalize (bisecLoop count 5 0).foldr (fun step r => if last (step + r - 1) < x then step + r else r) 0 = r at *
    simp only [pow_zero] at h1 h3
    refine ⟨by omega, ?_, by simpa using h3⟩
    intro i hi
    rcases h2 with h2 | h2
    · omega
    · exact lt_of_le_of_lt (hm _ _ (by omega) (by omega)) h2
  next h =>
    have : count = 1 := by omega
    subst this
    simp

theorem findPool_eq {count : ℕ} {last : ℕ → ℕ} (hc64 : count ≤ 64)
    (hm : ∀ i j, i ≤ j → j < count → last i ≤ last j) {x r : ℕ} (hr : r < count) (h1 : ∀ i < r, last i < x)
    (h2 : r + 1 = count ∨ x ≤ last r) : findPool count last x = r := by
  obtain ⟨a, b, c⟩ := findPool_spec (by omega) hc64 hm x
  rcases Nat.lt_trichotomy (findPool count last x) r with h | h | h
  · have := h1 _ h
    rcases c with c | c <;> omega
  · exact h
  · have := b r h
    rcases h2 with h2 | h2 <;> omega

theorem findPool_mono {count : ℕ} {last : ℕ → ℕ} (hc : 1 ≤ count) (hc64 : count ≤ 64)
    (hm : ∀ i j, i ≤ j → j < count → last i ≤ last j) {x y : ℕ} (hxy : x ≤ y) :
    findPool count last x ≤ findPool count last y := by
  obtain ⟨a, b, c⟩ := findPool_spec hc hc64 hm x
  obtain ⟨a', b', c'⟩ := findPool_spec hc hc64 hm y
  by_contra h
  push Not at h
  have := b _ h
  rcases c' with c' | c' <;> omega

theorem lastBase_strict (exp : Bool) (n : ℕ) : lastBase exp n < lastBase exp (n + 1) := by
  have : ∀ n, lastBase exp n < lastBase exp (n + 1) ∧ lastBase exp (n + 1) < lastBase exp (n + 2) := by
    intro n
    induction n using Nat.strong_induction_on with
    | _ n ih =>
      match n with
      | 0 => cases exp <;> decide
      | 1 => cases exp <;> decide
      | 2 => cases exp <;> decide
      | 3 => cases exp <;> decide
      | 4 => cases exp <;> decide
      | n + 5 =>
        have h1 := ih (n + 3) (by omega)
        show 2 * lastBase exp (n + 3) < 2 * lastBase exp (n + 4) ∧ 2 * lastBase exp (n + 4) < 2 * lastBase exp (n + 5)
        have e : n + 3 + 1 = n + 4 := rfl
        have e' : n + 3 + 2 = n + 5 := rfl
        rw [e, e'] at h1
        omega
  exact (this n).1

theorem lastBase_mono (exp : Bool) : StrictMono (lastBase exp) := strictMono_nat_of_lt_succ (lastBase_strict exp)

theorem srcLast_strict (exp : Bool) {i j : ℕ} (h : i < j) (hj : j < baseCount exp) : srcLast exp i < srcLast exp j := by
  unfold srcLast
  rw [if_pos (by omega), if_pos hj]
  exact lastBase_mono exp h

theorem srcLast_le (exp : Bool) {i j : ℕ} (h : i ≤ j) (hj : j < baseCount exp) : srcLast exp i ≤ srcLast exp j := by
  rcases h.lt_or_eq with h | h
  · exact (srcLast_strict exp h hj).le
  · rw [h]

theorem baseCount_pos (exp : Bool) : 1 ≤ baseCount exp := by cases exp <;> decide
theorem baseCount_le (exp : Bool) : baseCount exp ≤ 64 := by cases exp <;> decide

theorem findSrc_spec (exp : Bool) (x : ℕ) : findSrc exp x < baseCount exp ∧ (∀ i < findSrc exp x, srcLast exp i < x) ∧
    (findSrc exp x + 1 = baseCount exp ∨ x ≤ srcLast exp (findSrc exp x)) :=
  findPool_spec (baseCount_pos exp) (baseCount_le exp) (fun _ _ h => srcLast_le exp h) x

/-- `findPoolNr(4, ·)` is the base-2 logarithm rounded up. -/
theorem findLog_eq {x r : ℕ} (hr : r < 32) (h1 : r = 0 ∨ 2 ^ (r - 1) < x) (h2 : x ≤ 2 ^ r) : findLog x = r := by
  refine findPool_eq (by norm_num) (fun i j h _ => Nat.pow_le_pow_right (by norm_num) h) hr ?_ (Or.inr h2)
  intro i hi
  rcases h1 with h1 | h1
  · omega
  · exact lt_of_le_of_lt (Nat.pow_le_pow_right (by norm_num) (by omega)) h1

/-- `findPoolNr(5, ·)` is the base-2 logarithm rounded down. -/
theorem findLogDown_eq {x r : ℕ} (hr : r < 32) (h1 : 2 ^ r ≤ x) (h2 : x < 2 ^ (r + 1)) : findLogDown x = r := by
  refine findPool_eq (by norm_num) (fun i j h _ => Nat.sub_le_sub_right (Nat.pow_le_pow_right (by norm_num) (by omega)) 1) hr ?_
    (Or.inr (by omega))
  intro i hi
  have : 2 ^ (i + 1) ≤ 2 ^ r := Nat.pow_le_pow_right (by norm_num) (by omega)
  have : 0 < 2 ^ (i + 1) := by positivity
  omega

theorem exists_log {n : ℕ} (h2 : n ≤ 2 ^ 31) : ∃ b, b < 32 ∧ (b = 0 ∨ 2 ^ (b - 1) < n) ∧ n ≤ 2 ^ b := by
  refine ⟨Nat.clog 2 n, ?_, ?_, Nat.le_pow_clog (by norm_num) n⟩
  · have := Nat.clog_le_of_le_pow h2
    omega
  · by_cases h : Nat.clog 2 n = 0
    · exact Or.inl h
    · right
      by_contra hlt
      push Not at hlt
      have := Nat.clog_le_of_le_pow hlt
      omega

theorem exists_logDown {m : ℕ} (h1 : 1 ≤ m) (h2 : m < 2 ^ 32) : ∃ p, p < 32 ∧ 2 ^ p ≤ m ∧ m < 2 ^ (p + 1) := by
  refine ⟨Nat.log 2 m, ?_, Nat.pow_log_le_self 2 (by omega), Nat.lt_pow_succ_log_self (by norm_num) m⟩
  exact Nat.log_lt_of_lt_pow (by omega) h2

/-! ### The selection code -/

theorem sub32_eq {a b : ℕ} (ha : a < 4294967296) (h : b ≤ a) : sub32 a b = a - b := by
  unfold sub32
  rw [Nat.mod_eq_of_lt (show b < 4294967296 by omega), show a + 4294967296 - b = a - b + 4294967296 by omega,
    Nat.add_mod_right, Nat.mod_eq_of_lt (by omega)]

theorem u32_eq {a : ℕ} (h : a < 4294967296) : u32 a = a := Nat.mod_eq_of_lt h

theorem u8_eq {a : ℕ} (h : a < 256) : u8 a = a := Nat.mod_eq_of_lt h

/-- The numbers behind the code for `n` possibilities. -/
theorem mampf_eq {n b : ℕ} (h1 : 1 ≤ n) (hb : b < 32) (hn : n ≤ 2 ^ b) : u32 (sub32 (2 ^ b) n + 1) = 2 ^ b - n + 1 := by
  have : 2 ^ b ≤ 2 ^ 31 := Nat.pow_le_pow_right (by norm_num) (by omega)
  norm_num at this
  rw [sub32_eq (by omega) hn, u32_eq (by omega)]

/-- The code written for choice `sel` of `n`. -/
def selBits (sel n : ℕ) : List Bool := bitsOf (sevenOfNine sel n).1 (sevenOfNine sel n).2

theorem seven_full {n b : ℕ} (hlog : findLog n = b) (hmam : u32 (sub32 (2 ^ b) n + 1) = 1) (sel : ℕ) :
    sevenOfNine sel n = (b, sel) := by
  unfold sevenOfNine
  simp only [hlog, hmam]
  simp

theorem nine_full {n b : ℕ} (hlog : findLog n = b) (hmam : u32 (sub32 (2 ^ b) n + 1) = 1) : nineOfSeven n = fromBits b := by
  unfold nineOfSeven
  simp only [hlog, hmam]
  simp

/-- The numbers behind a code with short words: `B = 2^b`, `C = 2^(b-1)`, `P = 2^p`, `Q = 2^(p-1)`. -/
structure SelData (n b p M B C P Q : ℕ) : Prop where
  hb : b < 32
  hp0 : p ≠ 0
  hpb : p ≤ b - 1
  hb0 : b ≠ 0
  hB : 2 ^ b = B
  hC : 2 ^ (b - 1) = C
  hP : 2 ^ p = P
  hQ : 2 ^ (p - 1) = Q
  hBC : B = 2 * C
  hPQ : P = 2 * Q
  hCQ : C = 2 ^ (b - p) * Q
  hQ0 : 0 < Q
  hBmax : B ≤ 2147483648
  hn1 : C < n
  hn2 : n ≤ B
  hM : M = B - n + 1
  hM1 : 1 < M
  hM2 : P ≤ M
  hM3 : M < 2 * P
  hlog : findLog n = b
  hmam : u32 (sub32 B n + 1) = M
  hdown : findLogDown M = p

theorem two_pow_pred {k : ℕ} (h : k ≠ 0) : 2 ^ k = 2 * 2 ^ (k - 1) := by
  obtain ⟨j, rfl⟩ := Nat.exists_eq_succ_of_ne_zero h
  simp [pow_succ']

theorem selData {n b : ℕ} (h1 : 1 ≤ n) (hb : b < 32) (hlo : b = 0 ∨ 2 ^ (b - 1) < n) (hhi : n ≤ 2 ^ b)
    (hlog : findLog n = b) (hM : 2 ^ b - n + 1 ≠ 1) :
    ∃ p M B C P Q, SelData n b p M B C P Q := by
  have hB : 2 ^ b ≤ 2147483648 := by
    have : 2 ^ b ≤ 2 ^ 31 := Nat.pow_le_pow_right (by norm_num) (by omega)
    simpa using this
  have hmam := mampf_eq h1 hb hhi
  have hb0 : b ≠ 0 := by rintro rfl; simp at hhi hM; omega
  have hlo' : 2 ^ (b - 1) < n := by rcases hlo with h | h; exact absurd h hb0; exact h
  have hbb := two_pow_pred hb0
  obtain ⟨p, hp, hp1, hp2⟩ := exists_logDown (m := 2 ^ b - n + 1) (by omega) (by norm_num; omega)
  have hdown := findLogDown_eq hp hp1 hp2
  have hp0 : p ≠ 0 := by rintro rfl; simp at hp2; omega
  have hpp := two_pow_pred hp0
  have hpb : p ≤ b - 1 := by
    have : 2 ^ p ≤ 2 ^ (b - 1) := by omega
    exact (Nat.pow_le_pow_iff_right (by norm_num)).1 this
  rw [pow_succ'] at hp2
  have hb1 : 2 ^ (b - 1) = 2 ^ (b - p) * 2 ^ (p - 1) := by
    rw [← pow_add, show b - p + (p - 1) = b - 1 by omega]
  exact ⟨p, 2 ^ b - n + 1, 2 ^ b, 2 ^ (b - 1), 2 ^ p, 2 ^ (p - 1), hb, hp0, hpb, hb0, rfl, rfl, rfl, rfl, hbb, hpp, hb1,
    by positivity, hB, hlo', hhi, rfl, by omega, hp1, hp2, hlog, hmam, hdown⟩

section
variable {n b p M B C P Q : ℕ}

theorem SelData.sub (D : SelData n b p M B C P Q) : sub32 M P = M - P :=
  sub32_eq (by have := D.hM; have := D.hBmax; omega) D.hM2

theorem SelData.bits (D : SelData n b p M B C P Q) : u8 (b + 256 - p) = b - p := by
  have := D.hb; have := D.hpb; have := D.hb0
  unfold u8; omega

theorem SelData.nine (D : SelData n b p M B C P Q) : nineOfSeven n = Get.bind (fromBits (b - p)) fun v =>
    if v = 0 then Get.pure 0
    else if p = 0 then Get.lift .ub
    else Get.bind (fromBits (p - 1)) fun w =>
      let v := u32 (v * Q + w)
      if sub32 (u32 (v + 1)) Q ≤ M - P then Get.pure (sub32 (u32 (v + 1)) Q)
      else Get.bind (fromBits 1) fun w => Get.pure (u32 (sub32 (u32 (v * 2 + w)) M + 1)) := by
  unfold nineOfSeven
  simp only [D.hlog, D.hB, D.hmam, D.hdown, D.hP, D.hQ, D.sub, D.bits]
  rw [if_neg (by have := D.hM1; omega)]

theorem SelData.sevenZero (D : SelData n b p M B C P Q) : sevenOfNine 0 n = (b - p, 0) := by
  unfold sevenOfNine
  simp only [D.hlog, D.hB, D.hmam, D.hdown, D.hP, D.hQ, D.sub, D.bits]
  rw [if_pos D.hM1]
  simp

theorem SelData.sevenShort (D : SelData n b p M B C P Q) {sel : ℕ} (h0 : sel ≠ 0) (h : sel ≤ M - P) :
    sevenOfNine sel n = (b - 1, sel + (Q - 1)) := by
  have := D.hM; have := D.hBmax; have := D.hPQ; have := D.hQ0; have := D.hb; have := D.hb0; have := D.hM2
  unfold sevenOfNine
  simp only [D.hlog, D.hB, D.hmam, D.hdown, D.hP, D.hQ, D.sub, D.bits]
  rw [if_pos D.hM1, if_pos (by omega), if_pos h, sub32_eq (by omega) (by omega), u32_eq (by omega)]
  congr 1
  unfold u8; omega

theorem SelData.sevenLong (D : SelData n b p M B C P Q) {sel : ℕ} (hs : sel < n) (h : ¬ sel ≤ M - P) :
    sevenOfNine sel n = (b, sel + (M - 1)) := by
  have := D.hM; have := D.hBmax; have := D.hn2
  unfold sevenOfNine
  simp only [D.hlog, D.hB, D.hmam, D.hdown, D.hP, D.hQ, D.sub, D.bits]
  rw [if_pos D.hM1, if_pos (by omega), if_neg h, u32_eq (by omega)]

/-- Decoding after a nonzero prefix. -/
theorem SelData.prefixed (D : SelData n b p M B C P Q) {v : ℕ} (hv1 : v < C) (hv2 : Q ≤ v) {rest : List Bool} {x : ℕ}
    (h : Reads (if sub32 (u32 (v + 1)) Q ≤ M - P then Get.pure (sub32 (u32 (v + 1)) Q)
      else Get.bind (fromBits 1) fun w => Get.pure (u32 (sub32 (u32 (v * 2 + w)) M + 1))) rest x) :
    Reads (nineOfSeven n) (bitsOf (b - 1) v ++ rest) x := by
  have hp0 := D.hp0; have hpb := D.hpb; have hb := D.hb; have hBm := D.hBmax; have hBC := D.hBC
  rw [D.nine]
  have e : bitsOf (b - 1) v = bitsOf (b - p) (v / Q) ++ bitsOf (p - 1) (v % Q) := by
    rw [← D.hQ, bitsOf_mod, ← bitsOf_append, show b - p + (p - 1) = b - 1 by omega]
  rw [e, List.append_assoc]
  refine Reads.bind (fromBits_reads (by omega) ?_) ?_
  · rw [Nat.div_lt_iff_lt_mul D.hQ0, ← D.hCQ]; exact hv1
  · have hne : v / Q ≠ 0 := by
      have := Nat.div_pos hv2 D.hQ0
      omega
    rw [if_neg hne, if_neg hp0]
    refine Reads.bind (fromBits_reads (by omega) (by rw [D.hQ]; exact Nat.mod_lt _ D.hQ0)) ?_
    have : u32 (v / Q * Q + v % Q) = v := by
      rw [Nat.div_add_mod', u32_eq (by omega)]
    simp only [this]
    exact h

theorem SelData.readsZero (D : SelData n b p M B C P Q) : Reads (nineOfSeven n) (bitsOf (b - p) 0) 0 := by
  have hb := D.hb
  rw [D.nine, ← List.append_nil (bitsOf (b - p) 0)]
  refine Reads.bind (fromBits_reads (by omega) (by positivity)) ?_
  rw [if_pos rfl]
  exact Reads.pure 0

theorem SelData.readsShort (D : SelData n b p M B C P Q) {sel : ℕ} (h0 : sel ≠ 0) (h : sel ≤ M - P) :
    Reads (nineOfSeven n) (bitsOf (b - 1) (sel + (Q - 1))) sel := by
  have := D.hM; have := D.hBmax; have := D.hPQ; have := D.hQ0; have := D.hBC; have := D.hM2; have := D.hM3; have := D.hn1
  rw [← List.append_nil (bitsOf (b - 1) _)]
  refine D.prefixed (by omega) (by omega) ?_
  have e : sub32 (u32 (sel + (Q - 1) + 1)) Q = sel := by
    rw [u32_eq (by omega), sub32_eq (by omega) (by omega)]; omega
  rw [e, if_pos h]
  exact Reads.pure sel

theorem SelData.readsLong (D : SelData n b p M B C P Q) {sel : ℕ} (hs : sel < n) (h : ¬ sel ≤ M - P) :
    Reads (nineOfSeven n) (bitsOf b (sel + (M - 1))) sel := by
  have := D.hM; have := D.hBmax; have := D.hPQ; have := D.hQ0; have := D.hBC; have := D.hM2; have := D.hM3; have := D.hn1
  have hb0 := D.hb0
  have := D.hn2
  have e : bitsOf b (sel + (M - 1)) = bitsOf (b - 1) ((sel + (M - 1)) / 2) ++ bitsOf 1 ((sel + (M - 1)) % 2) := by
    have e1 := bitsOf_append (b - 1) 1 (sel + (M - 1))
    rw [show b - 1 + 1 = b by omega, pow_one] at e1
    rw [e1]
    congr 1
    exact (bitsOf_mod 1 _).symm
  rw [e]
  refine D.prefixed (by omega) (by omega) ?_
  have e2 : sub32 (u32 ((sel + (M - 1)) / 2 + 1)) Q = (sel + (M - 1)) / 2 + 1 - Q := by
    rw [u32_eq (by omega), sub32_eq (by omega) (by omega)]
  rw [e2, if_neg (by omega)]
  rw [← List.append_nil (bitsOf 1 _)]
  refine Reads.bind (fromBits_reads (by omega) (by simp; omega)) ?_
  have e3 : u32 (sub32 (u32 ((sel + (M - 1)) / 2 * 2 + (sel + (M - 1)) % 2)) M + 1) = sel := by
    rw [Nat.div_add_mod', u32_eq (a := sel + (M - 1)) (by omega), sub32_eq (by omega) (by omega), u32_eq (by omega)]; omega
  rw [e3]
  exact Reads.pure sel

end

theorem selection {sel n : ℕ} (hs : sel < n) (hn : n ≤ 2 ^ 31) :
    (sevenOfNine sel n).1 < 32 ∧ (sevenOfNine sel n).2 < 2 ^ (sevenOfNine sel n).1 ∧
    Reads (nineOfSeven n) (selBits sel n) sel := by
  obtain ⟨b, hb, hlo, hhi⟩ := exists_log hn
  clear hn
  have hlog := findLog_eq hb hlo hhi
  unfold selBits
  by_cases hM : 2 ^ b - n + 1 = 1
  · have hmam := mampf_eq (show 1 ≤ n by omega) hb hhi
    rw [hM] at hmam
    rw [seven_full hlog hmam, nine_full hlog hmam]
    exact ⟨hb, lt_of_lt_of_le hs hhi, fromBits_reads (by omega) (lt_of_lt_of_le hs hhi)⟩
  · obtain ⟨p, M, B, C, P, Q, D⟩ := selData (by omega) hb hlo hhi hlog hM
    have := D.hM; have := D.hPQ; have := D.hQ0; have := D.hBC; have := D.hM2; have := D.hM3; have := D.hn1; have := D.hn2
    by_cases hs0 : sel = 0
    · subst hs0
      rw [D.sevenZero]
      exact ⟨by simp only; omega, by simp only; positivity, D.readsZero⟩
    · by_cases hshort : sel ≤ M - P
      · rw [D.sevenShort hs0 hshort]
        refine ⟨by simp only; omega, ?_, D.readsShort hs0 hshort⟩
        simp only
        rw [D.hC]; omega
      · rw [D.sevenLong hs hshort]
        refine ⟨hb, ?_, D.readsLong hs hshort⟩
        simp only
        rw [D.hB]; omega

/-! ### Exponent jumps -/

theorem expOfJump_expJump {last e : ℕ} (hl : last < 256) (he : e < 256) : expOfJump last (expJump last e) = e := by
  unfold expJump expOfJump u8
  split_ifs <;> omega

theorem expJump_lt {last e : ℕ} : expJump last e < 256 := by
  unfold expJump u8
  split_ifs <;> omega

end WB.Sf
