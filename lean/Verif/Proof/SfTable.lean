import Verif.Model.SfCompressor
import Verif.Proof.SfCode
import Mathlib.Tactic.FieldSimp
import Mathlib.Tactic.Linarith
import Mathlib.Tactic.Positivity
import Mathlib.Algebra.Order.Field.Basic

/-! Helper facts about the code tables of the version-2 compressor. -/

namespace WB.Sf

open WB.Spec

/-- The entries of a complete canonical code: `free` of the code space is left before them, `lc` and `lp` are the last symbol and pool
before them, `d` is the least length allowed. -/
def Good (exp : Bool) : ℚ → ℕ → ℤ → ℤ → List Entry → Prop
  | free, _, _, _, [] => free = 0
  | free, d, lc, lp, e :: es => d ≤ e.len ∧ e.len ≤ 31 ∧ lp < e.lastPool ∧ e.lastPool < baseCount exp ∧
      e.last = srcLast exp e.lastPool ∧ lc < e.last ∧ (e.offset : ℚ) = (1 - free) * 2 ^ e.len - lc - 1 ∧
      Good exp (free - ((e.last : ℚ) - lc) / 2 ^ e.len) (e.len + 1) e.last e.lastPool es

theorem Good.nonneg {exp : Bool} {free : ℚ} {d : ℕ} {lc lp : ℤ} {es : List Entry} (h : Good exp free d lc lp es) : 0 ≤ free := by
  induction es generalizing free d lc lp with
  | nil => exact le_of_eq h.symm
  | cons e es ih =>
    obtain ⟨-, -, -, -, -, h1, -, h2⟩ := h
    have := ih h2
    have h3 : (0 : ℚ) < ((e.last : ℚ) - lc) / 2 ^ e.len := by
      have : (lc : ℚ) < e.last := by exact_mod_cast h1
      exact div_pos (by linarith) (by positivity)
    linarith

theorem Good.pos {exp : Bool} {free : ℚ} {d : ℕ} {lc lp : ℤ} {e : Entry} {es : List Entry}
    (h : Good exp free d lc lp (e :: es)) : 0 < free := by
  obtain ⟨-, -, -, -, -, h1, -, h2⟩ := h
  have := h2.nonneg
  have h3 : (0 : ℚ) < ((e.last : ℚ) - lc) / 2 ^ e.len := by
    have : (lc : ℚ) < e.last := by exact_mod_cast h1
    exact div_pos (by linarith) (by positivity)
  linarith

/-! ### Building the table -/

/-- `srcLast` with the value -1 before the first pool. -/
def border (exp : Bool) : ℕ → ℤ
  | 0 => -1
  | t + 1 => srcLast exp t

/-- The part of the code space taken by `k` pools from pool `t` on. -/
def taken (exp : Bool) (lens : ℕ → ℕ) : ℕ → ℕ → ℚ
  | 0, _ => 0
  | k + 1, t => ((border exp (t + 1) : ℚ) - border exp t) / 2 ^ lens t + taken exp lens k (t + 1)

theorem border_lt (exp : Bool) {t : ℕ} (h : t < baseCount exp) : border exp t < border exp (t + 1) := by
  cases t with
  | zero => simp only [border]; omega
  | succ t =>
    simp only [border]
    exact_mod_cast srcLast_strict exp (Nat.lt_succ_self t) h

theorem border_mono (exp : Bool) {s t : ℕ} (hst : s ≤ t) (h : t ≤ baseCount exp) : border exp s ≤ border exp t := by
  induction t with
  | zero => rw [Nat.le_zero.1 hst]
  | succ t ih =>
    rcases Nat.lt_or_ge s (t + 1) with h1 | h1
    · exact (ih (by omega) (by omega)).trans (border_lt exp (by omega)).le
    · rw [show s = t + 1 by omega]

theorem taken_nonneg (exp : Bool) (lens : ℕ → ℕ) (k t : ℕ) (h : t + k ≤ baseCount exp) : 0 ≤ taken exp lens k t := by
  induction k generalizing t with
  | zero => exact le_refl _
  | succ k ih =>
    have h1 := border_lt exp (t := t) (by omega)
    have h2 : (border exp t : ℚ) < border exp (t + 1) := by exact_mod_cast h1
    have h3 := ih (t + 1) (by omega)
    have : (0 : ℚ) ≤ ((border exp (t + 1) : ℚ) - border exp t) / 2 ^ lens t := div_nonneg (by linarith) (by positivity)
    simp only [taken]
    linarith

/-- The entry before, if any, ends where `free` begins. -/
def Before (free : ℚ) (lc : ℤ) (cur : ℕ) : Option Entry → Prop
  | none => lc = -1 ∧ free = 1
  | some b => (b.last : ℤ) = lc ∧ b.len < cur ∧ (b.offset : ℚ) + b.last + 1 = (1 - free) * 2 ^ b.len

theorem offset_eq {off last d : ℕ} (h : (off + last + 1) * 2 ^ d ≤ 2 ^ 31) :
    (sub32 (u32 (u32 (off + last + 1) * 2 ^ d)) (u32 (last + 1)) : ℤ) = (off + last + 1 : ℤ) * 2 ^ d - last - 1 := by
  have h1 : 1 ≤ 2 ^ d := Nat.one_le_two_pow
  have h2 : off + last + 1 ≤ (off + last + 1) * 2 ^ d := Nat.le_mul_of_pos_right _ h1
  norm_num at h
  rw [u32_eq (show off + last + 1 < 4294967296 by omega), u32_eq (show (off + last + 1) * 2 ^ d < 4294967296 by omega),
    u32_eq (show last + 1 < 4294967296 by omega), sub32_eq (by omega) (by omega)]
  have : ((((off + last + 1) * 2 ^ d : ℕ)) : ℤ) = (off + last + 1 : ℤ) * 2 ^ d := by push_cast; ring
  rw [← this]
  omega

/-- One entry of the table is right, given the entry before. -/
theorem entry_step (exp : Bool) {prev : Option Entry} {free : ℚ} {lc : ℤ} {cur p : ℕ} (rest : List (ℕ × ℕ))
    (hb : Before free lc cur prev) (h31 : cur ≤ 31) (hf : 0 ≤ free) :
    ∃ off : ℕ, (off : ℚ) = (1 - free) * 2 ^ cur - lc - 1 ∧
      entries exp prev ((cur, p) :: rest) =
        (entries exp (some ⟨cur, p, srcLast exp p, off⟩) rest >>= fun es => pure (⟨cur, p, srcLast exp p, off⟩ :: es)) := by
  cases prev with
  | none =>
    obtain ⟨h1, h2⟩ := hb
    exact ⟨0, by rw [h1, h2]; push_cast; ring, rfl⟩
  | some b =>
    obtain ⟨h1, h2, h3⟩ := hb
    have hsplit : (2 : ℚ) ^ cur = 2 ^ b.len * 2 ^ (cur - b.len) := by rw [← pow_add]; congr 1; omega
    have hle : (b.offset + b.last + 1) * 2 ^ (cur - b.len) ≤ 2 ^ 31 := by
      have : (((b.offset + b.last + 1) * 2 ^ (cur - b.len) : ℕ) : ℚ) ≤ ((2 ^ 31 : ℕ) : ℚ) := by
        push_cast
        rw [h3, mul_assoc, ← hsplit]
        have e1 : (2 : ℚ) ^ cur ≤ 2 ^ 31 := pow_le_pow_right₀ (by norm_num) h31
        have e2 : (0 : ℚ) < 2 ^ cur := by positivity
        nlinarith
      exact_mod_cast this
    refine ⟨sub32 (u32 (u32 (b.offset + b.last + 1) * 2 ^ (cur - b.len))) (u32 (b.last + 1)), ?_, ?_⟩
    rotate_left
    · show (if cur < b.len ∨ 32 ≤ cur - b.len then Outcome.ub else _) = _
      rw [if_neg (by omega)]
    · have e := offset_eq hle
      have e' : ((sub32 (u32 (u32 (b.offset + b.last + 1) * 2 ^ (cur - b.len))) (u32 (b.last + 1)) : ℤ) : ℚ) =
          ((b.offset + b.last + 1 : ℤ) * 2 ^ (cur - b.len) - b.last - 1 : ℤ) := by rw [e]
      push_cast at e'
      rw [e', ← h1, h3, hsplit]
      push_cast
      ring

theorem table_built (exp : Bool) (lens : ℕ → ℕ) (used : ℕ) (hused : used ≤ baseCount exp)
    (hmono : ∀ t, t + 1 < used → lens t ≤ lens (t + 1)) (h31 : ∀ t < used, lens t ≤ 31) (k : ℕ) :
    ∀ (t cur d : ℕ) (free : ℚ) (lc lp : ℤ) (prev : Option Entry), 1 ≤ t → t + k = used → lens (t - 1) = cur → d ≤ cur →
      lp < (t - 1 : ℕ) → lc < border exp t →
      free = ((border exp t : ℚ) - lc) / 2 ^ cur + taken exp lens k t → Before free lc cur prev →
      ∃ es, entries exp prev (runs lens k t cur) = .ok es ∧ Good exp free d lc lp es ∧ (es.headD ⟨0, 0, 0, 0⟩).len = cur ∧
        es ≠ [] ∧ ∃ e, es.getLast? = some e ∧ e.last = srcLast exp (used - 1) := by
  induction k with
  | zero =>
    intro t cur d free lc lp prev ht htk hcur hd hlp hlc hfree hb
    have hs : border exp t = srcLast exp (t - 1) := by
      obtain ⟨s, rfl⟩ := Nat.exists_eq_add_of_le' ht
      rfl
    have hc31 : cur ≤ 31 := by rw [← hcur]; exact h31 _ (by omega)
    have hpos : (0 : ℚ) ≤ ((border exp t : ℚ) - lc) / 2 ^ cur := by
      have : (lc : ℚ) < border exp t := by exact_mod_cast hlc
      exact div_nonneg (by linarith) (by positivity)
    have hf : 0 ≤ free := by rw [hfree]; simpa [taken] using hpos
    obtain ⟨off, ho, he⟩ := entry_step exp (p := t - 1) [] hb hc31 hf
    refine ⟨[⟨cur, t - 1, srcLast exp (t - 1), off⟩], ?_, ?_, rfl, by simp, _, rfl, by rw [show used - 1 = t - 1 by omega]; rfl⟩
    · show entries exp prev [(cur, t - 1)] = _
      rw [he]; rfl
    · refine ⟨hd, hc31, hlp, (show t - 1 < baseCount exp by omega), rfl, ?_, ho, ?_⟩
      · simpa [hs] using hlc
      · show free - _ = 0
        rw [hfree, hs]
        simp [taken]
  | succ k ih =>
    intro t cur d free lc lp prev ht htk hcur hd hlp hlc hfree hb
    have hs : border exp t = srcLast exp (t - 1) := by
      obtain ⟨s, rfl⟩ := Nat.exists_eq_add_of_le' ht
      rfl
    have hc31 : cur ≤ 31 := by rw [← hcur]; exact h31 _ (by omega)
    have hpos : (0 : ℚ) ≤ ((border exp t : ℚ) - lc) / 2 ^ cur := by
      have : (lc : ℚ) < border exp t := by exact_mod_cast hlc
      exact div_nonneg (by linarith) (by positivity)
    have htn := taken_nonneg exp lens (k + 1) t (by omega)
    have hf : 0 ≤ free := by rw [hfree]; linarith
    have hbl := border_lt exp (t := t) (by omega)
    have hm := hmono (t - 1) (by omega)
    rw [show t - 1 + 1 = t by omega, hcur] at hm
    by_cases hlt : lens (t - 1) < lens t
    · have hrun : runs lens (k + 1) t cur = (cur, t - 1) :: runs lens k (t + 1) (lens t) := by
        simp only [runs]; rw [if_pos hlt]
      obtain ⟨off, ho, he⟩ := entry_step exp (p := t - 1) (runs lens k (t + 1) (lens t)) hb hc31 hf
      set e : Entry := ⟨cur, t - 1, srcLast exp (t - 1), off⟩ with hedef
      have hfree' : free - ((e.last : ℚ) - lc) / 2 ^ e.len = taken exp lens (k + 1) t := by
        rw [hfree, hs]; simp [hedef]
      obtain ⟨es, h1, h2, h3, h4, el, h5, h6⟩ := ih (t + 1) (lens t) (cur + 1) (taken exp lens (k + 1) t) (border exp t) ((t - 1 : ℕ) : ℤ)
        (some e) (by omega) (by omega) rfl (by rw [hcur] at hlt; omega) (by omega) hbl (by simp only [taken])
        (by
          refine ⟨by rw [hs], by rw [hcur] at hlt; exact hlt, ?_⟩
          rw [← hfree']
          show (off : ℚ) + (srcLast exp (t - 1) : ℕ) + 1 = _
          rw [ho]
          simp only [hedef]
          field_simp
          ring)
      refine ⟨e :: es, ?_, ?_, rfl, by simp, el, by rw [List.getLast?_cons_of_ne_nil h4, h5], h6⟩
      · rw [hrun, he, h1]; rfl
      · refine ⟨hd, hc31, hlp, by simp only [hedef]; omega, rfl, ?_, ho, ?_⟩
        · simpa [hs] using hlc
        · rw [hfree']
          have : ((e.last : ℕ) : ℤ) = border exp t := by rw [hs]
          rw [this]
          exact h2
    · have hrun : runs lens (k + 1) t cur = runs lens k (t + 1) cur := by
        simp only [runs]; rw [if_neg hlt]
      have hlt' : lens t = cur := by rw [hcur] at hlt; omega
      rw [hrun]
      refine ih (t + 1) cur d free lc lp prev (by omega) (by omega) (by simpa using hlt') hd (by omega) (hlc.trans hbl) ?_ hb
      rw [hfree]
      simp only [taken, hlt']
      ring

/-- The table built from a complete monotone code. -/
theorem outPool_good (exp : Bool) (lens : ℕ → ℕ) (used : ℕ) (hu : 1 ≤ used) (hused : used ≤ baseCount exp)
    (hmono : ∀ t, t + 1 < used → lens t ≤ lens (t + 1)) (h31 : ∀ t < used, lens t ≤ 31) (hk : taken exp lens used 0 = 1) :
    ∃ es, outPool exp lens used = .ok es ∧ Good exp 1 (lens 0) (-1) (-1) es ∧ (es.headD ⟨0, 0, 0, 0⟩).len = lens 0 ∧ es ≠ [] ∧
      ∃ e, es.getLast? = some e ∧ e.last = srcLast exp (used - 1) := by
  unfold outPool
  refine table_built exp lens used hused hmono h31 (used - 1) 1 (lens 0) (lens 0) 1 (-1) (-1) none (by omega) (by omega) rfl
    (le_refl _) (by omega) (border_lt exp (t := 0) (by omega)) ?_ ⟨rfl, rfl⟩
  obtain ⟨k, rfl⟩ := Nat.exists_eq_add_of_le' hu
  rw [← hk]
  simp [taken, border]

theorem Good.length {exp : Bool} (es : List Entry) : ∀ {free : ℚ} {d : ℕ} {lc lp : ℤ}, Good exp free d lc lp es →
    lp + 1 ≤ baseCount exp → lp + 1 + es.length ≤ baseCount exp := by
  induction es with
  | nil => intro free d lc lp _ h; simpa using h
  | cons e es ih =>
    intro free d lc lp h hlp
    obtain ⟨-, -, h3, h4, -, -, -, h8⟩ := h
    have := ih h8 (by omega)
    simp only [List.length_cons]
    push_cast
    omega

/-! ### Reading the table -/

theorem srcLast_max (exp : Bool) {t : ℕ} (h : t < baseCount exp) : srcLast exp t ≤ 2147483648 := by
  refine (srcLast_le exp (show t ≤ baseCount exp - 1 by omega) (by omega)).trans ?_
  cases exp <;> decide +kernel

theorem srcLast_false_le (exp : Bool) {t : ℕ} (h : t < baseCount exp) : srcLast false t ≤ srcLast exp t := by
  cases exp with
  | false => exact le_refl _
  | true =>
    have : ∀ t < 16, srcLast false t ≤ srcLast true t := by decide +kernel
    exact this t h

theorem findSrc_ge (exp : Bool) {p c : ℕ} (hp : p < baseCount exp) (hc : srcLast exp p ≤ c) : p ≤ findSrc false c := by
  obtain ⟨h1, h2, h3⟩ := findSrc_spec false c
  have hp' : p < baseCount false := hp.trans_le (by cases exp <;> decide)
  by_contra hlt
  push Not at hlt
  rcases h3 with h3 | h3
  · omega
  · have := srcLast_strict false hlt hp'
    have := srcLast_false_le exp hp
    omega

theorem ofInt32_eq {x : ℤ} (h0 : 0 ≤ x) (h1 : x < 4294967296) : ofInt32 x = x.toNat := by
  unfold ofInt32; rw [Int.emod_eq_of_lt h0 h1]

theorem asInt_eq {n : ℕ} (h : n < 2147483648) : asInt n = n := by unfold asInt; rw [if_pos h]

theorem toU32_eq {q : ℚ} (h1 : -1 < q) (h2 : q < 4294967296) : toU32 q = .ok ⌊q⌋.toNat := by
  unfold toU32; rw [if_pos ⟨h1, h2⟩]

theorem toU32_nat {n : ℕ} (h : n < 4294967296) : toU32 (n : ℚ) = .ok n := by
  rw [toU32_eq (by have : (0 : ℚ) ≤ n := Nat.cast_nonneg n
                   linarith) (by exact_mod_cast h)]
  simp

/-- Symbol and pool before the next entry. -/
def Border (exp : Bool) (lc lp : ℤ) : Prop := (lc = -1 ∧ lp = -1) ∨ ∃ p : ℕ, lp = p ∧ p < baseCount exp ∧ lc = srcLast exp p

theorem Border.ge {exp : Bool} {lc lp : ℤ} (h : Border exp lc lp) : -1 ≤ lc ∧ -1 ≤ lp := by
  rcases h with ⟨rfl, rfl⟩ | ⟨p, rfl, -, rfl⟩
  · exact ⟨le_refl _, le_refl _⟩
  · omega

/-- The number of possibilities at length `d` is small enough and large enough. -/
theorem possAt_ok {exp : Bool} {free : ℚ} {lc lp : ℤ} {d : ℕ} (hb : Border exp lc lp) (h0 : 0 < free) (h1 : free ≤ 1)
    (hd : d ≤ 31) (hlc : lc < 2147483648) :
    ∃ n, possAt free lc lp d = .ok n ∧ 0 < n ∧ n ≤ 64 ∧
      ∀ p < baseCount exp, (srcLast exp p : ℚ) ≤ lc + free * 2 ^ d → lp < p → ofInt32 ((p : ℤ) - lp) < n := by
  obtain ⟨hge, hge'⟩ := hb.ge
  have e1 : (2 : ℚ) ^ d ≤ 2 ^ 31 := pow_le_pow_right₀ (by norm_num) hd
  have e2 : (0 : ℚ) < 2 ^ d := by positivity
  have hgeq : (-1 : ℚ) ≤ lc := by exact_mod_cast hge
  have hlcq : (lc : ℚ) ≤ 2147483647 := by exact_mod_cast (show lc ≤ 2147483647 by omega)
  have hpos : 0 < free * 2 ^ d := mul_pos h0 e2
  have hle : free * 2 ^ d ≤ 2147483648 := by
    have : free * 2 ^ d ≤ 1 * 2 ^ d := mul_le_mul_of_nonneg_right h1 e2.le
    norm_num at e1 ⊢
    linarith
  have hU := toU32_eq (q := lc + free * 2 ^ d) (by linarith) (by linarith)
  set c := ⌊(lc : ℚ) + free * 2 ^ d⌋.toNat with hcdef
  have hlcc : lc ≤ ⌊(lc : ℚ) + free * 2 ^ d⌋ := Int.le_floor.2 (by linarith)
  have hc62 : findSrc false c < 63 := (findSrc_spec false c).1
  have hlpc : lp ≤ findSrc false c := by
    rcases hb with ⟨-, rfl⟩ | ⟨p, rfl, hp, hlc'⟩
    · omega
    · have := findSrc_ge exp hp (c := c) (by omega)
      exact_mod_cast this
  refine ⟨ofInt32 ((findSrc false c : ℤ) - lp + 1), ?_, ?_, ?_, ?_⟩
  · unfold possAt
    rw [if_neg (by omega), hU]
    rfl
  · rw [ofInt32_eq (by omega) (by omega)]; omega
  · rw [ofInt32_eq (by omega) (by omega)]; omega
  · intro p hp hq hlt
    have : (srcLast exp p : ℤ) ≤ ⌊(lc : ℚ) + free * 2 ^ d⌋ := Int.le_floor.2 (by exact_mod_cast hq)
    have := findSrc_ge exp hp (c := c) (by omega)
    rw [ofInt32_eq (by omega) (by omega), ofInt32_eq (by omega) (by omega)]
    omega

theorem selBits_reads {f : ℕ × ℕ} (h : f.1 < f.2) (h2 : f.2 ≤ 64) : Reads (nineOfSeven f.2) (selBits f.1 f.2) f.1 :=
  (selection h (h2.trans (by norm_num))).2.2

/-- The bits of a list of choices. -/
def bitsOfFields (fs : List (ℕ × ℕ)) : List Bool := fs.flatMap fun f => selBits f.1 f.2

@[simp] theorem bitsOfFields_nil : bitsOfFields [] = [] := rfl
@[simp] theorem bitsOfFields_cons (f : ℕ × ℕ) (fs : List (ℕ × ℕ)) : bitsOfFields (f :: fs) = selBits f.1 f.2 ++ bitsOfFields fs := rfl
theorem bitsOfFields_append (a b : List (ℕ × ℕ)) : bitsOfFields (a ++ b) = bitsOfFields a ++ bitsOfFields b := by
  simp [bitsOfFields]

/-- Reading the next entry skips the lengths without one. -/
theorem nextEntry_reads {exp : Bool} {free : ℚ} {lc lp : ℤ} (hb : Border exp lc lp) (h0 : 0 < free) (h1 : free ≤ 1)
    (hlc : lc < 2147483648) {p len : ℕ} (hp : p < baseCount exp) (hq : (srcLast exp p : ℚ) ≤ lc + free * 2 ^ len) (hlt : lp < p)
    (hlen : len ≤ 31) (k : ℕ) : ∀ d fuel, d + k = len → k < fuel →
    ∃ fs n, skipFields free lc lp k d = .ok fs ∧ possAt free lc lp len = .ok n ∧ fs.length = k ∧
      (∀ f ∈ fs, f.1 < f.2 ∧ f.2 ≤ 64) ∧ ofInt32 ((p : ℤ) - lp) < n ∧ n ≤ 64 ∧
      Reads (nextEntry free lc lp fuel d) (bitsOfFields fs ++ selBits (ofInt32 ((p : ℤ) - lp)) n) (len, ofInt32 ((p : ℤ) - lp)) := by
  have hge := hb.ge
  have hp64 : p < 64 := hp.trans_le (baseCount_le exp)
  have hpos : ofInt32 ((p : ℤ) - lp) ≠ 0 := by rw [ofInt32_eq (by omega) (by omega)]; omega
  induction k with
  | zero =>
    intro d fuel hd hf
    obtain ⟨fuel, rfl⟩ := Nat.exists_eq_succ_of_ne_zero (show fuel ≠ 0 by omega)
    have hd' : d = len := by omega
    subst hd'
    obtain ⟨n, e, n0, n64, h⟩ := possAt_ok hb h0 h1 hlen hlc
    have hn := h p hp hq hlt
    refine ⟨[], n, rfl, e, rfl, by simp, hn, n64, ?_⟩
    rw [bitsOfFields_nil]
    unfold nextEntry
    rw [e]
    refine Reads.bind (Reads.lift n) ?_
    rw [← List.append_nil (selBits _ n)]
    refine Reads.bind (selBits_reads (f := (ofInt32 ((p : ℤ) - lp), n)) hn n64) ?_
    rw [if_neg hpos]
    exact Reads.pure _
  | succ k ih =>
    intro d fuel hd hf
    obtain ⟨fuel, rfl⟩ := Nat.exists_eq_succ_of_ne_zero (show fuel ≠ 0 by omega)
    obtain ⟨n, e, n0, n64, -⟩ := possAt_ok hb h0 h1 (show d ≤ 31 by omega) hlc
    obtain ⟨fs, m, i1, i2, i3, i4, i5, i6, i7⟩ := ih (d + 1) fuel (by omega) (by omega)
    refine ⟨(0, n) :: fs, m, ?_, i2, by simp [i3], ?_, i5, i6, ?_⟩
    · unfold skipFields
      rw [e]
      show (skipFields free lc lp k (d + 1) >>= fun fs => pure ((0, n) :: fs)) = _
      rw [i1]; rfl
    · intro f hf
      rcases List.mem_cons.1 hf with rfl | hf
      · exact ⟨n0, n64⟩
      · exact i4 f hf
    · unfold nextEntry
      rw [e, bitsOfFields_cons, List.append_assoc, ← List.nil_append (selBits _ _ ++ _)]
      refine Reads.bind (Reads.lift n) ?_
      refine Reads.bind (selBits_reads (f := (0, n)) n0 n64) ?_
      rw [if_pos rfl]
      exact i7

/-- The table holds the entries from index `t` on. -/
def Holds (tab : Table) : ℕ → List Entry → Prop
  | _, [] => True
  | t, e :: es => tab.len t = e.len ∧ tab.last t = e.last ∧ tab.offset t = e.offset ∧ Holds tab (t + 1) es

theorem table_read (exp : Bool) (es : List Entry) :
    ∀ (k t d : ℕ) (free : ℚ) (lc lp : ℤ) (tab : Table), es ≠ [] → Good exp free d lc lp es → Border exp lc lp → free ≤ 1 →
      k + t = baseCount exp → (t : ℤ) ≤ lp + 1 → 
      ∃ fs, tableFields free lc lp d es = .ok fs ∧ fs.length ≤ 32 - d ∧ (∀ f ∈ fs, f.1 < f.2 ∧ f.2 ≤ 64) ∧
        ∃ tab' : Table, Reads (readTable exp k t free lc lp d tab) (bitsOfFields fs) tab' ∧ tab'.count = tab.count + es.length ∧
          Holds tab' t es ∧ ∀ i < t, tab'.len i = tab.len i ∧ tab'.last i = tab.last i ∧ tab'.offset i = tab.offset i := by
  induction es with
  | nil => intro k t d free lc lp tab h; exact absurd rfl h
  | cons e es ih =>
    intro k t d free lc lp tab _ hg hb hf1 hk ht
    have hpos := hg.pos
    obtain ⟨g1, g2, g3, g4, g5, g6, g7, g8⟩ := hg
    have hge := hb.ge
    have hmax := srcLast_max exp g4
    rw [← g5] at hmax
    have hlcm : lc < 2147483648 := by omega
    have hfree' := g8.nonneg
    have hp2 : (0 : ℚ) < 2 ^ e.len := by positivity
    have hq : (srcLast exp e.lastPool : ℚ) ≤ lc + free * 2 ^ e.len := by
      rw [← g5]
      rw [sub_nonneg, div_le_iff₀ hp2] at hfree'
      linarith
    obtain ⟨sk, n, i1, i2, i3, i4, i5, i6, i7⟩ := nextEntry_reads hb hpos hf1 hlcm g4 hq g3 g2 (e.len - d) d 130 (by omega) (by omega)
    have hp64 : e.lastPool < 64 := g4.trans_le (baseCount_le exp)
    have hsel : ofInt32 ((e.lastPool : ℤ) - lp) = ((e.lastPool : ℤ) - lp).toNat := ofInt32_eq (by omega) (by omega)
    have hlpe : lp + ((ofInt32 ((e.lastPool : ℤ) - lp) : ℕ) : ℤ) = e.lastPool := by rw [hsel]; omega
    have hdiff : (ofInt32 ((e.last : ℤ) - lc) : ℚ) = (e.last : ℚ) - lc := by
      rw [ofInt32_eq (by omega) (by omega)]
      have : ((((e.last : ℤ) - lc).toNat : ℤ) : ℚ) = ((e.last : ℤ) - lc : ℤ) := by
        rw [Int.toNat_of_nonneg (by omega)]
      push_cast at this
      exact_mod_cast this
    -- one round of the loop
    obtain ⟨k, rfl⟩ := Nat.exists_eq_succ_of_ne_zero (show k ≠ 0 by omega)
    set free' := free - ((e.last : ℚ) - lc) / 2 ^ e.len with hfdef
    set tab1 : Table := ⟨tab.count + 1, setAt tab.len t e.len, setAt tab.last t e.last, setAt tab.offset t e.offset⟩ with htab1
    have hround : ∀ (bits : List Bool) (x : Table),
        Reads (if free' = 0 then Get.pure tab1 else readTable exp k (t + 1) free' (asInt e.last) e.lastPool (e.len + 1) tab1) bits x →
        Reads (readTable exp (k + 1) t free lc lp d tab) (bitsOfFields sk ++ selBits (ofInt32 ((e.lastPool : ℤ) - lp)) n ++ bits) x := by
      intro bits x h
      unfold readTable
      refine Reads.bind i7 ?_
      simp only [hlpe]
      have hmod : (((e.lastPool : ℤ) % 256).toNat) = e.lastPool := by omega
      rw [hmod, show lastAt exp e.lastPool = .ok e.last by unfold lastAt; rw [if_pos hp64, g5]]
      rw [← List.nil_append bits]
      refine Reads.bind (Reads.lift e.last) ?_
      rw [show pow2 e.len = .ok (2 ^ e.len) by unfold pow2; rw [if_pos (by omega)]]
      rw [← List.nil_append bits]
      refine Reads.bind (Reads.lift (2 ^ e.len)) ?_
      have hoff : toU32 ((1 - free) * ((2 ^ e.len : ℕ) : ℚ) - (lc : ℚ) - 1) = .ok e.offset := by
        rw [show (1 - free) * ((2 ^ e.len : ℕ) : ℚ) - (lc : ℚ) - 1 = (e.offset : ℚ) by rw [g7]; push_cast; ring]
        apply toU32_nat
        have e1 : (2 : ℚ) ^ e.len ≤ 2 ^ 31 := pow_le_pow_right₀ (by norm_num) g2
        have h3 : (1 - free) * 2 ^ e.len ≤ 1 * 2 ^ e.len := mul_le_mul_of_nonneg_right (by linarith) hp2.le
        have h4 : (-1 : ℚ) ≤ lc := by exact_mod_cast hge.1
        have : (e.offset : ℚ) < 4294967296 := by
          rw [g7]; norm_num at e1; linarith
        exact_mod_cast this
      rw [hoff, ← List.nil_append bits]
      refine Reads.bind (Reads.lift e.offset) ?_
      rw [hdiff]
      exact h
    by_cases hes : es = []
    · subst hes
      have hz : free' = 0 := g8
      refine ⟨sk ++ [(ofInt32 ((e.lastPool : ℤ) - lp), n)], ?_, ?_, ?_, tab1, ?_, rfl, ?_, ?_⟩
      · unfold tableFields
        rw [i1, i2]; rfl
      · simp [i3]; omega
      · intro f hf
        rcases List.mem_append.1 hf with hf | hf
        · exact i4 f hf
        · rw [List.mem_singleton] at hf; subst hf; exact ⟨i5, i6⟩
      · have := hround [] tab1 (by rw [if_pos hz]; exact Reads.pure _)
        simpa [bitsOfFields_append] using this
      · exact ⟨by simp [htab1, setAt], by simp [htab1, setAt], by simp [htab1, setAt], trivial⟩
      · intro i hi
        have : i ≠ t := by omega
        simp [htab1, setAt, this]
    · have hz : free' ≠ 0 := by
        obtain ⟨e2, es2, rfl⟩ := List.exists_cons_of_ne_nil hes
        exact g8.pos.ne'
      have hlast : e.last < 2147483648 := by
        obtain ⟨e2, es2, rfl⟩ := List.exists_cons_of_ne_nil hes
        obtain ⟨-, -, -, a, b, c, -, -⟩ := g8
        have := srcLast_max exp a
        omega
      have hf1' : free' ≤ 1 := by
        have h3 : (0 : ℚ) ≤ ((e.last : ℚ) - lc) / 2 ^ e.len := by
          have : (lc : ℚ) < e.last := by exact_mod_cast g6
          exact div_nonneg (by linarith) hp2.le
        linarith
      obtain ⟨fs, j1, j2, j3, tab', j4, j5, j6, j7⟩ := ih k (t + 1) (e.len + 1) free' e.last e.lastPool tab1 hes g8
        (Or.inr ⟨e.lastPool, rfl, g4, by rw [g5]⟩) hf1' (by omega) (by push_cast; omega)
      refine ⟨sk ++ (ofInt32 ((e.lastPool : ℤ) - lp), n) :: fs, ?_, ?_, ?_, tab', ?_, ?_, ?_, ?_⟩
      · unfold tableFields
        rw [i1, i2, hdiff, asInt_eq hlast]
        show (tableFields free' e.last e.lastPool (e.len + 1) es >>= fun fs => pure (sk ++ (ofInt32 ((e.lastPool : ℤ) - lp), n) :: fs)) = _
        rw [j1]; rfl
      · simp only [List.length_append, List.length_cons, i3]; omega
      · intro f hf
        rcases List.mem_append.1 hf with hf | hf
        · exact i4 f hf
        · rcases List.mem_cons.1 hf with rfl | hf
          · exact ⟨i5, i6⟩
          · exact j3 f hf
      · have := hround (bitsOfFields fs) tab' (by rw [if_neg hz, asInt_eq hlast]; exact j4)
        simpa [bitsOfFields_append] using this
      · rw [j5]; simp [htab1]; omega
      · obtain ⟨a1, a2, a3⟩ := j7 t (by omega)
        exact ⟨by rw [a1]; simp [htab1, setAt], by rw [a2]; simp [htab1, setAt], by rw [a3]; simp [htab1, setAt], j6⟩
      · intro i hi
        obtain ⟨a1, a2, a3⟩ := j7 i (by omega)
        have : i ≠ t := by omega
        rw [a1, a2, a3]
        simp [htab1, setAt, this]

end WB.Sf
