import Mathlib.Data.Nat.Factorization.Basic
import Verif.Proof.SfOverflow

/-!
With up to 2^18 values the choice of code lengths does not depend on how `double`s are rounded, nor on what is left in the object: it
is a computation with integers.
-/

namespace WB.Sf

open Spec

/-! ### the computation with integers -/

def scanN (last up : ℕ → ℕ) (n len F codes count : ℕ) : ℕ → ℕ → ℕ → ℕ
  | 0, _, next => next
  | k + 1, t, next =>
    if F < (last t + 1 - codes) * (2 ^ (32 - len) - 1) then next
    else scanN last up n len F codes count k (t + 1)
      (if (last t + 1 - codes) * (2 ^ (32 - len) - 1) * n ≤ (up t - count) * F then t + 1 else next)

def assignN (last up : ℕ → ℕ) (n used : ℕ) : ℕ → ℕ → Ready → (ℕ → ℕ)
  | 0, _, s => s.lens
  | k + 1, len, s =>
    let next := scanN last up n len (2 ^ 32 - (last (used - 1) + 1 - s.codes)) s.codes s.count (used - s.pools) s.pools s.pools
    let s' := if s.pools < next then
        ⟨fun t => if s.pools ≤ t ∧ t < next then len else s.lens t, next, last (next - 1) + 1, up (next - 1)⟩
      else s
    if s'.pools = used then s'.lens else assignN last up n used k (len + 1) s'

def chooseN : Choose := fun exp n q =>
  let used := topUsed q (baseCount exp)
  let lens := assignN (srcLast exp) (countUp q) n used 33 0 ⟨fun _ => 0, 0, 0, 0⟩
  fill (codeQty exp) used 2048 lens (1 - ((List.range used).map fun t => (codeQty exp t : ℚ) / 2 ^ lens t).sum)

/-! ### rounding does not matter -/

theorem share_exact {f : ℝ → ℝ} (hf : RoundsToNearest (FloatNumbers 53 (-1074)) f) {x F i n : ℕ} (hF : 0 < F) (hF32 : F ≤ 2 ^ 32)
    (hn : 0 < n) (hn18 : n ≤ 2 ^ 18) (hi : i ≤ n) :
    (1 < f (f (x : ℝ) / F) ↔ F < x) ∧ (x ≤ F → (f (f (x : ℝ) / F) ≤ f ((i : ℝ) / n) ↔ x * n ≤ i * F)) := by
  have hF' : (0 : ℝ) < F := by exact_mod_cast hF
  have hn' : (0 : ℝ) < n := by exact_mod_cast hn
  have e1 : f 1 = 1 := nearest_exact hf (by simpa using natCast_double (n := 1) (by norm_num))
  have hle : x ≤ F → f (x : ℝ) = x := fun h => nearest_exact hf (natCast_double (lt_of_le_of_lt (h.trans hF32) (by norm_num)))
  refine ⟨⟨fun h => ?_, fun h => ?_⟩, fun hx => ⟨fun h => ?_, fun h => ?_⟩⟩
  · by_contra hc
    push Not at hc
    rw [hle hc] at h
    have h1 : (x : ℝ) / F ≤ 1 := by rw [div_le_one hF']; exact_mod_cast hc
    have := nearest_mono hf h1
    rw [e1] at this
    linarith
  · have h1 : ((F + 1 : ℕ) : ℝ) ≤ f x := round_ge hf (natCast_double (lt_of_le_of_lt (Nat.add_le_add_right hF32 1) (by norm_num))) (by exact_mod_cast h)
    have h2 : (4294967297 : ℝ) / 4294967296 ≤ f x / F := by
      rw [div_le_div_iff₀ (by norm_num) hF']
      have h3 : (F : ℝ) ≤ 4294967296 := by exact_mod_cast hF32
      push_cast at h1
      nlinarith
    have hd : (4294967297 : ℝ) / 4294967296 ∈ FloatNumbers 53 (-1074) :=
      ⟨4294967297, -32, by norm_num, by norm_num, by rw [zpow_neg]; norm_num⟩
    have := round_ge hf hd h2
    have h4 : (1 : ℝ) < 4294967297 / 4294967296 := by norm_num
    linarith
  · by_contra hc
    push Not at hc
    rw [hle hx] at h
    have hi1 : (i : ℝ) / n ≤ 1 := by rw [div_le_one hn']; exact_mod_cast hi
    have hx1 : (x : ℝ) / F ≤ 1 := by rw [div_le_one hF']; exact_mod_cast hx
    have hi0 : (0 : ℝ) ≤ (i : ℝ) / n := by positivity
    have hx0 : (0 : ℝ) ≤ (x : ℝ) / F := by positivity
    have hgap : (1 : ℝ) / 2 ^ 50 ≤ (x : ℝ) / F - (i : ℝ) / n := by
      rw [div_sub_div _ _ hF'.ne' hn'.ne', div_le_div_iff₀ (by norm_num) (by positivity)]
      have h1 : ((i * F + 1 : ℕ) : ℝ) ≤ ((x * n : ℕ) : ℝ) := by exact_mod_cast hc
      have h2 : ((F * n : ℕ) : ℝ) ≤ ((2 ^ 50 : ℕ) : ℝ) := by
        have : F * n ≤ 2 ^ 32 * 2 ^ 18 := Nat.mul_le_mul hF32 hn18
        exact_mod_cast this.trans (by norm_num)
      push_cast at h1 h2
      nlinarith
    have s1 := rounds_std (by norm_num) hf ((x : ℝ) / F)
    have s2 := rounds_std (by norm_num) hf ((i : ℝ) / n)
    have hη : (2 : ℝ) ^ ((-1074 : ℤ) - 1) ≤ 1 / 2 ^ 60 := by
      rw [show (1 : ℝ) / 2 ^ 60 = 2 ^ (-60 : ℤ) by norm_num]
      exact zpow_le_zpow_right₀ (by norm_num) (by norm_num)
    have hδ : (2 : ℝ) ^ (-((53 : ℕ) : ℤ)) = 1 / 2 ^ 53 := by norm_num
    rw [hδ, abs_of_nonneg hx0] at s1
    rw [hδ, abs_of_nonneg hi0] at s2
    have a1 := (abs_le.1 s1).1
    have a2 := (abs_le.1 s2).2
    norm_num at a1 a2 hη hgap
    linarith
  · rw [hle hx]
    refine nearest_mono hf ?_
    rw [div_le_div_iff₀ hF' hn']
    exact_mod_cast h

theorem scan_exact {r : Rounding} (hr : RoundsToNearest (FloatNumbers 53 (-1074)) r.toDouble) {last up : ℕ → ℕ} {n len F codes count : ℕ}
    (hF : 0 < F) (hF32 : F ≤ 2 ^ 32) (hn : 0 < n) (hn18 : n ≤ 2 ^ 18) : ∀ k t next, (∀ s, t ≤ s → s < t + k → up s ≤ n) →
      scan r last up n len (F : ℝ) codes count k t next = scanN last up n len F codes count k t next
  | 0, _, _, _ => rfl
  | k + 1, t, next, hup => by
    have hcast : (((last t + 1 - codes : ℕ) : ℝ) * (2 ^ (32 - len) - 1)) = (((last t + 1 - codes) * (2 ^ (32 - len) - 1) : ℕ) : ℝ) := by
      rw [Nat.cast_mul, Nat.cast_sub (Nat.one_le_pow (32 - len) 2 (by norm_num))]
      norm_num
    obtain ⟨h1, h2⟩ := share_exact hr (x := (last t + 1 - codes) * (2 ^ (32 - len) - 1)) (i := up t - count) hF hF32 hn hn18
      (by have := hup t le_rfl (by omega); omega)
    unfold scan scanN
    simp only [hcast]
    by_cases hx : F < (last t + 1 - codes) * (2 ^ (32 - len) - 1)
    · rw [if_pos (h1.2 hx), if_pos hx]
    · rw [if_neg (fun h => hx (h1.1 h)), if_neg hx, scan_exact hr hF hF32 hn hn18 k (t + 1) _ fun s a b => hup s (by omega) (by omega)]
      congr 1
      simp only [h2 (by omega)]

theorem assign_exact {r : Rounding} (hr : RoundsToNearest (FloatNumbers 53 (-1074)) r.toDouble) {last up : ℕ → ℕ} {n used : ℕ}
    (hn : 0 < n) (hn18 : n ≤ 2 ^ 18) (hlast : last (used - 1) < 4294967295) (hup : ∀ s < used, up s ≤ n) : ∀ k len s,
      assign r last up n used k len s = assignN last up n used k len s
  | 0, _, _ => rfl
  | k + 1, len, s => by
    have hF : (2 : ℝ) ^ 32 - ((last (used - 1) + 1 - s.codes : ℕ) : ℝ) = ((2 ^ 32 - (last (used - 1) + 1 - s.codes) : ℕ) : ℝ) := by
      have h : last (used - 1) + 1 - s.codes ≤ 2 ^ 32 := by norm_num; omega
      rw [Nat.cast_sub h]
      norm_num
    unfold assign assignN
    simp only [hF]
    have h1 := scan_exact hr (last := last) (up := up) (n := n) (len := len) (F := 2 ^ 32 - (last (used - 1) + 1 - s.codes)) (codes := s.codes)
      (count := s.count) (by norm_num; omega) (Nat.sub_le _ _) hn hn18 (used - s.pools) s.pools s.pools (fun t a b => hup t (by omega))
    rw [h1]
    simp only [assign_exact hr hn hn18 hlast hup k]

/-! ### ties do not occur -/

theorem scaled {x : ℝ} (h : x ∈ FloatNumbers 53 (-1074)) : ∃ a : ℤ, x * 2 ^ 1074 = a := by
  obtain ⟨m, e, -, he, rfl⟩ := h
  obtain ⟨k, hk⟩ := Int.le.dest he
  refine ⟨m * 2 ^ k, ?_⟩
  have : (2 : ℝ) ^ e * 2 ^ 1074 = 2 ^ k := by
    rw [← zpow_natCast (2 : ℝ) 1074, ← zpow_add₀ (by norm_num), ← zpow_natCast]
    congr 1
    push_cast
    omega
  rw [mul_assoc, this]
  push_cast
  rfl

theorem ratio_dyadic {x F K : ℕ} {a : ℤ} (hF : 0 < F) (hx : x ≤ F) (hF32 : F ≤ 2 ^ 32) (h : (x : ℝ) / F * 2 ^ K = a) :
    (x : ℝ) / F ∈ FloatNumbers 53 (-1074) := by
  obtain ⟨j, o, ho, rfl⟩ := Nat.exists_eq_two_pow_mul_odd (n := F) (by omega)
  have hopos : 0 < o := ho.pos
  have h1 : (x * 2 ^ K : ℤ) = a * (2 ^ j * o) := by
    have : (x : ℝ) * 2 ^ K = a * (2 ^ j * o) := by
      rw [← h]
      have : ((2 ^ j * o : ℕ) : ℝ) ≠ 0 := by positivity
      push_cast at this ⊢
      field_simp
    exact_mod_cast this
  have h2 : o ∣ x * 2 ^ K := by
    have : (o : ℤ) ∣ ((x * 2 ^ K : ℕ) : ℤ) := ⟨a * 2 ^ j, by push_cast; rw [h1]; ring⟩
    exact_mod_cast this
  have hco : Nat.Coprime o (2 ^ K) := (Nat.coprime_two_right.2 ho).pow_right K
  obtain ⟨w, rfl⟩ := hco.dvd_of_dvd_mul_right h2
  have hj : j ≤ 32 := by
    by_contra hc
    have : 2 ^ 33 ≤ 2 ^ j := Nat.pow_le_pow_right (by norm_num) (by omega)
    have : 2 ^ j ≤ 2 ^ j * o := Nat.le_mul_of_pos_right _ hopos
    omega
  have hw : w ≤ 2 ^ j := by
    by_contra hc
    push Not at hc
    nlinarith
  have hw2 : w < 2 ^ 53 := lt_of_le_of_lt (hw.trans (Nat.pow_le_pow_right (by norm_num) hj)) (by norm_num)
  refine ⟨w, -j, by rw [abs_of_nonneg (by positivity)]; exact_mod_cast hw2, by omega, ?_⟩
  have : (o : ℝ) ≠ 0 := by exact_mod_cast hopos.ne'
  rw [zpow_neg, zpow_natCast]
  push_cast
  field_simp

theorem ratio_unique {f f' : ℝ → ℝ} (hf : RoundsToNearest (FloatNumbers 53 (-1074)) f) (hf' : RoundsToNearest (FloatNumbers 53 (-1074)) f') {x F : ℕ}
    (hF : 0 < F) (hx : x ≤ F) (hF32 : F ≤ 2 ^ 32) : f ((x : ℝ) / F) = f' ((x : ℝ) / F) := by
  by_contra hne
  have h1 := (hf ((x : ℝ) / F)).2 _ (hf' ((x : ℝ) / F)).1
  have h2 := (hf' ((x : ℝ) / F)).2 _ (hf ((x : ℝ) / F)).1
  obtain ⟨a, ha⟩ := scaled (hf ((x : ℝ) / F)).1
  obtain ⟨b, hb⟩ := scaled (hf' ((x : ℝ) / F)).1
  have hmid : (x : ℝ) / F * 2 = f ((x : ℝ) / F) + f' ((x : ℝ) / F) := by
    rcases abs_eq_abs.1 (le_antisymm h1 h2) with h | h
    · exact absurd (by linarith) hne
    · linarith
  have : (x : ℝ) / F ∈ FloatNumbers 53 (-1074) := by
    refine ratio_dyadic (K := 1075) (a := a + b) hF hx hF32 ?_
    rw [pow_succ', ← mul_assoc, hmid, add_mul, ha, hb]
    push_cast
    rfl
  exact hne (by rw [nearest_exact hf this, nearest_exact hf' this])

theorem above_exact {f : ℝ → ℝ} (hf : RoundsToNearest (FloatNumbers 53 (-1074)) f) {x F : ℕ} (hF : 0 < F) (hF32 : F ≤ 2 ^ 32) :
    1 < f (f (x : ℝ) / F) ↔ F < x := (share_exact hf (i := 0) (n := 1) hF hF32 (by norm_num) (by norm_num) (by norm_num)).1

theorem scan_unique {r r' : Rounding} (hr : RoundsToNearest (FloatNumbers 53 (-1074)) r.toDouble)
    (hr' : RoundsToNearest (FloatNumbers 53 (-1074)) r'.toDouble) {last up : ℕ → ℕ} {n len F codes count : ℕ}
    (hF : 0 < F) (hF32 : F ≤ 2 ^ 32) (hn : 0 < n) (hn32 : n ≤ 2 ^ 32) : ∀ k t next, (∀ s, t ≤ s → s < t + k → up s ≤ n) →
      scan r last up n len (F : ℝ) codes count k t next = scan r' last up n len (F : ℝ) codes count k t next
  | 0, _, _, _ => rfl
  | k + 1, t, next, hup => by
    have hcast : (((last t + 1 - codes : ℕ) : ℝ) * (2 ^ (32 - len) - 1)) = (((last t + 1 - codes) * (2 ^ (32 - len) - 1) : ℕ) : ℝ) := by
      rw [Nat.cast_mul, Nat.cast_sub (Nat.one_le_pow (32 - len) 2 (by norm_num))]
      norm_num
    unfold scan
    simp only [hcast]
    generalize hX : (last t + 1 - codes) * (2 ^ (32 - len) - 1) = x
    by_cases hx : F < x
    · rw [if_pos ((above_exact hr hF hF32).2 hx), if_pos ((above_exact hr' hF hF32).2 hx)]
    · have hd := natCast_double (n := x) (lt_of_le_of_lt ((not_lt.1 hx).trans hF32) (by norm_num))
      rw [if_neg (fun h => hx ((above_exact hr hF hF32).1 h)), if_neg (fun h => hx ((above_exact hr' hF hF32).1 h)),
        scan_unique hr hr' hF hF32 hn hn32 k (t + 1) _ fun s a b => hup s (by omega) (by omega),
        nearest_exact hr hd, nearest_exact hr' hd, ratio_unique hr hr' hF (not_lt.1 hx) hF32,
        ratio_unique hr hr' hn (by have := hup t le_rfl (by omega); omega : up t - count ≤ n) hn32]

theorem assign_unique {r r' : Rounding} (hr : RoundsToNearest (FloatNumbers 53 (-1074)) r.toDouble)
    (hr' : RoundsToNearest (FloatNumbers 53 (-1074)) r'.toDouble) {last up : ℕ → ℕ} {n used : ℕ}
    (hn : 0 < n) (hn32 : n ≤ 2 ^ 32) (hlast : last (used - 1) < 4294967295) (hup : ∀ s < used, up s ≤ n) : ∀ k len s,
      assign r last up n used k len s = assign r' last up n used k len s
  | 0, _, _ => rfl
  | k + 1, len, s => by
    have hF : (2 : ℝ) ^ 32 - ((last (used - 1) + 1 - s.codes : ℕ) : ℝ) = ((2 ^ 32 - (last (used - 1) + 1 - s.codes) : ℕ) : ℝ) := by
      have h : last (used - 1) + 1 - s.codes ≤ 2 ^ 32 := by norm_num; omega
      rw [Nat.cast_sub h]
      norm_num
    unfold assign
    simp only [hF]
    have h1 := scan_unique hr hr' (last := last) (up := up) (n := n) (len := len) (F := 2 ^ 32 - (last (used - 1) + 1 - s.codes)) (codes := s.codes)
      (count := s.count) (by norm_num; omega) (Nat.sub_le _ _) hn hn32 (used - s.pools) s.pools s.pools (fun t a b => hup t (by omega))
    rw [h1]
    simp only [assign_unique hr hr' hn hn32 hlast hup k]

/-! ### what is left in the object does not matter -/

theorem scan_zero {r : Rounding} (hr : RoundsToNearest (FloatNumbers 53 (-1074)) r.toDouble) {last up : ℕ → ℕ} {n codes count : ℕ} {free : ℝ} :
    ∀ k t next, scan r last up n 32 free codes count (k + 1) t next = t + (k + 1) := by
  have h0 : r.toDouble 0 = 0 := nearest_exact hr (by simpa using natCast_double (n := 0) (by norm_num))
  have hist : ∀ a : ℕ, 0 ≤ r.toDouble ((a : ℝ) / n) := fun a => by
    have := nearest_mono hr (x := 0) (y := (a : ℝ) / n) (by positivity)
    rwa [h0] at this
  intro k
  induction k with
  | zero =>
    intro t next
    simp only [scan, Nat.sub_self, pow_zero, sub_self, mul_zero, h0, zero_div]
    rw [if_neg (by norm_num), if_pos (hist _)]
  | succ k ih =>
    intro t next
    rw [scan]
    simp only [Nat.sub_self, pow_zero, sub_self, mul_zero, h0, zero_div]
    rw [if_neg (by norm_num), ih]
    omega

theorem scan_le {r : Rounding} {last up : ℕ → ℕ} {n len codes count : ℕ} {free : ℝ} : ∀ k t next, next ≤ t →
    scan r last up n len free codes count k t next ≤ t + k
  | 0, _, _, h => h
  | k + 1, t, next, h => by
    unfold scan
    simp only
    split
    · omega
    · refine (scan_le k (t + 1) _ ?_).trans (by omega)
      split <;> omega

theorem assign_old {r : Rounding} (hr : RoundsToNearest (FloatNumbers 53 (-1074)) r.toDouble) {last up : ℕ → ℕ} {n used : ℕ} : ∀ k len (s s' : Ready), len + k = 32 → s.pools < used → s.pools = s'.pools → s.codes = s'.codes →
    s.count = s'.count → (∀ t < s.pools, s.lens t = s'.lens t) →
    ∀ t < used, assign r last up n used (k + 1) len s t = assign r last up n used (k + 1) len s' t := by
  intro k
  induction k with
  | zero =>
    rintro len ⟨l, p, c, a⟩ ⟨l', p', c', a'⟩ hk h1 h2 h3 h4 h5 t ht
    simp only at h1 h2 h3 h4 h5
    subst h2 h3 h4
    obtain rfl : len = 32 := by omega
    obtain ⟨j, hj⟩ : ∃ j, used - p = j + 1 := ⟨used - p - 1, by omega⟩
    have hs := fun F => scan_zero hr (last := last) (up := up) (n := n) (free := F) (codes := c) (count := a) j p p
    unfold assign
    simp only [hj, hs]
    have hu : p + (j + 1) = used := by omega
    rw [if_pos (by omega : p < p + (j + 1)), if_pos (by omega : p < p + (j + 1))]
    simp only [hu, if_true]
    by_cases hp : p ≤ t
    · simp [hp, ht]
    · simp [hp, h5 t (by omega)]
  | succ k ih =>
    rintro len ⟨l, p, c, a⟩ ⟨l', p', c', a'⟩ hk h1 h2 h3 h4 h5 t ht
    simp only at h1 h2 h3 h4 h5
    subst h2 h3 h4
    rw [assign, assign.eq_def _ _ _ _ _ (k + 1 + 1) _ ⟨l', _, _, _⟩]
    simp only
    generalize hnext : scan r last up n len (2 ^ 32 - ((last (used - 1) + 1 - c : ℕ) : ℝ)) c a (used - p) p p = next
    have hle : next ≤ used := by
      rw [← hnext]
      refine (scan_le _ _ _ le_rfl).trans ?_
      omega
    by_cases hp : p < next
    · simp only [if_pos hp]
      have key : ∀ s < next, (if p ≤ s ∧ s < next then len else l s) = if p ≤ s ∧ s < next then len else l' s := by
        intro s hs
        by_cases hps : p ≤ s
        · simp [hps, hs]
        · simp [hps, h5 s (by omega)]
      by_cases hu : next = used
      · rw [if_pos hu, if_pos hu]
        exact key t (by omega)
      · rw [if_neg hu, if_neg hu]
        refine ih (len + 1) ⟨fun s => if p ≤ s ∧ s < next then len else l s, next, last (next - 1) + 1, up (next - 1)⟩
          ⟨fun s => if p ≤ s ∧ s < next then len else l' s, next, last (next - 1) + 1, up (next - 1)⟩ (by omega) ?_ rfl rfl rfl key t ht
        show next < used
        omega
    · simp only [if_neg hp]
      rw [if_neg (by omega), if_neg (by omega)]
      exact ih (len + 1) ⟨l, p, c, a⟩ ⟨l', p, c, a⟩ (by omega) h1 rfl rfl rfl h5 t ht

/-! ### the second part looks only at the pools in use -/

def SameLens (used : ℕ) (a b : Outcome (ℕ → ℕ)) : Prop :=
  (∃ l l', a = .ok l ∧ b = .ok l' ∧ ∀ t < used, l t = l' t) ∨ (a = .ub ∧ b = .ub)

theorem SameLens.trans {used : ℕ} {a b c : Outcome (ℕ → ℕ)} (h : SameLens used a b) (h' : SameLens used b c) : SameLens used a c := by
  rcases h with ⟨l, l', rfl, rfl, h⟩ | ⟨rfl, rfl⟩ <;> rcases h' with ⟨m, m', e, rfl, h'⟩ | ⟨e, rfl⟩
  · cases e
    exact Or.inl ⟨l, m', rfl, rfl, fun t ht => (h t ht).trans (h' t ht)⟩
  · cases e
  · cases e
  · exact Or.inr ⟨rfl, rfl⟩

theorem grow_congr {size : ℕ → ℕ} {used : ℕ} : ∀ k t (l l' : ℕ → ℕ) (free : ℚ), t + k ≤ used → (∀ s < used, l s = l' s) →
    (∀ s < used, (grow size k t l free).1 s = (grow size k t l' free).1 s) ∧ (grow size k t l free).2 = (grow size k t l' free).2 := by
  intro k
  induction k with
  | zero => intro t l l' free _ h; exact ⟨h, rfl⟩
  | succ k ih =>
    intro t l l' free hk h
    unfold grow
    simp only [h t (by omega)]
    have key : ∀ s < used, setAt l t (u8 (l' t + 255)) s = setAt l' t (u8 (l' t + 255)) s := by
      intro s hs
      by_cases e : s = t
      · subst e; simp [setAt]
      · simp [setAt, e, h s hs]
    split
    · split
      · exact ⟨key, rfl⟩
      · exact ih (t + 1) _ _ _ (by omega) key
    · exact ih (t + 1) _ _ _ (by omega) h

theorem fill_congr {size : ℕ → ℕ} {used : ℕ} : ∀ fuel (l l' : ℕ → ℕ) (free : ℚ), (∀ s < used, l s = l' s) →
    SameLens used (fill size used fuel l free) (fill size used fuel l' free) := by
  intro fuel
  induction fuel with
  | zero =>
    intro l l' free h
    unfold fill
    split
    · exact Or.inr ⟨rfl, rfl⟩
    · exact Or.inl ⟨l, l', rfl, rfl, h⟩
  | succ fuel ih =>
    intro l l' free h
    obtain ⟨h1, h2⟩ := grow_congr (size := size) used 0 l l' free (by omega) h
    unfold fill
    split
    · simp only [h2]
      split
      · exact Or.inr ⟨rfl, rfl⟩
      · exact ih _ _ _ h1
    · exact Or.inl ⟨l, l', rfl, rfl, h⟩

theorem assign_fill {r : Rounding} (hr : RoundsToNearest (FloatNumbers 53 (-1074)) r.toDouble) {size last up old old' : ℕ → ℕ} {n used fuel : ℕ}
    (hpos : 0 < used) : SameLens used
      (fill size used fuel (assign r last up n used 33 0 ⟨old, 0, 0, 0⟩)
        (1 - ((List.range used).map fun t => (size t : ℚ) / 2 ^ assign r last up n used 33 0 ⟨old, 0, 0, 0⟩ t).sum))
      (fill size used fuel (assign r last up n used 33 0 ⟨old', 0, 0, 0⟩)
        (1 - ((List.range used).map fun t => (size t : ℚ) / 2 ^ assign r last up n used 33 0 ⟨old', 0, 0, 0⟩ t).sum)) := by
  have hold := assign_old hr (last := last) (up := up) (n := n) (used := used) 32 0 ⟨old, 0, 0, 0⟩ ⟨old', 0, 0, 0⟩ rfl hpos rfl rfl rfl
    (fun t ht => absurd ht (Nat.not_lt_zero t))
  have hsum : ((List.range used).map fun t => (size t : ℚ) / 2 ^ assign r last up n used 33 0 ⟨old, 0, 0, 0⟩ t) =
      (List.range used).map fun t => (size t : ℚ) / 2 ^ assign r last up n used 33 0 ⟨old', 0, 0, 0⟩ t :=
    List.map_congr_left fun t ht => by rw [hold t (List.mem_range.1 ht)]
  rw [hsum]
  exact fill_congr _ _ _ _ hold

/-! ### the choice -/

theorem codeChoose_exact {r : Rounding} (hr : RoundsToNearest (FloatNumbers 53 (-1074)) r.toDouble) (old : Bool → ℕ → ℕ) (exp : Bool) {n : ℕ} {q : ℕ → ℕ}
    (hn : 0 < n) (hn18 : n ≤ 2 ^ 18) (hq : ∑ t ∈ Finset.range (baseCount exp), q t = n) :
    SameLens (topUsed q (baseCount exp)) (codeChoose r old exp n q) (chooseN exp n q) := by
  obtain ⟨hu, hu'⟩ := topUsed_spec q (baseCount exp)
  have h63 : baseCount exp ≤ 63 := by cases exp <;> decide
  have hcc : codeChoose r old exp n q = fill (codeQty exp) (topUsed q (baseCount exp)) 2048
      (assign r (srcLast exp) (countUp q) n (topUsed q (baseCount exp)) 33 0 ⟨old exp, 0, 0, 0⟩)
      (1 - ((List.range (topUsed q (baseCount exp))).map fun t => (codeQty exp t : ℚ) /
        2 ^ assign r (srcLast exp) (countUp q) n (topUsed q (baseCount exp)) 33 0 ⟨old exp, 0, 0, 0⟩ t).sum) := rfl
  have hcn : chooseN exp n q = fill (codeQty exp) (topUsed q (baseCount exp)) 2048
      (assignN (srcLast exp) (countUp q) n (topUsed q (baseCount exp)) 33 0 ⟨fun _ => 0, 0, 0, 0⟩)
      (1 - ((List.range (topUsed q (baseCount exp))).map fun t => (codeQty exp t : ℚ) /
        2 ^ assignN (srcLast exp) (countUp q) n (topUsed q (baseCount exp)) 33 0 ⟨fun _ => 0, 0, 0, 0⟩ t).sum) := rfl
  rw [hcc, hcn]
  generalize topUsed q (baseCount exp) = used at *
  have hpos : 0 < used := by
    by_contra hc
    have : ∑ t ∈ Finset.range (baseCount exp), q t = 0 := Finset.sum_eq_zero fun t ht => by
      by_contra h
      have := hu' t (Finset.mem_range.1 ht) (by omega)
      omega
    omega
  have hlast : srcLast exp (used - 1) < 4294967295 := by
    have h : ∀ exp : Bool, ∀ t < baseCount exp, srcLast exp t < 4294967295 := by decide +kernel
    exact h exp _ (by omega)
  have hup : ∀ s < used, countUp q s ≤ n := by
    intro s hs
    have h1 := upTo_countUp q (s + 1)
    simp only [upTo, Nat.add_sub_cancel] at h1
    rw [if_neg (by omega)] at h1
    rw [h1, ← hq]
    exact Finset.sum_le_sum_of_subset (Finset.range_mono (by omega))
  rw [← assign_exact hr hn hn18 hlast hup]
  exact assign_fill hr hpos

theorem codeChoose_unique {r r' : Rounding} (hr : RoundsToNearest (FloatNumbers 53 (-1074)) r.toDouble)
    (hr' : RoundsToNearest (FloatNumbers 53 (-1074)) r'.toDouble) (old old' : Bool → ℕ → ℕ) (exp : Bool) {n : ℕ} {q : ℕ → ℕ}
    (hn : 0 < n) (hn32 : n ≤ 2 ^ 32) (hq : ∑ t ∈ Finset.range (baseCount exp), q t = n) :
    SameLens (topUsed q (baseCount exp)) (codeChoose r old exp n q) (codeChoose r' old' exp n q) := by
  obtain ⟨hu, hu'⟩ := topUsed_spec q (baseCount exp)
  have h63 : baseCount exp ≤ 63 := by cases exp <;> decide
  have hcc : codeChoose r old exp n q = fill (codeQty exp) (topUsed q (baseCount exp)) 2048
      (assign r (srcLast exp) (countUp q) n (topUsed q (baseCount exp)) 33 0 ⟨old exp, 0, 0, 0⟩)
      (1 - ((List.range (topUsed q (baseCount exp))).map fun t => (codeQty exp t : ℚ) /
        2 ^ assign r (srcLast exp) (countUp q) n (topUsed q (baseCount exp)) 33 0 ⟨old exp, 0, 0, 0⟩ t).sum) := rfl
  have hcn : codeChoose r' old' exp n q = fill (codeQty exp) (topUsed q (baseCount exp)) 2048
      (assign r' (srcLast exp) (countUp q) n (topUsed q (baseCount exp)) 33 0 ⟨old' exp, 0, 0, 0⟩)
      (1 - ((List.range (topUsed q (baseCount exp))).map fun t => (codeQty exp t : ℚ) /
        2 ^ assign r' (srcLast exp) (countUp q) n (topUsed q (baseCount exp)) 33 0 ⟨old' exp, 0, 0, 0⟩ t).sum) := rfl
  rw [hcc, hcn]
  generalize topUsed q (baseCount exp) = used at *
  have hpos : 0 < used := by
    by_contra hc
    have : ∑ t ∈ Finset.range (baseCount exp), q t = 0 := Finset.sum_eq_zero fun t ht => by
      by_contra h
      have := hu' t (Finset.mem_range.1 ht) (by omega)
      omega
    omega
  have hlast : srcLast exp (used - 1) < 4294967295 := by
    have h : ∀ exp : Bool, ∀ t < baseCount exp, srcLast exp t < 4294967295 := by decide +kernel
    exact h exp _ (by omega)
  have hup : ∀ s < used, countUp q s ≤ n := by
    intro s hs
    have h1 := upTo_countUp q (s + 1)
    simp only [upTo, Nat.add_sub_cancel] at h1
    rw [if_neg (by omega)] at h1
    rw [h1, ← hq]
    exact Finset.sum_le_sum_of_subset (Finset.range_mono (by omega))
  rw [← assign_unique hr hr' hn hn32 hlast hup]
  exact assign_fill hr hpos

theorem compress_agree {cap : ℕ} {c c' : Choose} {o : Origin} {slots : List Slot}
    (hs : timeline o.frag none 127 ((o.indexes.zip o.values).take (u32 o.indexes.length)) = .ok slots)
    (h : ∀ exp, SameLens (poolsUsed exp slots) (c exp (u32 o.indexes.length) (dsQty exp slots)) (c' exp (u32 o.indexes.length) (dsQty exp slots))) :
    compress cap c o = compress cap c' o := by
  rcases h true with ⟨l1, l1', a1, a2, a3⟩ | ⟨a1, a2⟩ <;> rcases h false with ⟨l2, l2', b1, b2, b3⟩ | ⟨b1, b2⟩
  · exact compress_congr hs fun exp => by
      cases exp
      · exact ⟨l2, l2', b1, b2, b3⟩
      · exact ⟨l1, l1', a1, a2, a3⟩
  all_goals
    unfold compress
    refine if_congr Iff.rfl rfl (if_congr Iff.rfl rfl (if_congr Iff.rfl rfl (if_congr Iff.rfl rfl ?_)))
    rw [hs, Outcome.bind_ok, Outcome.bind_ok]
    by_cases hu : poolsUsed true slots = 0 ∨ poolsUsed false slots = 0
    · rw [if_pos hu, if_pos hu]
    · rw [if_neg hu, if_neg hu, a1, a2]
      first | rfl | simp only [Outcome.bind_ok, b1, b2]; rfl

theorem compress_same {cap : ℕ} {c c' : Choose} {o : Origin}
    (h : ∀ exp q, 0 < u32 o.indexes.length → ∑ t ∈ Finset.range (baseCount exp), q t = u32 o.indexes.length →
      SameLens (topUsed q (baseCount exp)) (c exp (u32 o.indexes.length) q) (c' exp (u32 o.indexes.length) q)) :
    compress cap c o = compress cap c' o := by
  by_cases hl : o.values.length ≠ o.indexes.length
  · unfold compress
    rw [if_pos hl, if_pos hl]
  have hl : o.values.length = o.indexes.length := not_not.1 hl
  cases hs : timeline o.frag none 127 ((o.indexes.zip o.values).take (u32 o.indexes.length)) with
  | ok slots =>
    have hlen : slots.length = u32 o.indexes.length := by
      rw [timeline_jumps _ _ _ _ hs, List.length_take, List.length_zip, hl, min_self]
      exact min_eq_left (Nat.mod_le _ _)
    rcases Nat.eq_zero_or_pos (u32 o.indexes.length) with h0 | h0
    · have : slots = [] := List.length_eq_zero_iff.1 (by omega)
      subst this
      have hu : poolsUsed true [] = 0 ∨ poolsUsed false [] = 0 := Or.inl (by decide +kernel)
      unfold compress
      simp only [hs, Outcome.bind_ok, if_pos hu]
    · exact compress_agree hs fun exp => h exp _ h0 (by rw [dsQty_sum, hlen])
  | _ =>
    unfold compress
    simp only [hs]
    rfl

theorem compress_unique {r r' : Rounding} (hr : RoundsToNearest (FloatNumbers 53 (-1074)) r.toDouble)
    (hr' : RoundsToNearest (FloatNumbers 53 (-1074)) r'.toDouble) (old old' : Bool → ℕ → ℕ) (cap : ℕ) (o : Origin) :
    compress cap (codeChoose r old) o = compress cap (codeChoose r' old') o :=
  compress_same fun exp _ h0 hq => codeChoose_unique hr hr' old old' exp h0 (Nat.mod_lt _ (by norm_num)).le hq

theorem compress_exact {r : Rounding} (hr : RoundsToNearest (FloatNumbers 53 (-1074)) r.toDouble) (old : Bool → ℕ → ℕ) (cap : ℕ) {o : Origin}
    (hn : o.indexes.length ≤ 2 ^ 18) : compress cap (codeChoose r old) o = compress cap chooseN o :=
  compress_same fun exp _ h0 hq => codeChoose_exact hr old exp h0 ((Nat.mod_le _ _).trans hn) hq

end WB.Sf
