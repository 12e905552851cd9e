import Verif.Proof.SfChoose

/-!
An input for which the choice of code lengths uses more than the code space: three values, with runs of 402653185, 402653185 and
1073741825 zeros.
-/

namespace WB.Sf

open Finset Spec

/-! ### `Compress` only uses the code lengths of the pools in use -/

theorem runs_congr {l l' : ℕ → ℕ} : ∀ (k t cur : ℕ), 0 < t → (∀ s < t + k, l s = l' s) → runs l k t cur = runs l' k t cur
  | 0, _, _, _, _ => rfl
  | k + 1, t, cur, ht, h => by
    unfold runs
    rw [h (t - 1) (by omega), h t (by omega), runs_congr k (t + 1) _ (by omega) fun s hs => h s (by omega),
      runs_congr k (t + 1) cur (by omega) fun s hs => h s (by omega)]

theorem outPool_congr {exp : Bool} {l l' : ℕ → ℕ} {used : ℕ} (hu : 0 < used) (h : ∀ s < used, l s = l' s) :
    outPool exp l used = outPool exp l' used := by
  unfold outPool
  rw [h 0 hu, runs_congr _ 1 _ (by omega) fun s hs => h s (by omega)]

theorem compress_congr {cap : ℕ} {c c' : Choose} {o : Origin} {slots : List Slot}
    (hs : timeline o.frag none 127 ((o.indexes.zip o.values).take (u32 o.indexes.length)) = .ok slots)
    (h : ∀ exp, ∃ l l', c exp (u32 o.indexes.length) (dsQty exp slots) = .ok l ∧ c' exp (u32 o.indexes.length) (dsQty exp slots) = .ok l' ∧
      ∀ s < poolsUsed exp slots, l s = l' s) : compress cap c o = compress cap c' o := by
  obtain ⟨l1, l1', a1, a2, a3⟩ := h true
  obtain ⟨l2, l2', b1, b2, b3⟩ := h false
  unfold compress
  refine if_congr Iff.rfl rfl (if_congr Iff.rfl rfl (if_congr Iff.rfl rfl (if_congr Iff.rfl rfl ?_)))
  rw [hs, Outcome.bind_ok, Outcome.bind_ok]
  by_cases hu : poolsUsed true slots = 0 ∨ poolsUsed false slots = 0
  · rw [if_pos hu, if_pos hu]
  · rw [if_neg hu, if_neg hu, a1, a2, Outcome.bind_ok, Outcome.bind_ok, b1, b2, Outcome.bind_ok, Outcome.bind_ok,
      outPool_congr (by omega) a3, outPool_congr (by omega) b3]

/-! ### the search -/

theorem scan_prefix (r : Rounding) (last up : ℕ → ℕ) (n len : ℕ) (free : ℝ) (p j : ℕ) : ∀ k t next,
    (∀ p', t < p' → p' ≤ t + (k + 1) → soll r last len free p p' ≤ 1) →
    soll r last len free p (t + (k + 1)) ≤ ist r up n p (t + (k + 1)) →
    scan r last up n len free (before last p) (upTo up p) (k + 1 + j) t next =
      scan r last up n len free (before last p) (upTo up p) j (t + (k + 1)) (t + (k + 1)) := by
  intro k
  induction k with
  | zero =>
    intro t next h1 h2
    rw [show 0 + 1 + j = j + 1 by omega, scan_succ, if_neg (by have := h1 (t + 1) (by omega) (by omega); linarith), if_pos h2]
  | succ k ih =>
    intro t next h1 h2
    rw [show k + 1 + 1 + j = (k + 1 + j) + 1 by omega, scan_succ, if_neg (by have := h1 (t + 1) (by omega) (by omega); linarith),
      ih (t + 1) _ (fun p' a b => h1 p' (by omega) (by omega)) (by rw [show t + 1 + (k + 1) = t + (k + 1 + 1) by omega]; exact h2),
      show t + 1 + (k + 1) = t + (k + 1 + 1) by omega]

section
variable {f : ℝ → ℝ} (hf : RoundsToNearest (FloatNumbers 53 (-1074)) f)
include hf

theorem round_ge {x c : ℝ} (hc : c ∈ FloatNumbers 53 (-1074)) (h : c ≤ x) : c ≤ f x := by
  have := nearest_mono hf h
  rwa [nearest_exact hf hc] at this

theorem round_le {x c : ℝ} (hc : c ∈ FloatNumbers 53 (-1074)) (h : x ≤ c) : f x ≤ c := by
  have := nearest_mono hf h
  rwa [nearest_exact hf hc] at this

end

theorem eighth_double (m : ℕ) (hm : m < 2 ^ 53) : (m : ℝ) / 8 ∈ FloatNumbers 53 (-1074) :=
  ⟨m, -3, by rw [abs_of_nonneg (by positivity)]; exact_mod_cast hm, by norm_num, by
    rw [zpow_neg, Int.cast_natCast, div_eq_mul_inv]
    norm_num⟩

theorem tiny_double : (1 : ℝ) / 2 ^ 32 ∈ FloatNumbers 53 (-1074) :=
  ⟨1, -32, by norm_num, by norm_num, by rw [zpow_neg]; norm_num⟩

/-- The counts of the example. -/
def bigQty (t : ℕ) : ℕ := if t = 58 then 2 else if t = 61 then 1 else 0

theorem bigUp : ∀ t < 62, countUp bigQty t = if t < 58 then 0 else if t < 61 then 2 else 3 := by decide +kernel

/-- The code lengths of the example. -/
def bigLens (t : ℕ) : ℕ := if t < 59 then 30 else 31

theorem before_bounds : ∀ p' < 63, 0 < p' → 1 ≤ before (srcLast false) p' ∧ (p' ≤ 59 → before (srcLast false) p' ≤ 536870913) ∧
    (59 ≤ p' → 536870913 ≤ before (srcLast false) p') ∧ (60 ≤ p' → 805306369 ≤ before (srcLast false) p') ∧ (62 ≤ p' → before (srcLast false) p' = 1610612737) ∧
    before (srcLast false) p' ≤ 1610612737 := by decide +kernel

theorem assign_skip {r : Rounding} {last up : ℕ → ℕ} {n used k len : ℕ} {s : Ready}
    (h : scan r last up n len (2 ^ 32 - ((last (used - 1) + 1 - s.codes : ℕ) : ℝ)) s.codes s.count (used - s.pools) s.pools s.pools = s.pools)
    (hu : s.pools ≠ used) : assign r last up n used (k + 1) len s = assign r last up n used k (len + 1) s := by
  rw [assign]
  simp only [h, lt_irrefl, if_false, if_neg hu]

theorem assign_step {r : Rounding} {last up : ℕ → ℕ} {n used k len : ℕ} {s : Ready} {next : ℕ}
    (h : scan r last up n len (2 ^ 32 - ((last (used - 1) + 1 - s.codes : ℕ) : ℝ)) s.codes s.count (used - s.pools) s.pools s.pools = next)
    (hu : s.pools < next) : assign r last up n used (k + 1) len s =
      if next = used then fun t => if s.pools ≤ t ∧ t < next then len else s.lens t
      else assign r last up n used k (len + 1)
        ⟨fun t => if s.pools ≤ t ∧ t < next then len else s.lens t, next, last (next - 1) + 1, up (next - 1)⟩ := by
  rw [assign]
  simp only [h, if_pos hu]

theorem assign_big {r : Rounding} (hr : RoundsToNearest (FloatNumbers 53 (-1074)) r.toDouble) (old : ℕ → ℕ) :
    ∀ t < 62, assign r (srcLast false) (countUp bigQty) 3 62 33 0 ⟨old, 0, 0, 0⟩ t = bigLens t := by
  have hlast : srcLast false 61 = 1610612736 := by decide +kernel
  have hlast58 : srcLast false 58 = 536870912 := by decide +kernel
  have hup58 : countUp bigQty 58 = 2 := by rw [bigUp 58 (by norm_num)]; rfl
  set F : ℝ := 2 ^ 32 - ((srcLast false (62 - 1) + 1 - 0 : ℕ) : ℝ) with hF
  have hFv : F = 2684354559 := by rw [hF]; norm_num [hlast]
  have hup : ∀ p' < 63, 0 < p' → upTo (countUp bigQty) p' = if p' < 59 then 0 else if p' < 62 then 2 else 3 := by
    intro p' h1 h2
    unfold upTo
    rw [if_neg (by omega), bigUp _ (by omega)]
    have : p' - 1 < 58 ↔ p' < 59 := by omega
    have : p' - 1 < 61 ↔ p' < 62 := by omega
    simp only [*]
  have hb0 : before (srcLast false) 0 = 0 := rfl
  have hu0 : upTo (countUp bigQty) 0 = 0 := rfl
  -- the shares
  have hx : ∀ len p', soll r (srcLast false) len F 0 p' =
      r.toDouble (r.toDouble (((before (srcLast false) p' : ℕ) : ℝ) * (2 ^ (32 - len) - 1)) / 2684354559) := by
    intro len p'
    unfold soll
    rw [hb0, Nat.sub_zero, hFv]
  have hi : ∀ p', ist r (countUp bigQty) 3 0 p' = r.toDouble (((upTo (countUp bigQty) p' : ℕ) : ℝ) / 3) := by
    intro p'
    unfold ist
    rw [hu0, Nat.sub_zero]
    norm_num
  have hd8 : ∀ m : ℕ, m < 1000 → (m : ℝ) / 8 ∈ FloatNumbers 53 (-1074) := fun m hm => eighth_double m (by omega)
  have d0 : (0 : ℝ) ∈ FloatNumbers 53 (-1074) := by have := hd8 0 (by norm_num); norm_num at this; exact this
  have d58 : (5 / 8 : ℝ) ∈ FloatNumbers 53 (-1074) := by have := hd8 5 (by norm_num); norm_num at this; exact this
  have d34 : (3 / 4 : ℝ) ∈ FloatNumbers 53 (-1074) := by have := hd8 6 (by norm_num); norm_num at this; exact this
  have d78 : (7 / 8 : ℝ) ∈ FloatNumbers 53 (-1074) := by have := hd8 7 (by norm_num); norm_num at this; exact this
  have d1 : (1 : ℝ) ∈ FloatNumbers 53 (-1074) := by have := hd8 8 (by norm_num); norm_num at this; exact this
  have d54 : (5 / 4 : ℝ) ∈ FloatNumbers 53 (-1074) := by have := hd8 10 (by norm_num); norm_num at this; exact this
  have hi0 : ∀ p', 0 < p' → p' < 59 → ist r (countUp bigQty) 3 0 p' ≤ 0 := by
    intro p' h1 h2
    rw [hi, hup p' (by omega) h1, if_pos h2]
    exact round_le hr d0 (by norm_num)
  have hi2 : ∀ p', 0 < p' → p' < 62 → ist r (countUp bigQty) 3 0 p' ≤ 3 / 4 := by
    intro p' h1 h2
    rw [hi, hup p' (by omega) h1]
    rw [if_pos h2]
    refine round_le hr d34 ?_
    split <;> norm_num
  have hi3 : ∀ p', 0 < p' → p' < 63 → ist r (countUp bigQty) 3 0 p' ≤ 1 := by
    intro p' h1 h2
    rw [hi, hup p' (by omega) h1]
    refine round_le hr d1 ?_
    split_ifs <;> norm_num
  -- a lower bound for the shares
  have hs : ∀ (len p' c m : ℕ) (q : ℝ), c ≤ before (srcLast false) p' → (m : ℝ) ≤ 2 ^ (32 - len) - 1 → c * m < 2 ^ 53 →
      q ∈ FloatNumbers 53 (-1074) → q * 2684354559 ≤ c * m → q ≤ soll r (srcLast false) len F 0 p' := by
    intro len p' c m q h1 h2 h3 h4 h5
    rw [hx]
    refine round_ge hr h4 ?_
    rw [le_div_iff₀ (by norm_num)]
    refine h5.trans ?_
    have := natCast_double h3
    push_cast at this
    refine round_ge hr this ?_
    have h1' : (c : ℝ) ≤ before (srcLast false) p' := by exact_mod_cast h1
    exact mul_le_mul h1' h2 (by positivity) (by positivity)
  -- no group for the lengths up to 29
  have hno : ∀ len < 30, scan r (srcLast false) (countUp bigQty) 3 len F 0 0 62 0 0 = 0 := by
    intro len hlen
    have h7 : ((7 : ℕ) : ℝ) ≤ 2 ^ (32 - len) - 1 := by
      have : (2 : ℝ) ^ 3 ≤ 2 ^ (32 - len) := pow_le_pow_right₀ (by norm_num) (by omega)
      norm_num at this ⊢
      linarith
    rcases scan_spec r (srcLast false) (countUp bigQty) 3 len F 0 62 0 0 with e | ⟨p', h1, h2, -, h4⟩
    · exact e
    · exfalso
      obtain ⟨b1, -, b3, -⟩ := before_bounds p' (by omega) h1
      rcases Nat.lt_or_ge p' 59 with h | h
      · have := hi0 p' h1 h
        have hpos := hs len p' 1 7 (1 / 2 ^ 32) b1 h7 (by norm_num) tiny_double (by norm_num)
        have : (0 : ℝ) < 1 / 2 ^ 32 := by norm_num
        linarith
      · have := hi3 p' h1 (by omega)
        have := hs len p' 536870913 7 (5 / 4) (b3 h) h7 (by norm_num) d54 (by norm_num)
        norm_num at this
        linarith
  have hskip : ∀ j ≤ 30, assign r (srcLast false) (countUp bigQty) 3 62 33 0 ⟨old, 0, 0, 0⟩ =
      assign r (srcLast false) (countUp bigQty) 3 62 (33 - j) j ⟨old, 0, 0, 0⟩ := by
    intro j
    induction j with
    | zero => intro _; rfl
    | succ j ih =>
      intro h
      rw [ih (by omega), show 33 - j = (33 - (j + 1)) + 1 by omega]
      exact assign_skip (hno j (by omega)) (by norm_num)
  -- the lengths 30 and 31
  have h30 : scan r (srcLast false) (countUp bigQty) 3 30 F 0 0 62 0 0 = 59 := by
    have hle : ∀ p', 0 < p' → p' ≤ 0 + (58 + 1) → soll r (srcLast false) 30 F 0 p' ≤ 5 / 8 := by
      intro p' h1 h2
      obtain ⟨-, b2, -⟩ := before_bounds p' (by omega) h1
      rw [hx]
      refine round_le hr d58 ?_
      have hb : ((before (srcLast false) p' : ℕ) : ℝ) ≤ 536870913 := by exact_mod_cast b2 (by omega)
      have : r.toDouble (((before (srcLast false) p' : ℕ) : ℝ) * (2 ^ (32 - 30) - 1)) ≤ (1610612739 : ℕ) :=
        round_le hr (natCast_double (by norm_num)) (by norm_num; linarith)
      rw [div_le_iff₀ (by norm_num)]
      norm_num at this ⊢
      linarith
    have h59 : (5 : ℝ) / 8 ≤ ist r (countUp bigQty) 3 0 (0 + (58 + 1)) := by
      rw [hi, hup _ (by norm_num) (by norm_num)]
      exact round_ge hr d58 (by norm_num)
    have e := scan_prefix r (srcLast false) (countUp bigQty) 3 30 F 0 3 58 0 0
      (fun p' a b => (hle p' a b).trans (by norm_num)) ((hle _ (by norm_num) le_rfl).trans h59)
    rw [show 58 + 1 + 3 = 62 by norm_num, hb0, hu0] at e
    rw [e]
    rcases scan_spec r (srcLast false) (countUp bigQty) 3 30 F 0 3 59 59 with e' | ⟨p', h1, h2, -, h4⟩
    · exact e'
    · exfalso
      have h3 : ((3 : ℕ) : ℝ) ≤ 2 ^ (32 - 30) - 1 := by norm_num
      obtain ⟨-, -, -, b4, b5, -⟩ := before_bounds p' (by omega) (by omega)
      rcases Nat.lt_or_ge p' 62 with h | h
      · have := hi2 p' (by omega) h
        have := hs 30 p' 805306369 3 (7 / 8) (b4 (by omega)) h3 (by norm_num) d78 (by norm_num)
        norm_num at this
        linarith
      · have := hi3 p' (by omega) (by omega)
        have := hs 30 p' 1610612737 3 (5 / 4) (b5 h).ge h3 (by norm_num) d54 (by norm_num)
        norm_num at this
        linarith
  have hb59 : before (srcLast false) 59 = 536870913 := by decide +kernel
  have hu59 : upTo (countUp bigQty) 59 = 2 := hup58
  have h31 : scan r (srcLast false) (countUp bigQty) 3 31 (2 ^ 32 - ((srcLast false (62 - 1) + 1 - 536870913 : ℕ) : ℝ)) 536870913 2 3 59 59 = 62 := by
    have hF' : (2 : ℝ) ^ 32 - ((srcLast false (62 - 1) + 1 - 536870913 : ℕ) : ℝ) = 3221225472 := by norm_num [hlast]
    rw [hF']
    have := scan_full r (srcLast false) (countUp bigQty) 3 31 3221225472 59 62 (by
        intro p' h1 h2
        obtain ⟨-, -, -, -, -, b6⟩ := before_bounds p' (by omega) (by omega)
        unfold soll
        refine round_le hr d1 ?_
        rw [div_le_iff₀ (by norm_num), hb59]
        have hb : ((before (srcLast false) p' - 536870913 : ℕ) : ℝ) ≤ (1073741824 : ℕ) := by exact_mod_cast (by omega)
        rw [show (2 : ℝ) ^ (32 - 31) - 1 = 1 by norm_num, mul_one]
        refine (round_le hr (natCast_double (by norm_num)) hb).trans ?_
        norm_num) (by
        unfold soll ist
        rw [hb59, hu59, hup 62 (by norm_num) (by norm_num), (before_bounds 62 (by norm_num) (by norm_num)).2.2.2.2.1 le_rfl]
        rw [show 1610612737 - 536870913 = 1073741824 by norm_num, show (2 : ℝ) ^ (32 - 31) - 1 = 1 by norm_num, mul_one,
          nearest_exact hr (natCast_double (n := 1073741824) (by norm_num))]
        refine le_of_eq (congrArg _ ?_)
        norm_num) 2 59 59 (by norm_num) (by norm_num)
    rw [hb59, hu59] at this
    exact this
  intro t ht
  rw [hskip 30 (by norm_num), show 33 - 30 = 2 + 1 by norm_num, assign_step (next := 59) h30 (by norm_num), if_neg (by norm_num)]
  rw [show 59 - 1 = 58 by norm_num, hlast58, hup58, show 536870912 + 1 = 536870913 by norm_num,
    assign_step (k := 1) (next := 62) h31 (by norm_num), if_pos rfl]
  unfold bigLens
  simp only [Nat.zero_le, true_and]
  by_cases h : t < 59
  · rw [if_neg (by omega), if_pos h, if_pos h]
  · rw [if_pos (by omega), if_neg h]

theorem bigKraft : (1 : ℚ) - ((List.range 62).map fun t => (codeQty false t : ℚ) / 2 ^ bigLens t).sum = -4 / 4294967296 := by
  decide +kernel

theorem bigUsed : topUsed bigQty 63 = 62 := by decide +kernel

theorem choose_big {r : Rounding} (hr : RoundsToNearest (FloatNumbers 53 (-1074)) r.toDouble) (old : Bool → ℕ → ℕ) :
    ∃ lens, codeChoose r old false 3 bigQty = .ok lens ∧ ∀ t < 62, lens t = bigLens t := by
  have h := assign_big hr (old false)
  refine ⟨_, ?_, h⟩
  unfold codeChoose
  simp only [show baseCount false = 63 from rfl, bigUsed]
  rw [List.map_congr_left (g := fun t => (codeQty false t : ℚ) / 2 ^ bigLens t) (fun t ht => by rw [h t (List.mem_range.1 ht)]), bigKraft]
  rw [show (2048 : ℕ) = 2047 + 1 from rfl, fill, if_neg (by norm_num)]

end WB.Sf
