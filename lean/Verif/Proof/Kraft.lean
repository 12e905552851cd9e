import Mathlib.Data.Real.Basic
import Mathlib.Tactic.Linarith
import Mathlib.Tactic.Positivity
import Mathlib.Tactic.FieldSimp
import Mathlib.Tactic.Ring

/-!
Arithmetic behind the choice of code lengths: if groups of codes get shares that go down by at least one half from group to group,
the average number of codes before a group is small.
-/

namespace WB.Sf

/-- What is known after some groups: `C` codes with total weight `W`, the last weight per code `w`, and the sum `Φ` of weights times codes
before. -/
structure Loss (C W w Φ : ℝ) : Prop where
  cpos : 0 < C
  wpos : 0 < w
  le : w * C ≤ W
  any : 25 * Φ ≤ 6 * (C * W)
  mid : 5 * (W - w * C) ≤ 3 * (w * C) → 5 * Φ ≤ C * W
  low : 3 * (W - w * C) ≤ w * C → w * Φ ≤ (W - w * C) * (2 * (w * C) - W)

theorem Loss.first {N w : ℝ} (hN : 0 < N) (hw : 0 < w) : Loss N (w * N) w 0 where
  cpos := hN
  wpos := hw
  le := le_refl _
  any := by have : 0 < w * N := by positivity
            nlinarith [mul_pos hN this]
  mid := fun _ => by have : 0 < w * N := by positivity
                     nlinarith [mul_pos hN this]
  low := fun _ => by simp

/-- The step in units of the new weight. -/
theorem Loss.step1 {C P q φ N : ℝ} (h : Loss C P q φ) (hq : 2 ≤ q) (hN : 0 < N) : Loss (C + N) (P + N) 1 (φ + N * C) := by
  obtain ⟨hC, hq0, hle, hany, hmid, hlow⟩ := h
  have hP : 2 * C ≤ P := by nlinarith
  have hmid' : 5 * P ≤ 16 * C → 5 * φ ≤ C * P := fun h => hmid (by nlinarith)
  have hlow' : 3 * P ≤ 8 * C → 2 * φ ≤ (P - 2 * C) * (4 * C - P) := by
    intro h
    have h1 : 3 * (P - q * C) ≤ q * C := by nlinarith
    have h2 := hlow h1
    have hPq : 3 * P ≤ 4 * (q * C) := by linarith
    have key : q * (2 * φ) ≤ q * ((P - 2 * C) * (4 * C - P)) := by
      have : 2 * ((P - q * C) * (2 * (q * C) - P)) ≤ q * ((P - 2 * C) * (4 * C - P)) := by
        -- the difference is (q - 2) (4 C^2 q - P^2)
        have e : q * ((P - 2 * C) * (4 * C - P)) - 2 * ((P - q * C) * (2 * (q * C) - P)) = (q - 2) * (4 * C * C * q - P * P) := by ring
        have h3 : P * P ≤ 4 * C * C * q := by nlinarith
        nlinarith
      linarith
    exact le_of_mul_le_mul_left key hq0
  refine ⟨by linarith, one_pos, by linarith, ?_, ?_, ?_⟩
  · -- any
    by_cases h1 : 3 * P ≤ 8 * C
    · have := hlow' h1
      nlinarith [sq_nonneg (N - C), sq_nonneg (P - 2 * C), mul_pos hC hN]
    · by_cases h2 : 5 * P ≤ 16 * C
      · have := hmid' h2
        nlinarith [sq_nonneg (N - C), mul_pos hC hN]
      · push Not at h1 h2
        nlinarith [sq_nonneg (N - C), mul_pos hC hN]
  · intro hg
    by_cases h1 : 3 * P ≤ 8 * C
    · have := hlow' h1
      nlinarith [sq_nonneg (N - C), sq_nonneg (P - 2 * C), mul_pos hC hN]
    · by_cases h2 : 5 * P ≤ 16 * C
      · have := hmid' h2
        nlinarith [sq_nonneg (N - C), mul_pos hC hN]
      · push Not at h1 h2
        nlinarith [sq_nonneg (N - C), mul_pos hC hN]
  · intro hg
    by_cases h1 : 3 * P ≤ 8 * C
    · have := hlow' h1
      nlinarith [sq_nonneg (N - C), sq_nonneg (P - 2 * C), mul_pos hC hN]
    · push Not at h1
      nlinarith [sq_nonneg (N - C), mul_pos hC hN]

theorem Loss.step {C W w Φ w' N : ℝ} (h : Loss C W w Φ) (hw' : 0 < w') (hw : 2 * w' ≤ w) (hN : 0 < N) :
    Loss (C + N) (W + w' * N) w' (Φ + w' * N * C) := by
  have hn : w' ≠ 0 := hw'.ne'
  have h1 : Loss C (W / w') (w / w') (Φ / w') := by
    obtain ⟨hC, hq0, hle, hany, hmid, hlow⟩ := h
    have e1 : w / w' * C = w * C / w' := by ring
    refine ⟨hC, by positivity, ?_, ?_, ?_, ?_⟩
    · rw [e1]; gcongr
    · rw [show 25 * (Φ / w') = 25 * Φ / w' by ring, show 6 * (C * (W / w')) = 6 * (C * W) / w' by ring]
      gcongr
    · intro hg
      rw [e1, show 5 * (W / w' - w * C / w') = 5 * (W - w * C) / w' by ring, show 3 * (w * C / w') = 3 * (w * C) / w' by ring,
        div_le_div_iff_of_pos_right hw'] at hg
      rw [show 5 * (Φ / w') = 5 * Φ / w' by ring, show C * (W / w') = C * W / w' by ring]
      have := hmid hg
      gcongr
    · intro hg
      rw [e1, show 3 * (W / w' - w * C / w') = 3 * (W - w * C) / w' by ring, div_le_div_iff_of_pos_right hw'] at hg
      have := hlow hg
      rw [show w / w' * (Φ / w') = w * Φ / (w' * w') by field_simp,
        show (W / w' - w / w' * C) * (2 * (w / w' * C) - W / w') = (W - w * C) * (2 * (w * C) - W) / (w' * w') by field_simp]
      gcongr
  have h2 := h1.step1 (by rwa [le_div_iff₀ hw']) hN
  obtain ⟨hC, hq0, hle, hany, hmid, hlow⟩ := h2
  have eW : W / w' + N = (W + w' * N) / w' := by field_simp
  have eΦ : Φ / w' + N * C = (Φ + w' * N * C) / w' := by field_simp
  rw [eW] at hle hany hmid hlow
  rw [eΦ] at hany hmid hlow
  generalize W + w' * N = W' at *
  generalize Φ + w' * N * C = Φ' at *
  generalize C + N = C' at *
  refine ⟨hC, hw', ?_, ?_, ?_, ?_⟩
  · rw [one_mul, le_div_iff₀ hw'] at hle
    linarith
  · rw [show 25 * (Φ' / w') = 25 * Φ' / w' by ring, show 6 * (C' * (W' / w')) = 6 * (C' * W') / w' by ring,
      div_le_div_iff_of_pos_right hw'] at hany
    exact hany
  · intro hg
    have := hmid (by
      rw [show 5 * (W' / w' - 1 * C') = 5 * (W' - w' * C') / w' by field_simp, div_le_iff₀ hw']
      linarith)
    rw [show 5 * (Φ' / w') = 5 * Φ' / w' by ring, show C' * (W' / w') = C' * W' / w' by ring, div_le_div_iff_of_pos_right hw'] at this
    exact this
  · intro hg
    have := hlow (by
      rw [show 3 * (W' / w' - 1 * C') = 3 * (W' - w' * C') / w' by field_simp, div_le_iff₀ hw']
      linarith)
    rw [show 1 * (Φ' / w') = w' * Φ' / (w' * w') by field_simp,
      show (W' / w' - 1 * C') * (2 * (1 * C') - W' / w') = (W' - w' * C') * (2 * (w' * C') - W') / (w' * w') by field_simp,
      div_le_div_iff_of_pos_right (by positivity)] at this
    exact this

/-- The number of codes in the groups; a group is a number of codes and the exponent of the part of the code space each of them gets. -/
def groupCodes : List (ℕ × ℕ) → ℕ
  | [] => 0
  | g :: gs => g.1 + groupCodes gs

/-- The code space that the groups take. -/
def groupSpace : List (ℕ × ℕ) → ℕ
  | [] => 0
  | g :: gs => g.1 * 2 ^ g.2 + groupSpace gs

/-- The shares that the choice compares with the frequencies, `C` codes are before the groups. -/
noncomputable def groupShare (F : ℝ) : ℕ → List (ℕ × ℕ) → ℝ
  | _, [] => 0
  | C, g :: gs => g.1 * (2 ^ g.2 - 1) / (F + C) + groupShare F (C + g.1) gs

/-- The shares times the codes before. -/
noncomputable def groupLoss (F : ℝ) : ℕ → List (ℕ × ℕ) → ℝ
  | _, [] => 0
  | C, g :: gs => g.1 * (2 ^ g.2 - 1) / (F + C) * C + groupLoss F (C + g.1) gs

theorem groupSpace_eq {F : ℝ} (hF : 0 < F) (gs : List (ℕ × ℕ)) : ∀ C : ℕ,
    (groupSpace gs : ℝ) = groupCodes gs + F * groupShare F C gs + groupLoss F C gs := by
  induction gs with
  | nil => intro C; simp [groupSpace, groupCodes, groupShare, groupLoss]
  | cons g gs ih =>
    intro C
    have hp : (0 : ℝ) < F + C := by positivity
    simp only [groupSpace, groupCodes, groupShare, groupLoss]
    push_cast
    rw [ih (C + g.1)]
    have : (g.1 : ℝ) * 2 ^ g.2 = g.1 + F * (g.1 * (2 ^ g.2 - 1) / (F + C)) + g.1 * (2 ^ g.2 - 1) / (F + C) * C := by
      field_simp
      ring
    rw [this]
    ring

theorem groupCodes_append (as bs : List (ℕ × ℕ)) : groupCodes (as ++ bs) = groupCodes as + groupCodes bs := by
  induction as with
  | nil => simp [groupCodes]
  | cons a as ih => simp only [List.cons_append, groupCodes, ih]; ring

theorem groupShare_append (F : ℝ) (as bs : List (ℕ × ℕ)) : ∀ C, groupShare F C (as ++ bs) = groupShare F C as + groupShare F (C + groupCodes as) bs := by
  induction as with
  | nil => intro C; simp [groupShare, groupCodes]
  | cons a as ih => intro C; simp only [List.cons_append, groupShare, groupCodes, ih]; rw [Nat.add_assoc]; ring

theorem groupLoss_append (F : ℝ) (as bs : List (ℕ × ℕ)) : ∀ C, groupLoss F C (as ++ bs) = groupLoss F C as + groupLoss F (C + groupCodes as) bs := by
  induction as with
  | nil => intro C; simp [groupLoss, groupCodes]
  | cons a as ih => intro C; simp only [List.cons_append, groupLoss, groupCodes, ih]; rw [Nat.add_assoc]; ring

theorem groupShare_nonneg {F : ℝ} (hF : 0 < F) (gs : List (ℕ × ℕ)) : ∀ C, 0 ≤ groupShare F C gs := by
  induction gs with
  | nil => intro C; simp [groupShare]
  | cons g gs ih =>
    intro C
    have h1 : (0 : ℝ) ≤ 2 ^ g.2 - 1 := by
      have : (1 : ℝ) ≤ 2 ^ g.2 := one_le_pow₀ (by norm_num)
      linarith
    have := ih (C + g.1)
    simp only [groupShare]
    positivity

theorem loss_rest {F : ℝ} (hF : 0 < F) (gs : List (ℕ × ℕ)) : ∀ (C C0 : ℕ) (a0 : ℕ) (W w Φ : ℝ), C0 ≤ C → w = (2 ^ a0 - 1) / (F + C0) →
    Loss C W w Φ → (∀ g ∈ gs, 0 < g.1 ∧ g.2 < a0) → gs.Pairwise (fun g h => h.2 < g.2) →
    25 * (Φ + groupLoss F C gs) ≤ 6 * ((C + groupCodes gs : ℕ) * (W + groupShare F C gs)) := by
  induction gs with
  | nil =>
    intro C C0 a0 W w Φ _ _ hL _ _
    simpa [groupLoss, groupShare, groupCodes] using hL.any
  | cons g gs ih =>
    intro C C0 a0 W w Φ hC hw hL hg hp
    obtain ⟨hN, ha⟩ := hg g (by simp)
    rw [List.pairwise_cons] at hp
    have hWp : 0 < W := lt_of_lt_of_le (mul_pos hL.wpos hL.cpos) hL.le
    by_cases h0 : g.2 = 0
    · have hgs : gs = [] := by
        rcases gs with _ | ⟨h, hs⟩
        · rfl
        · have := hp.1 h (by simp)
          omega
      subst hgs
      simp only [groupLoss, groupShare, groupCodes, h0]
      have := hL.any
      push_cast
      have hN' : (0 : ℝ) < g.1 := by exact_mod_cast hN
      norm_num
      nlinarith
    · have hFC : (0 : ℝ) < F + C := by positivity
      have hFC0 : (0 : ℝ) < F + C0 := by positivity
      have h2 : (2 : ℝ) ≤ 2 ^ g.2 := by
        calc (2 : ℝ) = 2 ^ 1 := by norm_num
          _ ≤ 2 ^ g.2 := pow_le_pow_right₀ (by norm_num) (by omega)
      have h3 : (2 : ℝ) * 2 ^ g.2 ≤ 2 ^ a0 := by
        calc (2 : ℝ) * 2 ^ g.2 = 2 ^ (g.2 + 1) := by rw [pow_succ]; ring
          _ ≤ 2 ^ a0 := pow_le_pow_right₀ (by norm_num) (by omega)
      have hw1 : (0 : ℝ) < (2 ^ g.2 - 1) / (F + C) := div_pos (by linarith) hFC
      have hw2 : 2 * ((2 ^ g.2 - 1) / (F + C)) ≤ w := by
        rw [hw, ← mul_div_assoc]
        have hCC : (C0 : ℝ) ≤ C := by exact_mod_cast hC
        apply div_le_div₀ (by linarith) (by linarith) hFC0 (by linarith)
      have hN' : (0 : ℝ) < g.1 := by exact_mod_cast hN
      have hst := hL.step hw1 hw2 hN'
      have := ih (C + g.1) C g.2 _ _ _ (by omega) rfl (by push_cast; exact hst)
        (fun h hh => ⟨(hg h (by simp [hh])).1, hp.1 h hh⟩) hp.2
      simp only [groupLoss, groupShare, groupCodes]
      have e1 : (g.1 : ℝ) * (2 ^ g.2 - 1) / (F + C) = (2 ^ g.2 - 1) / (F + C) * g.1 := by ring
      rw [e1, ← add_assoc Φ, ← add_assoc W, ← Nat.add_assoc]
      exact this

/-- The sum of shares times codes before is at most 6/25 of the number of codes times the sum of the shares. -/
theorem groupLoss_le {F : ℝ} (hF : 0 < F) (gs : List (ℕ × ℕ)) (hg : ∀ g ∈ gs, 0 < g.1) (hp : gs.Pairwise (fun g h => h.2 < g.2)) :
    25 * groupLoss F 0 gs ≤ 6 * (groupCodes gs * groupShare F 0 gs) := by
  rcases gs with _ | ⟨g, gs⟩
  · simp [groupLoss, groupShare, groupCodes]
  · rw [List.pairwise_cons] at hp
    have hN : (0 : ℝ) < g.1 := by exact_mod_cast hg g (by simp)
    by_cases h0 : g.2 = 0
    · have hgs : gs = [] := by
        rcases gs with _ | ⟨h, hs⟩
        · rfl
        · have := hp.1 h (by simp)
          omega
      subst hgs
      simp [groupLoss, groupShare, groupCodes, h0]
    · have h2 : (2 : ℝ) ≤ 2 ^ g.2 := by
        calc (2 : ℝ) = 2 ^ 1 := by norm_num
          _ ≤ 2 ^ g.2 := pow_le_pow_right₀ (by norm_num) (by omega)
      have hw1 : (0 : ℝ) < (2 ^ g.2 - 1) / (F + (0 : ℕ)) := div_pos (by linarith) (by simpa using hF)
      have := loss_rest hF gs g.1 0 g.2 _ _ _ (by omega) rfl (Loss.first hN hw1)
        (fun h hh => ⟨hg h (by simp [hh]), hp.1 h hh⟩) hp.2
      simp only [groupLoss, groupShare, groupCodes]
      have e1 : (g.1 : ℝ) * (2 ^ g.2 - 1) / (F + (0 : ℕ)) = (2 ^ g.2 - 1) / (F + (0 : ℕ)) * g.1 := by ring
      rw [e1, Nat.zero_add]
      simpa using this

theorem groupLoss_small {F : ℝ} (hF : 0 < F) (a : ℕ) (gs : List (ℕ × ℕ)) : ∀ (C : ℕ), (∀ g ∈ gs, g.2 ≤ a) →
    groupLoss F C gs ≤ (2 ^ a - 1) / F * (((C : ℝ) + groupCodes gs) ^ 2 - C ^ 2) / 2 := by
  induction gs with
  | nil => intro C _; simp [groupLoss, groupCodes]
  | cons g gs ih =>
    intro C hg
    have h1 := ih (C + g.1) fun h hh => hg h (by simp [hh])
    have hFC : (0 : ℝ) < F + C := by positivity
    have ha : (2 : ℝ) ^ g.2 ≤ 2 ^ a := pow_le_pow_right₀ (by norm_num) (hg g (by simp))
    have ha1 : (1 : ℝ) ≤ 2 ^ g.2 := one_le_pow₀ (by norm_num)
    have hN : (0 : ℝ) ≤ g.1 := by positivity
    have hC : (0 : ℝ) ≤ C := by positivity
    have h2 : (g.1 : ℝ) * (2 ^ g.2 - 1) / (F + C) * C ≤ (2 ^ a - 1) / F * ((C + g.1) ^ 2 - C ^ 2) / 2 := by
      have h3 : (2 ^ g.2 - 1) / (F + C) ≤ (2 ^ a - 1) / F := div_le_div₀ (by linarith) (by linarith) hF (by linarith)
      have h4 : (0 : ℝ) ≤ (2 ^ a - 1) / F := div_nonneg (by linarith) hF.le
      calc (g.1 : ℝ) * (2 ^ g.2 - 1) / (F + C) * C = (2 ^ g.2 - 1) / (F + C) * (g.1 * C) := by ring
        _ ≤ (2 ^ a - 1) / F * (g.1 * C) := by gcongr
        _ ≤ (2 ^ a - 1) / F * (((C + g.1) ^ 2 - C ^ 2) / 2) := by
          gcongr
          nlinarith
        _ = _ := by ring
    simp only [groupLoss, groupCodes]
    push_cast at h1 ⊢
    have e : (2 ^ a - 1) / F * (((C : ℝ) + (g.1 + groupCodes gs)) ^ 2 - C ^ 2) / 2 =
        (2 ^ a - 1) / F * ((C + g.1) ^ 2 - C ^ 2) / 2 + (2 ^ a - 1) / F * ((C + g.1 + groupCodes gs) ^ 2 - (C + g.1) ^ 2) / 2 := by ring
    rw [e]
    linarith

/-- If the shares sum up to (nearly) at most 1, the code space is exceeded by less than the smallest part that a pool gets: `n` is the number of
codes of a pool in a group with exponent `a`. -/
theorem groupSpace_lt {F ε : ℝ} (hF : 0 < F) (pre post : List (ℕ × ℕ)) (g : ℕ × ℕ) (hg : ∀ h ∈ pre ++ g :: post, 0 < h.1)
    (hp : (pre ++ g :: post).Pairwise (fun g h => h.2 < g.2)) (hW : groupShare F 0 (pre ++ g :: post) ≤ 1 + ε) (hε1 : ε ≤ 1 / 1000)
    (hε2 : F * ε ≤ 1 / 1000) (n : ℕ) (hn : 0 < n) (hpre : groupCodes pre ≤ 4 * n)
    (hT : ((groupCodes (pre ++ g :: post) : ℕ) : ℝ) ^ 2 ≤ 2 * F) :
    (groupSpace (pre ++ g :: post) : ℝ) < F + groupCodes (pre ++ g :: post) + n * 2 ^ g.2 := by
  have h1 := groupSpace_eq hF (pre ++ g :: post) 0
  have h2 := groupLoss_append F pre (g :: post) 0
  have h3 := groupLoss_le hF pre (fun h hh => hg h (by simp [hh])) (List.pairwise_append.1 hp).1
  have h4 := groupLoss_small hF g.2 (g :: post) (0 + groupCodes pre) (by
    intro h hh
    rcases List.mem_cons.1 hh with rfl | hh
    · exact le_refl _
    · exact ((List.pairwise_cons.1 (List.pairwise_append.1 hp).2.1).1 h hh).le)
  have h5 := groupShare_append F pre (g :: post) 0
  have h6 := groupShare_nonneg hF (g :: post) (0 + groupCodes pre)
  have h7 := groupShare_nonneg hF pre 0
  have hc := groupCodes_append pre (g :: post)
  set T : ℝ := ((groupCodes (pre ++ g :: post) : ℕ) : ℝ) with hTd
  have ha1 : (1 : ℝ) ≤ 2 ^ g.2 := one_le_pow₀ (by norm_num)
  have h8 : groupLoss F (0 + groupCodes pre) (g :: post) ≤ 2 ^ g.2 - 1 := by
    refine h4.trans ?_
    have e : ((0 + groupCodes pre : ℕ) : ℝ) + groupCodes (g :: post) = T := by rw [hTd, hc]; push_cast; ring
    rw [e]
    have hpos : (0 : ℝ) ≤ ((0 + groupCodes pre : ℕ) : ℝ) ^ 2 := by positivity
    have : (2 ^ g.2 - 1) / F * (T ^ 2 - ((0 + groupCodes pre : ℕ) : ℝ) ^ 2) / 2 ≤ (2 ^ g.2 - 1) / F * (2 * F) / 2 := by
      have : 0 ≤ (2 ^ g.2 - 1) / F := div_nonneg (by linarith) hF.le
      gcongr
      linarith
    refine this.trans (le_of_eq ?_)
    field_simp
  have hpre' : (groupCodes pre : ℝ) ≤ 4 * n := by exact_mod_cast hpre
  have hn' : (1 : ℝ) ≤ n := by exact_mod_cast hn
  have hpre0 : (0 : ℝ) ≤ groupCodes pre := by positivity
  have h9 : groupShare F 0 pre ≤ 1 + ε := by linarith
  have h10 : (groupCodes pre : ℝ) * groupShare F 0 pre ≤ 4 * n * (1 + ε) := mul_le_mul hpre' h9 h7 (by positivity)
  have h11 : F * groupShare F 0 (pre ++ g :: post) ≤ F + F * ε := by nlinarith
  have h12 : (n : ℝ) * 2 ^ g.2 ≥ n + (2 ^ g.2 - 1) := by nlinarith
  have h13 : (n : ℝ) * ε ≤ n * (1 / 1000) := by gcongr
  rw [h2] at h1
  nlinarith

end WB.Sf
