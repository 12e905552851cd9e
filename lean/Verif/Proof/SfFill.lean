import Verif.Model.SfChoose
import Verif.Spec.Code
import Mathlib.Algebra.BigOperators.Group.Finset.Basic
import Mathlib.Algebra.Order.BigOperators.Group.Finset
import Mathlib.Algebra.BigOperators.Ring.Finset
import Mathlib.Data.Finset.Lattice.Fold
import Mathlib.Algebra.BigOperators.Field
import Mathlib.Tactic.FieldSimp
import Mathlib.Tactic.Positivity
import Mathlib.Tactic.Linarith

/-! The second part of the choice of code lengths makes complete codes. -/

namespace WB.Sf

open Finset

/-- The code space, out of 2^32, that the pools take. -/
def space (size lens : ℕ → ℕ) (used : ℕ) : ℕ := ∑ t ∈ range used, size t * 2 ^ (32 - lens t)

/-- The smallest part is a divisor of what is left or missing. -/
theorem exists_min_part {size lens : ℕ → ℕ} {used : ℕ} (hu : 0 < used) (hs : ∀ t < used, ∃ ν, size t = 2 ^ ν) :
    ∃ m < used, ∀ t < used, size m * 2 ^ (32 - lens m) ∣ size t * 2 ^ (32 - lens t) := by
  obtain ⟨m, hm, hmin⟩ := exists_min_image (range used) (fun t => size t * 2 ^ (32 - lens t)) ⟨0, by simpa using hu⟩
  refine ⟨m, mem_range.1 hm, fun t ht => ?_⟩
  obtain ⟨ν, h1⟩ := hs m (mem_range.1 hm)
  obtain ⟨ρ, h2⟩ := hs t ht
  have := hmin t (mem_range.2 ht)
  simp only [h1, h2, ← pow_add] at this ⊢
  exact pow_dvd_pow _ ((Nat.pow_le_pow_iff_right (by norm_num)).1 this)

theorem sum_space {size lens : ℕ → ℕ} {used : ℕ} (h : ∀ t < used, lens t ≤ 32) :
    ∑ t ∈ range used, (size t : ℚ) / 2 ^ lens t = (space size lens used : ℚ) / 2 ^ 32 := by
  unfold space
  rw [Nat.cast_sum, sum_div]
  refine sum_congr rfl fun t ht => ?_
  have := h t (mem_range.1 ht)
  push_cast
  rw [div_eq_div_iff (by positivity) (by positivity), mul_assoc, ← pow_add]
  congr 2
  omega

/-- If code space is left, some pool's part fits in it. -/
theorem exists_fit {size lens : ℕ → ℕ} {used : ℕ} (hu : 0 < used) (hs : ∀ t < used, ∃ ν, size t = 2 ^ ν) (hl : ∀ t < used, lens t ≤ 32)
    (h : 0 < 1 - ∑ t ∈ range used, (size t : ℚ) / 2 ^ lens t) :
    ∃ m < used, (size m : ℚ) / 2 ^ lens m ≤ 1 - ∑ t ∈ range used, (size t : ℚ) / 2 ^ lens t := by
  obtain ⟨m, hm, hd⟩ := exists_min_part (lens := lens) hu hs
  refine ⟨m, hm, ?_⟩
  rw [sum_space hl] at h ⊢
  have hlt : space size lens used < 2 ^ 32 := by
    have : (space size lens used : ℚ) < 2 ^ 32 := by
      have := sub_pos.1 h
      rwa [div_lt_one (by positivity)] at this
    exact_mod_cast this
  have hle : size m * 2 ^ (32 - lens m) ≤ space size lens used :=
    single_le_sum (f := fun t => size t * 2 ^ (32 - lens t)) (fun _ _ => Nat.zero_le _) (mem_range.2 hm)
  have hdvd : size m * 2 ^ (32 - lens m) ∣ 2 ^ 32 := by
    obtain ⟨ν, hν⟩ := hs m hm
    rw [hν, ← pow_add] at hle ⊢
    exact pow_dvd_pow _ ((Nat.pow_le_pow_iff_right (by norm_num)).1 (hle.trans hlt.le))
  have h2 : size m * 2 ^ (32 - lens m) ∣ 2 ^ 32 - space size lens used :=
    Nat.dvd_sub hdvd (dvd_sum fun t ht => hd t (mem_range.1 ht))
  have h3 := Nat.le_of_dvd (by omega) h2
  have h4 : ((size m * 2 ^ (32 - lens m) : ℕ) : ℚ) ≤ 2 ^ 32 - space size lens used := by
    have : ((size m * 2 ^ (32 - lens m) : ℕ) : ℚ) ≤ ((2 ^ 32 - space size lens used : ℕ) : ℚ) := by exact_mod_cast h3
    rwa [Nat.cast_sub hlt.le] at this
    
  have e : (size m : ℚ) / 2 ^ lens m = ((size m * 2 ^ (32 - lens m) : ℕ) : ℚ) / 2 ^ 32 := by
    have := hl m hm
    push_cast
    rw [div_eq_div_iff (by positivity) (by positivity), mul_assoc, ← pow_add]
    congr 2
    omega
  rw [e, show (1 : ℚ) - (space size lens used : ℚ) / 2 ^ 32 = (2 ^ 32 - space size lens used) / 2 ^ 32 by field_simp]
  gcongr

theorem sum_setAt {size lens : ℕ → ℕ} {used t : ℕ} (ht : t < used) (hl : 0 < lens t) :
    ∑ s ∈ range used, (size s : ℚ) / 2 ^ (setAt lens t (lens t - 1)) s =
      ∑ s ∈ range used, (size s : ℚ) / 2 ^ lens s + (size t : ℚ) / 2 ^ lens t := by
  rw [← add_sum_erase _ _ (mem_range.2 ht), ← add_sum_erase (range used) (fun s => (size s : ℚ) / 2 ^ lens s) (mem_range.2 ht)]
  have h1 : ∑ s ∈ (range used).erase t, (size s : ℚ) / 2 ^ (setAt lens t (lens t - 1)) s = ∑ s ∈ (range used).erase t, (size s : ℚ) / 2 ^ lens s := by
    refine sum_congr rfl fun s hs => ?_
    unfold setAt
    rw [if_neg (ne_of_mem_erase hs)]
  rw [h1]
  unfold setAt
  rw [if_pos rfl]
  have : (size t : ℚ) / 2 ^ (lens t - 1) = 2 * ((size t : ℚ) / 2 ^ lens t) := by
    obtain ⟨k, hk⟩ : ∃ k, lens t = k + 1 := ⟨lens t - 1, by omega⟩
    rw [hk, Nat.add_sub_cancel, pow_succ]
    field_simp
  rw [this]
  ring

/-- What holds during the second part. -/
structure Filling (size : ℕ → ℕ) (used : ℕ) (lens : ℕ → ℕ) (free : ℚ) : Prop where
  rest : free = 1 - ∑ t ∈ range used, (size t : ℚ) / 2 ^ lens t
  nonneg : 0 ≤ free
  mono : ∀ t, t + 1 < used → lens t ≤ lens (t + 1)
  le : ∀ t < used, lens t ≤ 32

theorem grow_spec {size : ℕ → ℕ} {used : ℕ} (hs : ∀ t < used, 0 < size t) (hsm : ∀ t, t + 1 < used → size t ≤ size (t + 1)) :
    ∀ (k t : ℕ) (lens : ℕ → ℕ) (free : ℚ), t + k = used → Filling size used lens free →
      (∀ p, t = p + 1 → t < used → lens p < lens t ∨ free < (size p : ℚ) / 2 ^ lens p) →
      Filling size used (grow size k t lens free).1 (grow size k t lens free).2 ∧ (∀ s, (grow size k t lens free).1 s ≤ lens s) ∧
        (grow size k t lens free).2 ≤ free ∧
        ((grow size k t lens free).2 = free → ∀ s, t ≤ s → s < used → free < (size s : ℚ) / 2 ^ lens s) := by
  intro k
  induction k with
  | zero =>
    intro t lens free htk hF _
    refine ⟨hF, fun _ => le_refl _, le_refl _, ?_⟩
    intro _ s h1 h2
    omega
  | succ k ih =>
    intro t lens free htk hF hprev
    have ht : t < used := by omega
    have hst : (0 : ℚ) < size t := by exact_mod_cast hs t ht
    simp only [grow]
    by_cases hsh : (size t : ℚ) / 2 ^ lens t ≤ free
    · rw [if_pos hsh]
      have hpos : 0 < lens t := by
        rcases Nat.eq_zero_or_pos (lens t) with h | h
        · exfalso
          have h1 : (1 : ℚ) ≤ (size t : ℚ) / 2 ^ lens t := by
            rw [h]; simp only [pow_zero, div_one]; exact_mod_cast hs t ht
          have h2 : (size t : ℚ) / 2 ^ lens t ≤ ∑ t ∈ range used, (size t : ℚ) / 2 ^ lens t :=
            single_le_sum (f := fun t => (size t : ℚ) / 2 ^ lens t) (fun _ _ => by positivity) (mem_range.2 ht)
          have := hF.rest
          linarith
        · exact h
      have hu8 : u8 (lens t + 255) = lens t - 1 := by
        have := hF.le t ht
        unfold u8
        omega
      rw [hu8]
      have hsharepos : 0 < (size t : ℚ) / 2 ^ lens t := by positivity
      have hF' : Filling size used (setAt lens t (lens t - 1)) (free - (size t : ℚ) / 2 ^ lens t) := by
        refine ⟨?_, by linarith, ?_, ?_⟩
        · rw [sum_setAt ht hpos]
          have := hF.rest
          linarith
        · intro s hs1
          unfold setAt
          have hm := hF.mono s hs1
          by_cases h1 : s = t
          · subst h1
            rw [if_pos rfl, if_neg (by omega)]
            omega
          · rw [if_neg h1]
            by_cases h2 : s + 1 = t
            · rw [if_pos h2]
              have : lens s < lens t := by
                rcases hprev s h2.symm ht with h3 | h3
                · exact h3
                · by_contra hc
                  have heq : lens s = lens t := by
                    have : lens s ≤ lens t := h2 ▸ hm
                    omega
                  have hsz : (size s : ℚ) ≤ size t := by
                    have := hsm s hs1
                    rw [h2] at this
                    exact_mod_cast this
                  have : (size s : ℚ) / 2 ^ lens s ≤ (size t : ℚ) / 2 ^ lens t := by
                    rw [heq]; gcongr
                  linarith
              omega
            · rw [if_neg h2]
              exact hm
        · intro s hs1
          unfold setAt
          have := hF.le s hs1
          have := hF.le t ht
          split <;> omega
      have hle : ∀ s, setAt lens t (lens t - 1) s ≤ lens s := by
        intro s
        unfold setAt
        split
        next h => subst h; omega
        next => exact le_refl _
      by_cases h0 : free - (size t : ℚ) / 2 ^ lens t = 0
      · rw [if_pos h0]
        refine ⟨hF', hle, by simp only; linarith, ?_⟩
        intro h
        exfalso
        simp only at h
        linarith
      · rw [if_neg h0]
        obtain ⟨g1, g2, g3, g4⟩ := ih (t + 1) _ _ (by omega) hF' (by
          intro p hp hlt
          have : p = t := by omega
          subst this
          left
          have := hF.mono p hlt
          unfold setAt
          rw [if_pos rfl, if_neg (by omega)]
          omega)
        refine ⟨g1, fun s => (g2 s).trans (hle s), by linarith, ?_⟩
        intro h
        exfalso
        linarith
    · rw [if_neg hsh]
      push Not at hsh
      obtain ⟨g1, g2, g3, g4⟩ := ih (t + 1) lens free (by omega) hF (by
        intro p hp _
        have : p = t := by omega
        subst this
        right
        exact hsh)
      refine ⟨g1, g2, g3, ?_⟩
      intro h s h1 h2
      rcases Nat.lt_or_ge t s with h3 | h3
      · exact g4 h s h3 h2
      · have : s = t := by omega
        subst this
        exact hsh

theorem fill_spec {size : ℕ → ℕ} {used : ℕ} (hu : 0 < used) (hs : ∀ t < used, ∃ ν, size t = 2 ^ ν)
    (hsm : ∀ t, t + 1 < used → size t ≤ size (t + 1)) :
    ∀ (fuel : ℕ) (lens : ℕ → ℕ) (free : ℚ), Filling size used lens free → ∑ t ∈ range used, lens t ≤ fuel →
      ∃ lens', fill size used fuel lens free = .ok lens' ∧ (∀ t, t + 1 < used → lens' t ≤ lens' (t + 1)) ∧ (∀ t, lens' t ≤ lens t) ∧
        ∑ t ∈ range used, (size t : ℚ) / 2 ^ lens' t = 1 := by
  have hs0 : ∀ t < used, 0 < size t := by
    intro t ht
    obtain ⟨ν, hν⟩ := hs t ht
    rw [hν]; positivity
  intro fuel
  induction fuel with
  | zero =>
    intro lens free hF hsum
    have h0 : ¬ 0 < free := by
      intro hpos
      have hz : lens 0 = 0 := by
        have := single_le_sum (f := lens) (fun _ _ => Nat.zero_le _) (mem_range.2 hu)
        omega
      have h1 : (size 0 : ℚ) / 2 ^ lens 0 ≤ ∑ t ∈ range used, (size t : ℚ) / 2 ^ lens t :=
        single_le_sum (f := fun t => (size t : ℚ) / 2 ^ lens t) (fun _ _ => by positivity) (mem_range.2 hu)
      have h2 : (1 : ℚ) ≤ size 0 := by exact_mod_cast hs0 0 hu
      rw [hz] at h1
      have := hF.rest
      simp only [pow_zero, div_one] at h1
      linarith
    refine ⟨lens, ?_, hF.mono, fun _ => le_refl _, ?_⟩
    · simp [fill, h0]
    · have := hF.rest
      have := hF.nonneg
      push Not at h0
      linarith
  | succ fuel ih =>
    intro lens free hF hsum
    by_cases hpos : 0 < free
    · obtain ⟨g1, g2, g3, g4⟩ := grow_spec hs0 hsm used 0 lens free (by omega) hF (by intro p hp; omega)
      have hne : (grow size used 0 lens free).2 ≠ free := by
        intro h
        have hp := hpos
        rw [hF.rest] at hp
        obtain ⟨m, hm, hfit⟩ := exists_fit hu hs hF.le hp
        have := g4 h m (Nat.zero_le _) hm
        rw [← hF.rest] at hfit
        linarith
      have hlt : ∑ t ∈ range used, (grow size used 0 lens free).1 t < ∑ t ∈ range used, lens t := by
        refine lt_of_le_of_ne (sum_le_sum fun t _ => g2 t) ?_
        intro heq
        have h1 := (sum_eq_sum_iff_of_le fun t _ => g2 t).1 heq
        apply hne
        have e : ∑ t ∈ range used, (size t : ℚ) / 2 ^ (grow size used 0 lens free).1 t = ∑ t ∈ range used, (size t : ℚ) / 2 ^ lens t :=
          sum_congr rfl fun t ht => by rw [h1 t ht]
        have := g1.rest
        have := hF.rest
        linarith
      obtain ⟨lens', h1, h2, h3, h4⟩ := ih _ _ g1 (by omega)
      refine ⟨lens', ?_, h2, fun t => (h3 t).trans (g2 t), h4⟩
      simp only [fill]
      rw [if_pos hpos, if_neg hne]
      exact h1
    · refine ⟨lens, ?_, hF.mono, fun _ => le_refl _, ?_⟩
      · simp [fill, hpos]
      · have := hF.rest
        have := hF.nonneg
        push Not at hpos
        linarith

end WB.Sf
