import Verif.Proof.FirstTrouble
import Verif.Props.WrongSizes

/-!
C126: how a composition of subbands of arbitrary sizes ends.
-/

namespace WB.Props

open WB WB.Spec

variable {α : Type} [Zero α] [Add α] [Mul α] [Neg α] [Inhabited α]

/-- C126, all sizes of all subbands, signals and pictures, all scales: how `Compose` ends. The channels are taken one after the other, and in
each the steps from the last one down to the scale; the first step that goes wrong decides. If none does, what remains is whether the
results are large enough for the signal to be cut out. -/
theorem C126_outcome (k : Kit α) (b : Buffer α) (hb : WellFormed b) (hk : FilterPresent k b.params) (s : ℕ) :
    (b.compose k s = .ub ↔ ∃ n c i, b.decs[n]? = some c ∧ s ≤ i ∧ i < b.params.steps ∧ SmoothUntil b.params b.decs s n i ∧
      ¬ Refuses b.params c i ∧ Strays b.params c i) ∧
    (b.compose k s = .throw ↔ (∃ n c i, b.decs[n]? = some c ∧ s ≤ i ∧ i < b.params.steps ∧ SmoothUntil b.params b.decs s n i ∧
      Refuses b.params c i) ∨ (Smooth b.params b.decs s ∧ ∃ c ∈ b.decs, TooSmall b.params s c)) ∧
    ((∃ out, b.compose k s = .ok out) ↔ Smooth b.params b.decs s ∧ ∀ c ∈ b.decs, ¬ TooSmall b.params s c) := by
  obtain ⟨f1, f2⟩ := compose_fate hb hk s
  have g1 : (∃ n c i, b.decs[n]? = some c ∧ s ≤ i ∧ i < b.params.steps ∧ SmoothUntil b.params b.decs s n i ∧
      ¬ Refuses b.params c i ∧ Strays b.params c i) → b.compose k s = .ub := by
    rintro ⟨n, c, i, h1, h2, h3, h4, h5, h6⟩
    exact (f1 n c i h1 h2 h3 h4).2 h5 h6
  have g2 : ((∃ n c i, b.decs[n]? = some c ∧ s ≤ i ∧ i < b.params.steps ∧ SmoothUntil b.params b.decs s n i ∧
      Refuses b.params c i) ∨ (Smooth b.params b.decs s ∧ ∃ c ∈ b.decs, TooSmall b.params s c)) → b.compose k s = .throw := by
    rintro (⟨n, c, i, h1, h2, h3, h4, h5⟩ | ⟨h1, h2⟩)
    · exact (f1 n c i h1 h2 h3 h4).1 h5
    · exact (f2 h1).1 h2
  have g3 : (Smooth b.params b.decs s ∧ ∀ c ∈ b.decs, ¬ TooSmall b.params s c) → ∃ out, b.compose k s = .ok out :=
    fun h => (f2 h.1).2 h.2
  have tri : (∃ n c i, b.decs[n]? = some c ∧ s ≤ i ∧ i < b.params.steps ∧ SmoothUntil b.params b.decs s n i ∧
      ¬ Refuses b.params c i ∧ Strays b.params c i) ∨
      ((∃ n c i, b.decs[n]? = some c ∧ s ≤ i ∧ i < b.params.steps ∧ SmoothUntil b.params b.decs s n i ∧
      Refuses b.params c i) ∨ (Smooth b.params b.decs s ∧ ∃ c ∈ b.decs, TooSmall b.params s c)) ∨
      (Smooth b.params b.decs s ∧ ∀ c ∈ b.decs, ¬ TooSmall b.params s c) := by
    rcases first_trouble b.params b.decs s with h | ⟨n, c, i, h1, h2, h3, h4, h5⟩
    · by_cases ht : ∃ c ∈ b.decs, TooSmall b.params s c
      · exact Or.inr (Or.inl (Or.inr ⟨h, ht⟩))
      · push Not at ht
        exact Or.inr (Or.inr ⟨h, ht⟩)
    · by_cases hr : Refuses b.params c i
      · exact Or.inr (Or.inl (Or.inl ⟨n, c, i, h1, h2, h3, h4, hr⟩))
      · exact Or.inl ⟨n, c, i, h1, h2, h3, h4, hr, by tauto⟩
  refine ⟨⟨fun h => ?_, g1⟩, ⟨fun h => ?_, g2⟩, ⟨fun h => ?_, g3⟩⟩
  · rcases tri with t | t | t
    · exact t
    · rw [g2 t] at h; cases h
    · obtain ⟨_, ht⟩ := g3 t; rw [ht] at h; cases h
  · rcases tri with t | t | t
    · rw [g1 t] at h; cases h
    · exact t
    · obtain ⟨_, ht⟩ := g3 t; rw [ht] at h; cases h
  · obtain ⟨_, h⟩ := h
    rcases tri with t | t | t
    · rw [g1 t] at h; cases h
    · rw [g2 t] at h; cases h
    · exact t

/-- A picture of 2 by 2 and one step. -/
private def small : Params := ⟨[2, 2], 1, 1, 1⟩

/-- An `r` by `c` matrix. -/
private def filled (r c : ℕ) : Mat ℤ := Mat.ofFn r c (fun _ _ => 7)

/-- Not covered by the other theorems: the first detail is larger than prescribed and takes the place of the third, which is missing. `Compose`
returns normally. -/
example : Smooth small [[filled 1 2, filled 1 1, filled 0 0, filled 1 1]] 0 := by
  intro c hc i _ hi
  simp only [List.mem_singleton] at hc
  subst hc
  obtain rfl : i = 0 := by simp [small] at hi; omega
  constructor
  · unfold Refuses
    simp [small, PictureRefuses, blocks, rowsOf, colsOf, filled, sideAt, paddedSide]
  · unfold Strays
    simp [small, PictureStrays, blocks, rowsOf, colsOf, filled, sideAt, paddedSide]
    omega

/-- The first detail sticks out: `Compose` throws. -/
example : Refuses small [filled 2 1, filled 1 1, filled 1 1, filled 1 1] 0 := by
  unfold Refuses
  simp [small, PictureRefuses, blocks, rowsOf, colsOf, filled, sideAt, paddedSide]

/-- The last detail is missing: `Compose` computes with memory that was never written. -/
example : ¬ Refuses small [filled 1 1, filled 1 1, filled 0 0, filled 1 1] 0 ∧ Strays small [filled 1 1, filled 1 1, filled 0 0, filled 1 1] 0 := by
  constructor
  · unfold Refuses
    simp [small, PictureRefuses, blocks, rowsOf, colsOf, filled, sideAt, paddedSide]
  · unfold Strays
    simp [small, PictureStrays, blocks, rowsOf, colsOf, filled, sideAt, paddedSide]
    exact ⟨1, by omega, 1, by omega, by omega⟩

end WB.Props
