import Verif.Proof.Params

/-!
Properties C01, C03, C04, C35: construction, padded sizes, comparison of parameters.
-/

namespace WB.Props

open WB WB.Spec

variable {α : Type}

/-- C01. The constructor succeeds exactly for valid parameters, throws for all others, and a constructed buffer reports the
given parameters, has one channel per signal and only empty subbands. -/
theorem C01_constructor_accepts_exactly_valid (p : Params) (hr : RepresentableType p) :
    (ValidParams p →
      ∃ b : Buffer α, ctor p = .ok b ∧ b.params = p ∧ b.isEmpty = true ∧
        b.decs.length = p.signalNumber ∧ ∀ c ∈ b.decs, c.length = subbandCount p ∧ ∀ m ∈ c, m = Mat.empty) ∧
    (¬ ValidParams p → ctor (α := α) p = .throw) := by
  refine ⟨fun hv => ⟨emptyBuffer p, ctor_ok_of_valid hv hr, rfl, ?_, by simp [emptyBuffer], ?_⟩,
    fun hv => ctor_throw_of_not_valid hv hr⟩
  · unfold Buffer.isEmpty emptyBuffer
    simp only [List.all_eq_true, List.mem_replicate, beq_iff_eq]
    rintro c ⟨_, rfl⟩ m hm
    rw [List.mem_replicate] at hm
    rw [hm.2]; rfl
  · intro c hc
    simp only [emptyBuffer, List.mem_replicate] at hc
    rw [hc.2]
    refine ⟨by simp, ?_⟩
    intro m hm
    exact (List.mem_replicate.1 hm).2

/-- A 640×480 three channel image with four DB3 steps is valid; one more dimension is not. -/
example : ValidParams ⟨[640, 480], 3, 4, 3⟩ ∧ ¬ ValidParams ⟨[640, 480, 3], 1, 4, 3⟩ ∧
    ¬ ValidParams ⟨[640, 79], 1, 4, 3⟩ ∧ RepresentableType ⟨[640, 480], 3, 4, 3⟩ := by
  refine ⟨?_, ?_, ?_, ?_⟩ <;> simp [ValidParams, RepresentableType]

/-- C03. The constructor from explicit subbands stores exactly what it is given, or throws. -/
theorem C03_constructor_with_subbands (p : Params) (hr : RepresentableType p) (decs : List (List (Mat α))) :
    (ValidParams p ∧ decs.length = p.signalNumber ∧ (∀ c ∈ decs, c.length = subbandCount p) →
      ctorWith p decs = .ok ⟨p, decs⟩) ∧
    (¬ (ValidParams p ∧ decs.length = p.signalNumber ∧ (∀ c ∈ decs, c.length = subbandCount p)) →
      ctorWith p decs = .throw) :=
  ⟨fun h => (ctorWith_ok_iff hr decs _).2 ⟨h.1, h.2.1, h.2.2, rfl⟩, fun h => ctorWith_throw hr decs h⟩

example : let p : Params := ⟨[8], 2, 1, 1⟩
    ValidParams p ∧ RepresentableType p ∧
      ∀ c ∈ ([[Mat.ofCol [1, 2], Mat.empty], [Mat.empty, Mat.ofCol [3]]] : List (List (Mat ℕ))),
        c.length = subbandCount p := by
  refine ⟨?_, ?_, ?_⟩ <;> simp [ValidParams, RepresentableType, subbandCount, detailsPerStep]

/-- C04. The padded size of every side is the least multiple of `2^steps` that is not below it; all steps see an even
size. -/
theorem C04_padded_size_least_multiple (p : Params) (hv : ValidParams p) :
    (paddedShape p).length = p.shape.length ∧
    ∀ i < p.shape.length, ∀ n padded, p.shape[i]? = some n → (paddedShape p)[i]? = some padded →
      IsLeast {m | 2 ^ p.steps ∣ m ∧ n ≤ m} padded ∧ padded - n < 2 ^ p.steps ∧
      ∀ step < p.steps, 2 ∣ padded / 2 ^ step ∧ 2 ^ step * (padded / 2 ^ step) = padded := by
  by_cases hw : p.wtype = 0
  · have hs : p.steps = 0 := by have := hv.2.2; simpa [hw] using this
    have hform : paddedShape p = p.shape := by unfold paddedShape; simp [hw]
    rw [hform, hs]
    refine ⟨rfl, ?_⟩
    intro i hi n padded hn hp
    rw [hn] at hp
    obtain rfl : n = padded := by simpa using hp
    refine ⟨⟨⟨by simp, le_refl n⟩, fun m hm => hm.2⟩, by simp, ?_⟩
    intro step hst
    omega
  have hform : paddedShape p = p.shape.map (paddedDim p.steps) := by
    unfold paddedShape
    simp [hw]
  rw [hform]
  refine ⟨by simp, ?_⟩
  intro i hi n padded hn hp
  simp only [List.getElem?_map, hn, Option.map_some, Option.some.injEq] at hp
  subst hp
  have hn0 : 0 < n := by have := hv.2.1 n (List.mem_of_getElem? hn); omega
  obtain ⟨h1, h2, h3⟩ := paddedDim_spec p.steps n hn0
  refine ⟨⟨⟨h1, h2⟩, fun m hm => paddedDim_least _ _ _ hn0 hm.1 hm.2⟩, by omega, ?_⟩
  intro step hs
  obtain ⟨q, hq⟩ := h1
  have hpow : 2 ^ p.steps = 2 ^ step * (2 * 2 ^ (p.steps - step - 1)) := by
    rw [← pow_succ', ← pow_add]; congr 1; omega
  have hdiv : paddedDim p.steps n / 2 ^ step = 2 * (2 ^ (p.steps - step - 1) * q) := by
    rw [hq, hpow, Nat.mul_assoc, Nat.mul_div_cancel_left _ (by positivity), Nat.mul_assoc]
  rw [hdiv]
  refine ⟨Dvd.intro _ rfl, ?_⟩
  rw [hq, hpow]; ring

example : let p : Params := ⟨[13, 10], 1, 2, 1⟩
    ValidParams p ∧ paddedShape p = [16, 12] := by
  refine ⟨?_, ?_⟩ <;> simp [ValidParams, paddedShape, paddedDim]

/-- Without a wavelet sides of no samples are accepted and stay as they are. -/
example : let p : Params := ⟨[0, 10], 1, 0, 0⟩
    ValidParams p ∧ paddedShape p = [0, 10] := by
  refine ⟨?_, ?_⟩ <;> simp [ValidParams, paddedShape]

/-- C35. The comparison operators of parameters: `<` is a strict total order, `==` is equality and holds exactly when
neither is smaller, and the other operators are the derived ones; a map keyed by parameters never confuses two different
keys. -/
theorem C35_params_total_order :
    (∀ a, Params.ltOp a a = false) ∧
    (∀ a b c, Params.ltOp a b = true → Params.ltOp b c = true → Params.ltOp a c = true) ∧
    (∀ a b, Params.ltOp a b = true ∨ a = b ∨ Params.ltOp b a = true) ∧
    (∀ a b, Params.eqOp a b = true ↔ a = b) ∧
    (∀ a b, Params.eqOp a b = true ↔ Params.ltOp a b = false ∧ Params.ltOp b a = false) ∧
    (∀ a b, Params.neOp a b = true ↔ a ≠ b) ∧
    (∀ a b, Params.gtOp a b = true ↔ Params.ltOp b a = true) ∧
    (∀ a b, Params.leOp a b = true ↔ Params.ltOp a b = true ∨ a = b) ∧
    (∀ a b, Params.geOp a b = true ↔ Params.ltOp b a = true ∨ a = b) := by
  have hirr : ∀ a, Params.ltOp a a = false := by
    intro a
    by_contra h
    have h' : Params.ltOp a a = true := by simpa using h
    rw [ltOp_iff, vecLt_irrefl] at h'
    simp at h'
  have htr : ∀ a b c, Params.ltOp a b = true → Params.ltOp b c = true → Params.ltOp a c = true := by
    intro a b c h1 h2
    rw [ltOp_iff] at h1 h2 ⊢
    rcases h1 with h1 | ⟨e1, h1⟩ <;> rcases h2 with h2 | ⟨e2, h2⟩
    · exact .inl (vecLt_trans h1 h2)
    · exact .inl (e2 ▸ h1)
    · exact .inl (e1 ▸ h2)
    · exact .inr ⟨e1.trans e2, by omega⟩
  have htot : ∀ a b, Params.ltOp a b = true ∨ a = b ∨ Params.ltOp b a = true := by
    intro a b
    rw [ltOp_iff, ltOp_iff]
    rcases vecLt_total a.shape b.shape with h | h | h
    · exact .inl (.inl h)
    · by_cases he : a = b
      · exact .inr (.inl he)
      · have : ¬ (a.signalNumber = b.signalNumber ∧ a.steps = b.steps ∧ a.wtype = b.wtype) := by
          rintro ⟨h1, h2, h3⟩
          apply he; cases a; cases b; simp_all
        rcases Nat.lt_trichotomy a.signalNumber b.signalNumber with hs | hs | hs
        · exact .inl (.inr ⟨h, .inl hs⟩)
        · rcases Nat.lt_trichotomy a.steps b.steps with ht | ht | ht
          · exact .inl (.inr ⟨h, .inr ⟨hs, .inl ht⟩⟩)
          · rcases Nat.lt_trichotomy a.wtype b.wtype with hw | hw | hw
            · exact .inl (.inr ⟨h, .inr ⟨hs, .inr ⟨ht, hw⟩⟩⟩)
            · exact absurd ⟨hs, ht, hw⟩ this
            · exact .inr (.inr (.inr ⟨h.symm, .inr ⟨hs.symm, .inr ⟨ht.symm, hw⟩⟩⟩))
          · exact .inr (.inr (.inr ⟨h.symm, .inr ⟨hs.symm, .inl ht⟩⟩))
        · exact .inr (.inr (.inr ⟨h.symm, .inl hs⟩))
    · exact .inr (.inr (.inl h))
  have heq : ∀ a b, Params.eqOp a b = true ↔ a = b := by
    intro a b
    unfold Params.eqOp
    cases a; cases b
    simp [and_assoc]
  have hasym : ∀ a b, Params.ltOp a b = true → Params.ltOp b a = false := by
    intro a b h
    by_contra hc
    have := htr a b a h (by simpa using hc)
    rw [hirr] at this; cases this
  have hle : ∀ a b, Params.leOp a b = true ↔ Params.ltOp a b = true ∨ a = b := by
    intro a b
    unfold Params.leOp
    rcases htot a b with h | h | h
    · simp [h, hasym a b h]
    · subst h; simp [hirr]
    · have h' := hasym b a h
      have : a ≠ b := by rintro rfl; rw [hirr] at h; cases h
      simp [h, h', this]
  refine ⟨hirr, htr, htot, heq, ?_, ?_, ?_, hle, ?_⟩
  · intro a b
    rw [heq]
    constructor
    · rintro rfl; exact ⟨hirr a, hirr a⟩
    · rintro ⟨h1, h2⟩
      rcases htot a b with h | h | h
      · rw [h1] at h; cases h
      · exact h
      · rw [h2] at h; cases h
  · intro a b
    unfold Params.neOp
    rw [Bool.not_eq_true', ← Bool.not_eq_true, heq]
    exact not_congr eq_comm
  · intro a b; rfl
  · intro a b
    have : Params.geOp a b = Params.leOp b a := rfl
    rw [this, hle]
    constructor <;> rintro (h | h) <;> simp_all

/-- The order is not trivial: shapes are compared first, a prefix is smaller. -/
example : Params.ltOp ⟨[4], 9, 9, 9⟩ ⟨[4, 1], 1, 0, 0⟩ = true ∧ Params.ltOp ⟨[4], 1, 2, 3⟩ ⟨[4], 1, 2, 2⟩ = false := by
  simp [Params.ltOp, Params.vecLt]

end WB.Props
