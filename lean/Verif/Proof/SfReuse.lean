import Verif.Model.SfCompressor

/-! A used decompressor object reads tables that are in the stream as a new one does. -/

namespace WB.Sf

/-- The same entries in use. -/
structure Table.Same (a b : Table) : Prop where
  count : a.count = b.count
  len : ∀ t < a.count, a.len t = b.len t
  last : ∀ t < a.count, a.last t = b.last t
  offset : ∀ t < a.count, a.offset t = b.offset t

/-- Two outcomes agree: both `ok` with related results and the same reading position, or equal otherwise. -/
def Agree {β : Type} (R : β → β → Prop) (x y : Outcome (β × BitIn)) : Prop :=
  (∃ a b s, x = .ok (a, s) ∧ y = .ok (b, s) ∧ R a b) ∨ (x = .throw ∧ y = .throw) ∨ (x = .ub ∧ y = .ub)

theorem Agree.refl {β : Type} (x : Outcome (β × BitIn)) : Agree (· = ·) x x := by
  cases x with
  | ok r => exact .inl ⟨r.1, r.1, r.2, rfl, rfl, rfl⟩
  | throw => exact .inr (.inl ⟨rfl, rfl⟩)
  | ub => exact .inr (.inr ⟨rfl, rfl⟩)

theorem Agree.bind {β γ : Type} {R : β → β → Prop} {S : γ → γ → Prop} {g g' : Get β} {f f' : β → Get γ} {s : BitIn}
    (h : Agree R (g s) (g' s)) (hf : ∀ a b s', R a b → Agree S (f a s') (f' b s')) :
    Agree S (Get.bind g f s) (Get.bind g' f' s) := by
  unfold Get.bind
  rcases h with ⟨a, b, s', h1, h2, h3⟩ | ⟨h1, h2⟩ | ⟨h1, h2⟩
  · rw [h1, h2]
    exact hf a b s' h3
  · rw [h1, h2]; exact .inr (.inl ⟨rfl, rfl⟩)
  · rw [h1, h2]; exact .inr (.inr ⟨rfl, rfl⟩)

theorem Agree.same {β γ : Type} {S : γ → γ → Prop} {g : Get β} {f f' : β → Get γ} {s : BitIn}
    (hf : ∀ a s', Agree S (f a s') (f' a s')) : Agree S (Get.bind g f s) (Get.bind g f' s) :=
  Agree.bind (Agree.refl _) (by rintro a b s' rfl; exact hf a s')

theorem Agree.pure {β : Type} {R : β → β → Prop} {a b : β} (h : R a b) (s : BitIn) : Agree R (Get.pure a s) (Get.pure b s) :=
  .inl ⟨a, b, s, rfl, rfl, h⟩

theorem setAt_same {a b : ℕ → ℕ} {t x : ℕ} (h : ∀ i < t, a i = b i) : ∀ i < t + 1, setAt a t x i = setAt b t x i := by
  intro i hi
  unfold setAt
  split
  · rfl
  · exact h i (by omega)

theorem readTable_same (exp : Bool) : ∀ (k t : ℕ) (free : ℚ) (lastCode lastPool : ℤ) (d : ℕ) (a b : Table) (s : BitIn),
    a.Same b → a.count = t → Agree Table.Same (readTable exp k t free lastCode lastPool d a s) (readTable exp k t free lastCode lastPool d b s)
  | 0, t, free, lastCode, lastPool, d, a, b, s, h, _ => Agree.pure h s
  | k + 1, t, free, lastCode, lastPool, d, a, b, s, h, ht => by
    unfold readTable
    refine Agree.same fun r s1 => ?_
    refine Agree.same fun last s2 => ?_
    refine Agree.same fun pw s3 => ?_
    refine Agree.same fun off s4 => ?_
    have hsame : Table.Same ⟨a.count + 1, setAt a.len t r.1, setAt a.last t last, setAt a.offset t off⟩
        ⟨b.count + 1, setAt b.len t r.1, setAt b.last t last, setAt b.offset t off⟩ := by
      subst ht
      exact ⟨by rw [h.count], setAt_same h.len, setAt_same h.last, setAt_same h.offset⟩
    show Agree Table.Same ((if _ then _ else _ : Get Table) s4) ((if _ then _ else _ : Get Table) s4)
    split
    · exact Agree.pure hsame s4
    · exact readTable_same exp k (t + 1) _ _ _ _ _ _ s4 hsame (by rw [← ht])

theorem readPool_same (exp : Bool) (first : ℕ) (h : first ≠ 0) (a b : Table) (s : BitIn) :
    Agree Table.Same (readPool exp first a s) (readPool exp first b s) := by
  unfold readPool
  rw [if_neg h, if_neg h]
  exact readTable_same exp _ _ _ _ _ _ _ _ s ⟨rfl, by simp, by simp, by simp⟩ rfl

theorem symLoop_same {a b : Table} (h : a.Same b) : ∀ (k t v : ℕ), t + k ≤ a.count → 0 < t → symLoop a k t v = symLoop b k t v
  | 0, _, _, _, _ => rfl
  | k + 1, t, v, hk, ht => by
    unfold symLoop
    rw [h.len t (by omega), h.len (t - 1) (by omega), h.last t (by omega), h.offset t (by omega)]
    simp only [fun w => symLoop_same h k (t + 1) w (by omega) (by omega)]

theorem readSym_same {a b : Table} (h : a.Same b) (h0 : 0 < a.count) : readSym a = readSym b := by
  unfold readSym
  rw [h.len 0 h0, h.last 0 h0, ← h.count]
  simp only [fun v => symLoop_same h (a.count - 1) 1 v (by omega) (by omega)]

theorem readValues_same {cap sgn frag : ℕ} {zerosAppear : Bool} {J J' Z Z' : Table} (hJ : readSym J = readSym J') (hZ : readSym Z = readSym Z') :
    ∀ k i idx last, readValues cap J Z sgn frag zerosAppear k i idx last = readValues cap J' Z' sgn frag zerosAppear k i idx last
  | 0, _, _, _ => rfl
  | k + 1, i, idx, last => by
    have ih := fun i idx last => readValues_same (cap := cap) (sgn := sgn) (frag := frag) (zerosAppear := zerosAppear) hJ hZ k i idx last
    unfold readValues
    simp only [hJ, hZ, ih]

theorem getBind_ok {β γ : Type} {g : Get β} {f : β → Get γ} {s : BitIn} {r : γ × BitIn} (h : Get.bind g f s = .ok r) :
    ∃ a s', g s = .ok (a, s') ∧ f a s' = .ok r := by
  unfold Get.bind at h
  cases hg : g s with
  | ok x => rw [hg] at h; exact ⟨x.1, x.2, rfl, h⟩
  | throw => rw [hg] at h; cases h
  | ub => rw [hg] at h; cases h

theorem getBind_of {β γ : Type} {g : Get β} {f : β → Get γ} {s s' : BitIn} {a : β} (h : g s = .ok (a, s')) : Get.bind g f s = f a s' := by
  unfold Get.bind
  rw [h]
  rfl

theorem readPool_used {exp : Bool} {first : ℕ} {a : Table} {s s' : BitIn} (h : readPool exp first .fresh s = .ok (a, s')) (h0 : 0 < a.count)
    (b : Table) : ∃ c, readPool exp first b s = .ok (c, s') ∧ readSym a = readSym c := by
  have hf : first ≠ 0 := by
    rintro rfl
    unfold readPool at h
    rw [if_pos rfl] at h
    cases h
    exact absurd h0 (by simp)
  rcases readPool_same exp first hf .fresh b s with ⟨x, y, s2, h1, h2, h3⟩ | ⟨h1, _⟩ | ⟨h1, _⟩
  · rw [h] at h1
    cases h1
    exact ⟨y, h2, readSym_same h3 h0⟩
  · rw [h] at h1; cases h1
  · rw [h] at h1; cases h1

theorem readBody_used {cap : ℕ} {s s' : BitIn} {o : Origin} {q : Pools} (h : readBody cap .fresh s = .ok ((o, q), s'))
    (hj : 0 < q.jumps.count) (hz : 0 < q.zeros.count) (p : Pools) : ∃ q', readBody cap p s = .ok ((o, q'), s') := by
  unfold readBody at h ⊢
  obtain ⟨rb, s1, e1, h⟩ := getBind_ok h
  rw [getBind_of e1]
  obtain ⟨rc, s2, e2, h⟩ := getBind_ok h
  rw [getBind_of e2]
  obtain ⟨size, s3, e3, h⟩ := getBind_ok h
  rw [getBind_of e3]
  obtain ⟨row, s4, e4, h⟩ := getBind_ok h
  rw [getBind_of e4]
  obtain ⟨col, s5, e5, h⟩ := getBind_ok h
  rw [getBind_of e5]
  obtain ⟨sgn, s6, e6, h⟩ := getBind_ok h
  rw [getBind_of e6]
  obtain ⟨n, s7, e7, h⟩ := getBind_ok h
  rw [getBind_of e7]
  obtain ⟨fc, s8, e8, h⟩ := getBind_ok h
  rw [getBind_of e8]
  obtain ⟨first2, s9, e9, h⟩ := getBind_ok h
  rw [getBind_of e9]
  split at h
  · cases h
  next hn =>
    rw [if_neg hn]
    obtain ⟨first3, s10, e10, h⟩ := getBind_ok h
    rw [getBind_of e10]
    obtain ⟨J, s11, e11, h⟩ := getBind_ok h
    obtain ⟨Z, s12, e12, h⟩ := getBind_ok h
    obtain ⟨r, s13, e13, h⟩ := getBind_ok h
    cases h
    obtain ⟨J', f1, g1⟩ := readPool_used e11 hj p.jumps
    obtain ⟨Z', f2, g2⟩ := readPool_used e12 hz p.zeros
    refine ⟨⟨J', Z'⟩, ?_⟩
    rw [getBind_of f1, getBind_of f2, ← readValues_same g1 g2, getBind_of e13]
    rfl

end WB.Sf
