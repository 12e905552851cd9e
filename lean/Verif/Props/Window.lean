import Verif.Spec.Window
import Verif.Proof.Window
import Verif.Props.Lifetime

/-!
C130: `decompositions()` of a view.
-/

set_option linter.unusedSectionVars false
set_option linter.unusedSimpArgs false

namespace WB.Props

open WB WB.Spec

variable {α : Type}

/-- `decompositions()` of a view of a mutable buffer throws exactly for the ranges for which `Decompose` and `Compose` of the view return
`false`, including those whose sum they cannot compute. -/
theorem C130_accepts {v : View} (hi : IntView v) (hc : v.isConst = false) {n : ℕ} (hn : n < 2 ^ 63) :
    ((∃ w, v.window n = .ok w) ↔ 0 ≤ v.start + v.count ∧ v.start + v.count ≤ n) ∧
      (v.window n = .throw ↔ ¬ (0 ≤ v.start + v.count ∧ v.start + v.count ≤ n)) ∧
      (∀ good, v.checkRange n = .ok good → (v.window n = .throw ↔ good = false)) := by
  obtain ⟨h1, h2, h3, h4⟩ := hi
  have key : ((v.start % 2 ^ 64).toNat + (v.count % 2 ^ 64).toNat) % 2 ^ 64 ≤ n ↔ 0 ≤ v.start + v.count ∧ v.start + v.count ≤ n := by
    omega
  have hthrow : v.window n = .throw ↔ ¬ (0 ≤ v.start + v.count ∧ v.start + v.count ≤ n) := by
    unfold View.window
    simp only [hc, Bool.false_eq_true, if_false]
    rw [← key]
    split_ifs with h <;> simp only [h, reduceCtorEq, not_true, not_false_iff, Outcome.ok.injEq, exists_eq', exists_false]
  refine ⟨?_, hthrow, ?_⟩
  · unfold View.window
    simp only [hc, Bool.false_eq_true, if_false]
    rw [← key]
    split_ifs with h <;> simp only [h, reduceCtorEq, not_true, not_false_iff, Outcome.ok.injEq, exists_eq', exists_false]
  · intro good hg
    rw [hthrow]
    unfold View.checkRange at hg
    split_ifs at hg
    cases hg
    simp

/-- The window of a view of channels the buffer has: its elements are these channels, for reading and for writing. -/
theorem C130_covers {v : View} (hc : v.isConst = false) {decs : Decs α} (hn : decs.length < 2 ^ 63) (hv : Covers v decs.length) :
    ∃ w, v.window decs.length = .ok w ∧ (w.size : ℤ) = v.count ∧
      w.all decs = .ok ((decs.drop v.start.toNat).take v.count.toNat) ∧
      (∀ i < w.size, ∃ c, decs[v.start.toNat + i]? = some c ∧ w.channel decs i = .ok c) ∧
      ∀ i < w.size, ∀ idx m, w.write decs i idx m = setSub decs (v.start.toNat + i) idx m := by
  obtain ⟨h1, h2, h3⟩ := hv
  have e1 : v.start % 2 ^ 64 = v.start := by omega
  have e2 : v.count % 2 ^ 64 = v.count := by omega
  refine ⟨⟨v.start.toNat, v.count.toNat⟩, ?_, ?_, ?_, ?_, ?_⟩
  · unfold View.window
    simp only [hc, Bool.false_eq_true, if_false, e1, e2]
    rw [if_pos (by omega)]
  · simp only; omega
  · unfold Window.all
    simp only
    rw [if_pos (by omega)]
  · intro i hi
    simp only at hi
    have hlt : v.start.toNat + i < decs.length := by omega
    refine ⟨decs[v.start.toNat + i], List.getElem?_eq_getElem hlt, ?_⟩
    unfold Window.channel rd
    simp only
    rw [Nat.mod_eq_of_lt (by omega), List.getElem?_eq_getElem hlt]
  · intro i hi idx m
    simp only at hi
    unfold Window.write
    simp only
    rw [Nat.mod_eq_of_lt (by omega)]

/-- A view of a const buffer has no `decompositions()`: the call is undefined for every range. -/
theorem C130_const {v : View} (hc : v.isConst = true) (n : ℕ) : v.window n = .ub := by
  unfold View.window
  simp [hc]

/-- Ranges with a negative bound that add up to something the buffer has are accepted, but the window cannot be iterated over; with
a negative start its first element cannot be accessed. -/
theorem C130_negative_counterexample {v : View} (hi : IntView v) (hc : v.isConst = false) {decs : Decs α} (hn : decs.length < 2 ^ 63)
    (h0 : 0 ≤ v.start + v.count) (h1 : v.start + v.count ≤ decs.length) (hneg : ¬ Covers v decs.length) :
    ∃ w, v.window decs.length = .ok w ∧ w.all decs = .ub ∧
      (v.start < 0 → w.channel decs 0 = .ub ∧ ∀ idx m, w.write decs 0 idx m = .ub) ∧
      (v.count < 0 → (w.size : ℤ) = 2 ^ 64 + v.count) := by
  obtain ⟨h2, h3, h4, h5⟩ := hi
  have hneg' : v.start < 0 ∨ v.count < 0 := by
    unfold Covers at hneg
    omega
  have hw : v.window decs.length = .ok ⟨(v.start % 2 ^ 64).toNat, (v.count % 2 ^ 64).toNat⟩ := by
    unfold View.window
    simp only [hc, Bool.false_eq_true, if_false]
    rw [if_pos (by omega)]
  refine ⟨_, hw, ?_, ?_, ?_⟩
  · unfold Window.all
    simp only
    rw [if_neg (by omega)]
  · intro hs
    have hge : decs.length ≤ ((v.start % 2 ^ 64).toNat + 0) % 2 ^ 64 := by omega
    constructor
    · unfold Window.channel rd
      simp only
      rw [List.getElem?_eq_none hge]
    · intro idx m
      unfold Window.write setSub
      simp only
      rw [List.getElem?_eq_none hge]
  · intro hs
    simp only
    omega

section
variable [Zero α] [Add α] [Mul α] [Neg α] [Inhabited α]

/-- The conversion of a view to a buffer gives the channels its window shows. -/
theorem C130_cast {v : View} (hc : v.isConst = false) {b nb : Buffer α} (hn : b.decs.length < 2 ^ 63)
    (hv : Covers v b.decs.length) (hcast : v.cast b = .ok nb) :
    ∃ w, v.window b.decs.length = .ok w ∧ w.all b.decs = .ok nb.decs := by
  obtain ⟨w, h1, h2, h3, _, _⟩ := C130_covers hc hn hv
  refine ⟨w, h1, ?_⟩
  rw [h3]
  congr 1
  obtain ⟨_, _, _, hl, hch⟩ := cast_some hcast
  obtain ⟨c1, c2, c3⟩ := hv
  apply List.ext_getElem?
  intro i
  by_cases hi : i < v.count.toNat
  · obtain ⟨hp, c, g1, g2⟩ := hch i hi
    rw [g1, List.getElem?_take_of_lt hi, List.getElem?_drop]
    rw [← g2]
    congr 1
    omega
  · rw [List.getElem?_eq_none (by simp; omega), List.getElem?_eq_none (by omega)]

/-- The window of a kept view contains a reference: it shows and changes the contents which its object had when the window was made, wherever
these are by then, and cannot be used when they are gone. -/
theorem C130_kept {k : Kit α} {s : Scene α} {v h : ℕ} {u : View} (hw : Watches k s v h u) (hc : u.isConst = false) {b : Buffer α}
    (hb : s.world.content h = some b) (hn : b.decs.length < 2 ^ 63) (hu : Covers u b.decs.length) :
    ∃ s' w, s.step k (.windowView v) = some (s', .window w) ∧ (w.size : ℤ) = u.count ∧ s'.world = s.world ∧
      Follows k s' s.refs.length h ∧
      ∀ t g, Later k s' t → Follows k t s.refs.length g → ∃ b', t.world.content g = some b' ∧
        t.step k (.readRef s.refs.length) = some (t, .buffer b') ∧
        w.all b'.decs = .ok ((b'.decs.drop u.start.toNat).take u.count.toNat) ∧
        (∀ i < w.size, ∃ c, b'.decs[u.start.toNat + i]? = some c ∧ w.channel b'.decs i = .ok c) ∧
        ∀ i < w.size, ∀ idx m, w.write b'.decs i idx m = setSub b'.decs (u.start.toNat + i) idx m := by
  obtain ⟨hp, hv⟩ := watches_view hw
  obtain ⟨a, hf⟩ := World.content_some.1 hb
  obtain ⟨w, h1, h2, h3, h4, _⟩ := C130_covers hc hn hu
  have hs : s.step k (.windowView v) = some ({ s with refs := s.refs ++ [a] }, .window w) := by
    simp [Scene.step, hv, hf, h1]
  refine ⟨_, w, hs, h2, rfl, .window hw hs, ?_⟩
  intro t g hl ht
  obtain ⟨b', e1, e2, _⟩ := C129_reference ht
  have hl : b'.decs.length = b.decs.length := later_length (.next _ hp hs) hl ht e1 (by simp) (World.find_some hf).2
  refine ⟨b', e1, e2, ?_⟩
  have hu' : Covers u b'.decs.length := by rw [hl]; exact hu
  obtain ⟨w', g1, g2, g3, g4, g5⟩ := C130_covers hc (by rw [hl]; exact hn) hu'
  rw [hl, h1] at g1
  cases g1
  exact ⟨g3, g4, g5⟩

end

/-! ### Concrete cases -/

/-- Channels 1 and 2 of three. -/
example : Covers ⟨1, 2, false⟩ 3 ∧ IntView ⟨1, 2, false⟩ ∧ (View.mk 1 2 false).window 3 = .ok ⟨1, 2⟩ ∧ (View.mk 1 3 false).window 3 = .throw :=
  ⟨by simp [Covers], by simp [IntView], by decide, by decide⟩

/-- A start of -1 with two channels is accepted. -/
example : ¬ Covers ⟨-1, 2, false⟩ 3 ∧ IntView ⟨-1, 2, false⟩ ∧ (View.mk (-1) 2 false).window 3 = .ok ⟨2 ^ 64 - 1, 2⟩ :=
  ⟨by simp [Covers], by simp [IntView], by decide⟩

private def wdKit : Kit ℤ := ⟨fun o => if o = 1 then [1, 1] else [], id, fun _ _ x => x⟩

/-- A kept view of channels 1 and 2 of a buffer with three. -/
example : ∃ s b, Watches wdKit s 0 0 ⟨1, 2, false⟩ ∧ s.world.content 0 = some b ∧ Covers ⟨1, 2, false⟩ b.decs.length ∧ b.decs.length < 2 ^ 63 := by
  have h0 : ∃ s x, (Scene.init : Scene ℤ).step wdKit (.call (.construct ⟨[4], 3, 1, 1⟩)) = some (s, x) ∧ s.views.length = 0 ∧
      ∃ s' x', s.step wdKit (.makeView 0 ⟨1, 2, false⟩) = some (s', x') ∧ ∃ b, s'.world.content 0 = some b ∧ b.decs.length = 3 :=
    ⟨_, _, rfl, rfl, _, _, rfl, _, rfl, rfl⟩
  obtain ⟨s, x, h1, l1, s', x', h2, b, h3, h4⟩ := h0
  have hw : Watches wdKit s' 0 0 ⟨1, 2, false⟩ := by have := Watches.made (.next _ .start h1) h2; rwa [l1] at this
  exact ⟨s', b, hw, h3, by rw [h4]; simp [Covers], by rw [h4]; norm_num⟩

end WB.Props
