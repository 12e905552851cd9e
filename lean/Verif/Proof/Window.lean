import Verif.Spec.Window
import Verif.Proof.Lifetime

/-!
The number of channels behind a reference does not change.
-/

set_option linter.unusedSectionVars false

namespace WB

open Spec

variable {α : Type} [Zero α] [Add α] [Mul α] [Neg α] [Inhabited α]

theorem heap_params {k : Kit α} {w w' : World α} {op : Op α} {x : Reply α} (h : w.step k op = some (w', x)) {a : ℕ} {b : Buffer α}
    (ha : w.heap[a]? = some b) : ∃ b', w'.heap[a]? = some b' ∧ b'.params = b.params := by
  have hlt := (List.getElem?_eq_some_iff.1 ha).1
  have happ : ∀ b', (w.heap ++ [b'])[a]? = some b := fun b' => by rw [List.getElem?_append_left hlt, ha]
  have hset : ∀ {g a' b'} {d : Decs α}, w.find g = some (a', b') →
      ∃ b'', (w.heap.set a' { b' with decs := d })[a]? = some b'' ∧ b''.params = b.params := by
    intro g a' b' d hf
    by_cases he : a' = a
    · subst he
      have := (World.find_some hf).2
      rw [ha] at this
      cases this
      exact ⟨{ b with decs := d }, by simp [hlt], rfl⟩
    · exact ⟨b, by rw [List.getElem?_set_ne he, ha], rfl⟩
  have hb : ∀ {o : Outcome (Buffer α)}, w.build o = some (w', x) → ∃ b', w'.heap[a]? = some b' ∧ b'.params = b.params := by
    intro o ho
    rcases build_some ho with ⟨b', _, rfl, _⟩ | ⟨_, rfl, _⟩
    · exact ⟨b, happ b', rfl⟩
    · exact ⟨b, ha, rfl⟩
  have hu : ∀ {g a' b' r}, w.find g = some (a', b') → w.update a' b' r = some (w', x) →
      ∃ b', w'.heap[a]? = some b' ∧ b'.params = b.params := by
    intro g a' b' r hf hr
    obtain ⟨d, rfl, _⟩ := update_some hr
    exact hset hf
  have hq : ∀ {r}, w.query r = some (w', x) → ∃ b', w'.heap[a]? = some b' ∧ b'.params = b.params := by
    intro r hr
    rw [query_some hr]; exact ⟨b, ha, rfl⟩
  cases op with
  | construct p => exact hb h
  | constructWith p d => exact hb h
  | _ =>
    simp only [World.step] at h
    repeat' split at h
    all_goals first
      | exact hb h
      | exact hq h
      | exact hu ‹_› h
      | (cases h; exact ⟨b, happ _, rfl⟩)
      | (cases h; exact ⟨b, ha, rfl⟩)
      | (cases h; exact hset ‹_›)
      | cases h

theorem later_params {k : Kit α} {s t : Scene α} (hl : Later k s t) {r a : ℕ} (hr : s.refs[r]? = some a) {b : Buffer α}
    (ha : s.world.heap[a]? = some b) : t.refs[r]? = some a ∧ ∃ b', t.world.heap[a]? = some b' ∧ b'.params = b.params := by
  induction hl with
  | now => exact ⟨hr, b, ha, rfl⟩
  | next op _ hs ih =>
    obtain ⟨h1, b1, h2, h3⟩ := ih
    refine ⟨refs_step hs h1, ?_⟩
    rcases scene_cases hs with ⟨op', y, h4, _, _⟩ | ⟨h4, _⟩
    · obtain ⟨b2, h5, h6⟩ := heap_params h4 h2
      exact ⟨b2, h5, h6.trans h3⟩
    · rw [h4]; exact ⟨b1, h2, h3⟩

theorem later_length {k : Kit α} {s t : Scene α} (hp : Played k s) (hl : Later k s t) {r g : ℕ} (ht : Follows k t r g) {b' : Buffer α}
    (hb' : t.world.content g = some b') {a : ℕ} (hr : s.refs[r]? = some a) {b : Buffer α} (ha : s.world.heap[a]? = some b) :
    b'.decs.length = b.decs.length := by
  obtain ⟨h1, b1, h2, h3⟩ := later_params hl hr ha
  obtain ⟨hp', a', b2, h4, h5⟩ := follows_find ht
  rw [h1] at h4
  cases h4
  obtain ⟨a'', h6⟩ := World.content_some.1 hb'
  rw [h5] at h6
  cases h6
  rw [(World.find_some h5).2] at h2
  cases h2
  have w1 := (scene_inv hp).world.wf b (List.mem_of_getElem? ha)
  have w2 := (scene_inv hp').world.wf _ (List.mem_of_getElem? (World.find_some h5).2)
  rw [w1.2.1, w2.2.1, h3]

end WB
