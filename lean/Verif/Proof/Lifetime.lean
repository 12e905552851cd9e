import Verif.Proof.History
import Verif.Spec.Lifetime

/-!
Views and references that are kept.
-/

set_option linter.unusedSectionVars false

namespace WB

open Spec

variable {α : Type} [Zero α] [Add α] [Mul α] [Neg α] [Inhabited α]

/-- Invariant: the world's, and every reference has been the address of an `Impl`. -/
structure Scene.Inv (k : Kit α) (s : Scene α) : Prop where
  world : s.world.Inv k
  refs : ∀ a ∈ s.refs, a < s.world.heap.length

theorem heap_step {k : Kit α} {w w' : World α} {op : Op α} {x : Reply α} (h : w.step k op = some (w', x)) :
    w.heap.length ≤ w'.heap.length := by
  have hb : ∀ {o : Outcome (Buffer α)}, w.build o = some (w', x) → w.heap.length ≤ w'.heap.length := by
    intro o ho
    rcases build_some ho with ⟨b, _, rfl, _⟩ | ⟨_, rfl, _⟩
    · simp [World.alloc]
    · exact le_rfl
  have hu : ∀ {a b r}, w.update a b r = some (w', x) → w.heap.length ≤ w'.heap.length := by
    intro a b r hr
    obtain ⟨d, rfl, _⟩ := update_some hr
    simp
  have hq : ∀ {r}, w.query r = some (w', x) → w.heap.length ≤ w'.heap.length := by
    intro r hr
    rw [query_some hr]
  cases op with
  | construct p => exact hb h
  | constructWith p d => exact hb h
  | _ =>
    simp only [World.step] at h
    repeat' split at h
    all_goals first
      | exact hb h
      | exact hu h
      | exact hq h
      | (cases h; simp [World.alloc])
      | cases h

/-- An `Impl` that nobody owns any more is never owned again. -/
theorem dead_step {k : Kit α} {w w' : World α} {op : Op α} {x : Reply α} (h : w.step k op = some (w', x)) {a : ℕ}
    (ha : a < w.heap.length) (hd : Slot.holds a ∉ w.handles) : Slot.holds a ∉ w'.handles := by
  have hb : ∀ {o : Outcome (Buffer α)}, w.build o = some (w', x) → Slot.holds a ∉ w'.handles := by
    intro o ho
    rcases build_some ho with ⟨b, _, rfl, _⟩ | ⟨_, rfl, _⟩
    · simp [World.alloc, hd]; omega
    · exact hd
  have hu : ∀ {a' b r}, w.update a' b r = some (w', x) → Slot.holds a ∉ w'.handles := by
    intro a' b r hr
    obtain ⟨d, rfl, _⟩ := update_some hr
    exact hd
  have hq : ∀ {r}, w.query r = some (w', x) → Slot.holds a ∉ w'.handles := by
    intro r hr
    rw [query_some hr]; exact hd
  have hset : ∀ {l : List Slot} {i : ℕ} {t : Slot}, Slot.holds a ∉ l → t ≠ .holds a → Slot.holds a ∉ l.set i t := by
    intro l i t hl ht hm
    rcases List.mem_or_eq_of_mem_set hm with h | h
    · exact hl h
    · exact ht h.symm
  have hold : ∀ {i : ℕ} {t : Slot}, w.handles[i]? = some t → t ≠ .holds a := by
    rintro i t hi rfl
    exact hd (List.mem_of_getElem? hi)
  cases op with
  | construct p => exact hb h
  | constructWith p d => exact hb h
  | copy g =>
    simp only [World.step] at h
    split at h
    · cases h; simp [World.alloc, hd]; omega
    · cases h
  | move g =>
    simp only [World.step] at h
    split at h
    · cases h
    · cases h
    · rename_i t ht _
      cases h
      simp only [List.mem_append, List.mem_singleton, not_or]
      exact ⟨hset hd (by simp), fun e => hold ‹_› e.symm⟩
  | assign g g' =>
    simp only [World.step] at h
    split at h
    · cases h
    · cases h
      exact hset hd (by simp; omega)
    · cases h
  | moveAssign g g' =>
    simp only [World.step] at h
    split at h
    · cases h
    · cases h
    · split_ifs at h
      · cases h; exact hd
      · cases h
        exact hset (hset hd (by simp)) (hold ‹_›)
    · cases h
  | destroy g =>
    simp only [World.step] at h
    split at h
    · cases h
    · cases h
    · cases h; exact hset hd (by simp)
  | _ =>
    simp only [World.step] at h
    repeat' split at h
    all_goals first
      | exact hb h
      | exact hu h
      | exact hq h
      | (cases h; exact hd)
      | cases h

theorem alive_of_find {w : World α} {h a : ℕ} {b : Buffer α} (hf : w.find h = some (a, b)) : w.alive a = some b := by
  obtain ⟨h1, h2⟩ := World.find_some hf
  unfold World.alive
  rw [if_pos (List.mem_of_getElem? h1), h2]

theorem find_of_alive {w : World α} {a : ℕ} {b : Buffer α} (ha : w.alive a = some b) : ∃ h, w.find h = some (a, b) := by
  unfold World.alive at ha
  split_ifs at ha with hm
  obtain ⟨h, hlt, he⟩ := List.mem_iff_getElem.1 hm
  exact ⟨h, World.find_of (by rw [List.getElem?_eq_getElem hlt, he]) ha⟩

theorem alive_dead {w : World α} {a : ℕ} (hd : Slot.holds a ∉ w.handles) : w.alive a = none := by
  unfold World.alive; rw [if_neg hd]

/-- Every step is a call of the world's interface or leaves the world alone. -/
theorem scene_cases {k : Kit α} {s s' : Scene α} {op : SceneOp α} {x : SceneReply α} (h : s.step k op = some (s', x)) :
    (∃ op' y, s.world.step k op' = some (s'.world, y) ∧ s'.refs = s.refs ∧ ∀ g, ¬ Renews g op → ¬ Rebinds g op') ∨
      (s'.world = s.world ∧ ((s'.refs = s.refs ∧ ∀ g, op ≠ .takeRef g) ∨
        (∃ g a b, op = .takeRef g ∧ s.world.find g = some (a, b) ∧ s'.refs = s.refs ++ [a]) ∨
        ∃ v kv a b w, op = .windowView v ∧ s.views[v]? = some (some kv) ∧ s.world.find kv.object = some (a, b) ∧ x = .window w ∧
          s'.refs = s.refs ++ [a])) := by
  have hcall : ∀ {op'}, s.call k op' = some (s', x) → (∀ g, ¬ Renews g op → ¬ Rebinds g op') →
      ∃ op' y, s.world.step k op' = some (s'.world, y) ∧ s'.refs = s.refs ∧ ∀ g, ¬ Renews g op → ¬ Rebinds g op' := by
    intro op' ho hr
    unfold Scene.call at ho
    rw [Option.map_eq_some_iff] at ho
    obtain ⟨⟨w', y⟩, h1, h2⟩ := ho
    cases h2
    exact ⟨op', y, h1, rfl, hr⟩
  have hthrough : ∀ {v f}, s.through k v f = some (s', x) → (∀ kv g, ¬ Rebinds g (f kv)) →
      ∃ op' y, s.world.step k op' = some (s'.world, y) ∧ s'.refs = s.refs ∧ ∀ g, ¬ Renews g op → ¬ Rebinds g op' := by
    intro v f ho hr
    unfold Scene.through at ho
    split at ho
    · exact hcall ho fun g _ => hr _ g
    · cases ho
  cases op with
  | call op => exact .inl (hcall h fun g hg => hg)
  | makeView g v =>
    simp only [Scene.step] at h
    split at h
    · cases h
    · cases h
    · cases h; exact .inr ⟨rfl, .inl ⟨rfl, by simp⟩⟩
  | dropView v =>
    simp only [Scene.step] at h
    split at h
    · cases h; exact .inr ⟨rfl, .inl ⟨rfl, by simp⟩⟩
    · cases h
  | decomposeView v data den => exact .inl (hthrough h fun _ _ => id)
  | composeView v scale => exact .inl (hthrough h fun _ _ => id)
  | castView v => exact .inl (hthrough h fun _ _ => id)
  | takeRef g =>
    simp only [Scene.step] at h
    split at h
    · rename_i a b hf
      cases h; exact .inr ⟨rfl, .inr (.inl ⟨g, a, b, rfl, hf, rfl⟩)⟩
    · cases h
  | windowView v =>
    simp only [Scene.step] at h
    split at h
    · rename_i kv hv
      split at h
      · rename_i a b hf
        split at h
        · rename_i w _
          cases h; exact .inr ⟨rfl, .inr (.inr ⟨v, kv, a, b, w, rfl, hv, hf, rfl, rfl⟩)⟩
        · cases h; exact .inr ⟨rfl, .inl ⟨rfl, by simp⟩⟩
        · cases h
      · cases h
    · cases h
  | readRef r =>
    simp only [Scene.step] at h
    split at h
    · rw [Option.map_eq_some_iff] at h
      obtain ⟨b, _, h2⟩ := h
      cases h2; exact .inr ⟨rfl, .inl ⟨rfl, by simp⟩⟩
    · cases h
  | writeRef r ch idx m =>
    simp only [Scene.step] at h
    split at h
    · split at h
      · rename_i a _ b hb
        split at h
        · rename_i d _ hd
          obtain ⟨g, hg⟩ := find_of_alive hb
          cases h
          exact .inl ⟨.write g ch idx m, .done, by simp [World.step, hg, hd], rfl, fun _ _ => id⟩
        · cases h
      · cases h
    · cases h

theorem scene_inv {k : Kit α} {s : Scene α} (h : Played k s) : s.Inv k := by
  induction h with
  | start => exact ⟨World.inv_init k, by simp [Scene.init]⟩
  | next op _ hs ih =>
    rcases scene_cases hs with ⟨op', y, h1, h2, _⟩ | ⟨h1, h2⟩
    · refine ⟨World.inv_step ih.world op' h1, fun a ha => ?_⟩
      rw [h2] at ha
      exact lt_of_lt_of_le (ih.refs a ha) (heap_step h1)
    · refine ⟨by rw [h1]; exact ih.world, fun a ha => ?_⟩
      rw [h1]
      rcases h2 with ⟨h2, _⟩ | ⟨g, a', b, _, hf, h2⟩ | ⟨_, _, a', b, _, _, _, hf, _, h2⟩
      · rw [h2] at ha; exact ih.refs a ha
      · rw [h2] at ha
        simp only [List.mem_append, List.mem_singleton] at ha
        rcases ha with ha | rfl
        · exact ih.refs a ha
        · exact (List.getElem?_eq_some_iff.1 (World.find_some hf).2).1
      · rw [h2] at ha
        simp only [List.mem_append, List.mem_singleton] at ha
        rcases ha with ha | rfl
        · exact ih.refs a ha
        · exact (List.getElem?_eq_some_iff.1 (World.find_some hf).2).1

theorem refs_step {k : Kit α} {s s' : Scene α} {op : SceneOp α} {x : SceneReply α} (h : s.step k op = some (s', x)) {r a : ℕ}
    (hr : s.refs[r]? = some a) : s'.refs[r]? = some a := by
  rcases scene_cases h with ⟨_, _, _, h2, _⟩ | ⟨_, ⟨h2, _⟩ | ⟨g, a', b, _, _, h2⟩ | ⟨_, _, a', b, _, _, _, _, _, h2⟩⟩
  · rw [h2, hr]
  · rw [h2, hr]
  · rw [h2, List.getElem?_append_left (List.getElem?_eq_some_iff.1 hr).1, hr]
  · rw [h2, List.getElem?_append_left (List.getElem?_eq_some_iff.1 hr).1, hr]

theorem call_some {k : Kit α} {s s' : Scene α} {op : Op α} {x : SceneReply α} (h : s.step k (.call op) = some (s', x)) :
    ∃ y, s.world.step k op = some (s'.world, y) ∧ x = .plain y ∧ s' = { s with world := s'.world } := by
  simp only [Scene.step, Scene.call] at h
  rw [Option.map_eq_some_iff] at h
  obtain ⟨⟨w', y⟩, h1, h2⟩ := h
  cases h2
  exact ⟨y, h1, rfl, rfl⟩

/-- After `move h` the new object has what `h` had. -/
theorem find_move {k : Kit α} {w w' : World α} {h a : ℕ} {b : Buffer α} (hf : w.find h = some (a, b)) {y : Reply α}
    (hs : w.step k (.move h) = some (w', y)) : w'.find (fresh w) = some (a, b) ∧ w'.find h = none := by
  obtain ⟨h1, h2⟩ := World.find_some hf
  have hlt := (List.getElem?_eq_some_iff.1 h1).1
  simp only [World.step, h1] at hs
  cases hs
  constructor
  · exact World.find_of (by simp [fresh]) h2
  · unfold World.find
    simp [List.getElem?_append_left (show h < (w.handles.set h Slot.null).length by simpa using hlt), hlt]

theorem find_moveAssign {k : Kit α} {w w' : World α} {g h a : ℕ} {b : Buffer α} (hf : w.find h = some (a, b)) {y : Reply α}
    (hs : w.step k (.moveAssign g h) = some (w', y)) : w'.find g = some (a, b) := by
  obtain ⟨h1, h2⟩ := World.find_some hf
  cases hg : w.handles[g]? with
  | none => simp [World.step, hg, h1] at hs
  | some t =>
    have hlt := (List.getElem?_eq_some_iff.1 hg).1
    simp only [World.step, hg, h1] at hs
    cases t with
    | dead => cases hs
    | _ =>
      simp only at hs
      split_ifs at hs with he
      · cases hs; rw [he]; exact hf
      · cases hs
        exact World.find_of (by simp [hlt]) h2

theorem views_step {k : Kit α} {s s' : Scene α} {op : SceneOp α} {x : SceneReply α} (h : s.step k op = some (s', x)) {v : ℕ}
    {kv : KeptView} (hv : s.views[v]? = some (some kv)) (hn : ∀ u', op = .dropView u' → u' ≠ v) : s'.views[v]? = some (some kv) := by
  have hcall : ∀ {op'}, s.call k op' = some (s', x) → s'.views[v]? = some (some kv) := by
    intro op' ho
    obtain ⟨y, _, _, h3⟩ := call_some (s := s) (op := op') ho
    rw [h3]; exact hv
  have hthrough : ∀ {v f}, s.through k v f = some (s', x) → s'.views = s.views := by
    intro v f ho
    unfold Scene.through at ho
    split at ho
    · obtain ⟨y, _, _, h3⟩ := call_some (s := s) (op := f _) ho
      rw [h3]
    · cases ho
  cases op with
  | call op => exact hcall h
  | makeView g u =>
    simp only [Scene.step] at h
    split at h
    · cases h
    · cases h
    · cases h
      rw [List.getElem?_append_left (List.getElem?_eq_some_iff.1 hv).1, hv]
  | dropView u =>
    simp only [Scene.step] at h
    split at h
    · cases h
      rw [List.getElem?_set_ne (hn u rfl), hv]
    · cases h
  | decomposeView v data den => rw [hthrough h, hv]
  | composeView v scale => rw [hthrough h, hv]
  | castView v => rw [hthrough h, hv]
  | _ =>
    simp only [Scene.step] at h
    repeat' split at h
    all_goals first
      | (cases h; exact hv)
      | cases h
      | (rw [Option.map_eq_some_iff] at h; obtain ⟨_, _, h2⟩ := h; cases h2; exact hv)

theorem watches_view {k : Kit α} {s : Scene α} {v h : ℕ} {u : View} (hw : Watches k s v h u) :
    Played k s ∧ s.views[v]? = some (some ⟨h, u⟩) := by
  induction hw with
  | made hp hs =>
    refine ⟨.next _ hp hs, ?_⟩
    simp only [Scene.step] at hs
    split at hs
    · cases hs
    · cases hs
    · cases hs; simp
  | kept op _ hn hs ih => exact ⟨.next _ ih.1 hs, views_step hs ih.2 hn⟩

theorem views_back {k : Kit α} {s s' : Scene α} {op : SceneOp α} {x : SceneReply α} (h : s.step k op = some (s', x)) {v : ℕ}
    {kv : KeptView} (hv : s'.views[v]? = some (some kv)) :
    (s.views[v]? = some (some kv) ∧ ∀ u', op = .dropView u' → u' ≠ v) ∨ (op = .makeView kv.object kv.view ∧ v = s.views.length) := by
  have hcall : ∀ {op'}, s.call k op' = some (s', x) → s'.views = s.views := by
    intro op' ho
    obtain ⟨y, _, _, h3⟩ := call_some (s := s) (op := op') ho
    rw [h3]
  have hthrough : ∀ {v f}, s.through k v f = some (s', x) → s'.views = s.views := by
    intro v f ho
    unfold Scene.through at ho
    split at ho
    · exact hcall ho
    · cases ho
  cases op with
  | call op => exact .inl ⟨by rw [← hcall h, hv], by simp⟩
  | makeView g u =>
    simp only [Scene.step] at h
    split at h
    · cases h
    · cases h
    · cases h
      simp only at hv
      rw [List.getElem?_append] at hv
      split_ifs at hv with hlt
      · exact .inl ⟨hv, by simp⟩
      · right
        rcases hx : v - s.views.length with _ | n <;> rw [hx] at hv <;> simp at hv
        rw [← hv]
        exact ⟨rfl, by omega⟩
  | dropView u =>
    simp only [Scene.step] at h
    split at h
    · cases h
      simp only at hv
      rw [List.getElem?_set] at hv
      split_ifs at hv with h1 h2
      · cases hv
      · exact .inl ⟨hv, by rintro u' he; cases he; exact h1⟩
    · cases h
  | decomposeView v data den => exact .inl ⟨by rw [← hthrough h, hv], by simp⟩
  | composeView v scale => exact .inl ⟨by rw [← hthrough h, hv], by simp⟩
  | castView v => exact .inl ⟨by rw [← hthrough h, hv], by simp⟩
  | _ =>
    simp only [Scene.step] at h
    repeat' split at h
    all_goals first
      | (cases h; exact .inl ⟨hv, by simp⟩)
      | cases h
      | (rw [Option.map_eq_some_iff] at h; obtain ⟨_, _, h2⟩ := h; cases h2; exact .inl ⟨hv, by simp⟩)

theorem watches_of_view {k : Kit α} {s : Scene α} (hp : Played k s) {v : ℕ} {kv : KeptView} (hv : s.views[v]? = some (some kv)) :
    Watches k s v kv.object kv.view := by
  induction hp with
  | start => simp [Scene.init] at hv
  | next op hp hs ih =>
    rcases views_back hs hv with ⟨h1, h2⟩ | ⟨rfl, rfl⟩
    · exact .kept op (ih h1) h2 hs
    · exact .made hp hs

theorem follows_find {k : Kit α} {s : Scene α} {r h : ℕ} (hf : Follows k s r h) :
    Played k s ∧ ∃ a b, s.refs[r]? = some a ∧ s.world.find h = some (a, b) := by
  induction hf with
  | @taken s s' x h hp hs =>
    refine ⟨.next _ hp hs, ?_⟩
    simp only [Scene.step] at hs
    split at hs
    · rename_i a b hg
      cases hs
      exact ⟨a, b, by simp, hg⟩
    · cases hs
  | window hw hs =>
    obtain ⟨hp, hv⟩ := watches_view hw
    refine ⟨.next _ hp hs, ?_⟩
    simp only [Scene.step, hv] at hs
    split at hs
    · rename_i a b hg
      split at hs
      · cases hs
        exact ⟨a, b, by simp, hg⟩
      · cases hs
      · cases hs
    · cases hs
  | kept op _ hn hs ih =>
    obtain ⟨hp, a, b, h1, h2⟩ := ih
    refine ⟨.next _ hp hs, ?_⟩
    rcases scene_cases hs with ⟨op', y, h3, _, h4⟩ | ⟨h3, _⟩
    · obtain ⟨b', hb, _⟩ := step_params (scene_inv hp).world h2 (h4 _ hn) h3
      exact ⟨a, b', refs_step hs h1, hb⟩
    · exact ⟨a, b, refs_step hs h1, by rw [h3]; exact h2⟩
  | moved _ hs ih =>
    obtain ⟨hp, a, b, h1, h2⟩ := ih
    obtain ⟨y, hy, _, _⟩ := call_some hs
    exact ⟨.next _ hp hs, a, b, refs_step hs h1, (find_move h2 hy).1⟩
  | moveAssigned g _ hs ih =>
    obtain ⟨hp, a, b, h1, h2⟩ := ih
    obtain ⟨y, hy, _, _⟩ := call_some hs
    exact ⟨.next _ hp hs, a, b, refs_step hs h1, find_moveAssign h2 hy⟩

/-- The owner of an `Impl` is the only one. -/
theorem not_mem_set {k : Kit α} {w : World α} (hw : w.Inv k) {h a : ℕ} {b : Buffer α} (hf : w.find h = some (a, b)) {t : Slot}
    (ht : t ≠ .holds a) : Slot.holds a ∉ w.handles.set h t := by
  intro hm
  obtain ⟨i, hlt, he⟩ := List.mem_iff_getElem.1 hm
  have hi : (w.handles.set h t)[i]? = some (.holds a) := by rw [List.getElem?_eq_getElem hlt, he]
  rcases set_holds hi with ⟨_, h2⟩ | ⟨h1, h2⟩
  · exact ht h2
  · exact h1 (hw.inj h i a (World.find_some hf).1 h2)

theorem dangles_dead {k : Kit α} {s : Scene α} {r : ℕ} (hd : Dangles k s r) :
    Played k s ∧ ∃ a, s.refs[r]? = some a ∧ Slot.holds a ∉ s.world.handles := by
  induction hd with
  | destroyed hf hs =>
    obtain ⟨hp, a, b, h1, h2⟩ := follows_find hf
    refine ⟨.next _ hp hs, a, refs_step hs h1, ?_⟩
    obtain ⟨y, hy, _, _⟩ := call_some hs
    have hw := (scene_inv hp).world
    simp only [World.step, (World.find_some h2).1, Option.some.injEq, Prod.mk.injEq] at hy
    rw [← hy.1]
    exact not_mem_set hw h2 (by simp)
  | assigned g hf hs =>
    obtain ⟨hp, a, b, h1, h2⟩ := follows_find hf
    refine ⟨.next _ hp hs, a, refs_step hs h1, ?_⟩
    obtain ⟨y, hy, _, _⟩ := call_some hs
    have hw := (scene_inv hp).world
    simp only [World.step, (World.find_some h2).1] at hy
    split at hy
    · cases hy
    · simp only [Option.some.injEq, Prod.mk.injEq] at hy
      rw [← hy.1]
      have := (List.getElem?_eq_some_iff.1 (World.find_some h2).2).1
      exact not_mem_set hw h2 (by simp; omega)
    · cases hy
  | @overwritten s s' x r h g hf hne hs =>
    obtain ⟨hp, a, b, h1, h2⟩ := follows_find hf
    refine ⟨.next _ hp hs, a, refs_step hs h1, ?_⟩
    obtain ⟨y, hy, _, _⟩ := call_some hs
    have hw := (scene_inv hp).world
    simp only [World.step, (World.find_some h2).1] at hy
    split at hy
    · cases hy
    · cases hy
    · rename_i t u _ hg _ ht
      rw [if_neg (Ne.symm hne)] at hy
      simp only [Option.some.injEq, Prod.mk.injEq] at hy
      rw [← hy.1]
      have hu : u ≠ .holds a := by
        rintro rfl
        exact hne (hw.inj _ _ a ht (World.find_some h2).1)
      intro hm
      obtain ⟨i, hlt, he⟩ := List.mem_iff_getElem.1 hm
      have hi : ((s.world.handles.set g Slot.null).set h u)[i]? = some (.holds a) := by rw [List.getElem?_eq_getElem hlt, he]
      rcases set_holds hi with ⟨_, h4⟩ | ⟨h3, h4⟩
      · exact hu h4
      · rcases set_holds h4 with ⟨_, h6⟩ | ⟨_, h6⟩
        · cases h6
        · exact h3 (hw.inj _ _ a (World.find_some h2).1 h6)
    · cases hy
  | later op hd hs ih =>
    obtain ⟨hp, a, h1, h2⟩ := ih
    refine ⟨.next _ hp hs, a, refs_step hs h1, ?_⟩
    have hi := scene_inv hp
    rcases scene_cases hs with ⟨op', y, h3, _, _⟩ | ⟨h3, _⟩
    · exact dead_step h3 (hi.refs a (List.mem_of_getElem? h1)) h2
    · rw [h3]; exact h2

theorem step_viewDecompose {k : Kit α} {w : World α} (hw : w.Inv k) {h a : ℕ} {b : Buffer α} (hh : w.find h = some (a, b)) (u : View)
    (data : List (Mat α)) (den : Denoiser α) :
    (∃ c, w.step k (.viewDecompose h u data den) = w.update a b (c, u.decompose k b data den)) := by
  simp only [World.step, hh, View.decompose]
  cases hc : u.checkRange b.params.signalNumber with
  | ok g =>
    cases g with
    | true =>
      simp only [Run.lift, Run.bind, if_true]
      split_ifs
      · exact ⟨w.cache, rfl⟩
      · refine ⟨(decomposeCached k w.cache b.params b.decs data den u.start u.count).1, ?_⟩
        have := (decomposeCached_eq hw.cache b.params b.decs data den u.start u.count).1
        congr 1
        exact Prod.ext rfl this
    | false =>
      refine ⟨w.cache, ?_⟩
      simp only [Run.lift, Run.bind, World.update]
      have : w.heap.set a b = w.heap := by
        obtain ⟨hl, he⟩ := List.getElem?_eq_some_iff.1 (World.find_some hh).2
        rw [← he]; simp
      simp [this]
  | throw => exfalso; unfold View.checkRange at hc; split_ifs at hc
  | ub => exact ⟨w.cache, rfl⟩

theorem step_viewCompose {k : Kit α} {w : World α} (hw : w.Inv k) {h a : ℕ} {b : Buffer α} (hh : w.find h = some (a, b)) (u : View)
    (scale : ℤ) :
    (∃ c, w.step k (.viewCompose h u scale) = w.query (c, u.compose k b scale >>= fun o => pure (.signals o))) := by
  simp only [World.step, hh, View.compose]
  cases hc : u.checkRange b.params.signalNumber with
  | ok g =>
    cases g with
    | true =>
      refine ⟨(composeCached k w.cache b.params b.decs scale u.start u.count).1, ?_⟩
      have := (composeCached_eq hw.cache b.params b.decs scale u.start u.count).1
      simp only []
      rw [this]
      show _ = w.query (_, (composeImpl k (freshTrans k b.params) b.params b.decs scale u.start u.count >>= fun ms => pure (some ms)) >>= _)
      cases composeImpl k (freshTrans k b.params) b.params b.decs scale u.start u.count <;> rfl
    | false => exact ⟨w.cache, rfl⟩
  | throw => exfalso; unfold View.checkRange at hc; split_ifs at hc
  | ub => exact ⟨w.cache, rfl⟩

theorem content_none {w : World α} {h : ℕ} (hc : w.content h = none) : w.find h = none := by
  unfold World.content at hc
  simpa using hc

theorem onlyChanges_set {k : Kit α} {w : World α} (hw : w.Inv k) {h a : ℕ} {b nb : Buffer α} (hh : w.find h = some (a, b)) (c : Cache α) :
    OnlyChanges w { w with cache := c, heap := w.heap.set a nb } h nb := by
  refine ⟨World.content_some.2 ⟨a, find_heapset_same hh⟩, fun g hg => ?_⟩
  unfold World.content
  congr 1
  unfold World.find
  simp only
  cases hs : w.handles[g]? with
  | none => rfl
  | some t =>
    cases t with
    | holds a' =>
      have : a ≠ a' := by
        rintro rfl
        exact hg (hw.inj _ _ a hs (World.find_some hh).1)
      simp [List.getElem?_set_ne this]
    | _ => rfl

theorem content_alloc_other {k : Kit α} {w : World α} (hw : w.Inv k) (b : Buffer α) {g : ℕ} (hg : g ≠ fresh w) :
    (w.alloc b).content g = w.content g := by
  unfold World.content
  congr 1
  unfold World.find World.alloc
  simp only
  by_cases hlt : g < w.handles.length
  · rw [List.getElem?_append_left hlt]
    cases hs : w.handles[g]? with
    | none => rfl
    | some t =>
      cases t with
      | holds a' => simp only; rw [List.getElem?_append_left (hw.owns g a' hs)]
      | _ => rfl
  · have h1 : (w.handles ++ [Slot.holds w.heap.length])[g]? = none := by
      rw [List.getElem?_eq_none]
      simp [fresh] at hg ⊢
      omega
    rw [h1, List.getElem?_eq_none (by omega)]

end WB
