import Verif.Proof.Lifetime

/-!
C129: what kept views and references lead to.
-/

set_option linter.unusedSectionVars false

namespace WB.Props

open WB WB.Spec

variable {α : Type} [Zero α] [Add α] [Mul α] [Neg α] [Inhabited α]

/-- A reference leads to the present contents of the object it follows: reading through it gives them, and writing through it is
writing to that object. -/
theorem C129_reference {k : Kit α} {s : Scene α} {r h : ℕ} (hf : Follows k s r h) :
    ∃ b, s.world.content h = some b ∧ s.step k (.readRef r) = some (s, .buffer b) ∧
      ∀ ch idx m, s.step k (.writeRef r ch idx m) = s.step k (.call (.write h ch idx m)) := by
  obtain ⟨_, a, b, h1, h2⟩ := follows_find hf
  refine ⟨b, World.content_some.2 ⟨a, h2⟩, ?_, fun ch idx m => ?_⟩
  · simp [Scene.step, h1, alive_of_find h2]
  · simp only [Scene.step, h1, alive_of_find h2, Scene.call, World.step, h2]
    cases setSub b.decs ch idx m <;> rfl

/-- A reference to contents that are gone cannot be used any more. -/
theorem C129_dangling {k : Kit α} {s : Scene α} {r : ℕ} (hd : Dangles k s r) :
    s.step k (.readRef r) = none ∧ ∀ ch idx m, s.step k (.writeRef r ch idx m) = none := by
  obtain ⟨_, a, h1, h2⟩ := dangles_dead hd
  constructor
  · simp [Scene.step, h1, alive_dead h2]
  · intro ch idx m
    simp [Scene.step, h1, alive_dead h2]

/-- Every reference ever taken either follows exactly one object or dangles. -/
theorem C129_classified {k : Kit α} {s : Scene α} (hp : Played k s) {r : ℕ} (hr : r < s.refs.length) :
    ((∃! h, Follows k s r h) ∧ ¬ Dangles k s r) ∨ (Dangles k s r ∧ ∀ h, ¬ Follows k s r h) := by
  have hex : (∃ h, Follows k s r h) ∨ Dangles k s r := by
    induction hp with
    | start => simp [Scene.init] at hr
    | @next s s' x op hp hs ih =>
      by_cases hlt : r < s.refs.length
      · rcases ih hlt with ⟨h, hf⟩ | hd
        · by_cases hn : Renews h op
          · cases op with
            | call op =>
              cases op with
              | assign g g' => cases hn; exact .inr (.assigned _ hf hs)
              | move g => cases hn; exact .inl ⟨_, .moved hf hs⟩
              | moveAssign g g' =>
                by_cases he : g' = h
                · subst he; exact .inl ⟨_, .moveAssigned _ hf hs⟩
                · have : g = h := hn.resolve_right he
                  subst this
                  exact .inr (.overwritten _ hf he hs)
              | destroy g => cases hn; exact .inr (.destroyed hf hs)
              | _ => exact hn.elim
            | _ => exact hn.elim
          · exact .inl ⟨h, .kept op hf hn hs⟩
        · exact .inr (.later op hd hs)
      · rcases scene_cases hs with ⟨_, _, _, h2, _⟩ | ⟨_, ⟨h2, _⟩ | ⟨g, a, b, rfl, _, h2⟩ | ⟨v, kv, a, b, w, rfl, hv, _, rfl, h2⟩⟩
        · rw [h2] at hr; exact absurd hr hlt
        · rw [h2] at hr; exact absurd hr hlt
        · rw [h2] at hr
          simp at hr
          have : r = s.refs.length := by omega
          rw [this]
          exact .inl ⟨g, .taken hp hs⟩
        · rw [h2] at hr
          simp at hr
          have : r = s.refs.length := by omega
          rw [this]
          exact .inl ⟨_, .window (watches_of_view hp hv) hs⟩
  have hnot : ∀ h, Follows k s r h → ¬ Dangles k s r := by
    intro h hf hd
    obtain ⟨b, _, h1, _⟩ := C129_reference hf
    rw [(C129_dangling hd).1] at h1
    cases h1
  rcases hex with ⟨h, hf⟩ | hd
  · refine .inl ⟨⟨h, hf, fun g hg => ?_⟩, hnot h hf⟩
    obtain ⟨_, a, b, h1, h2⟩ := follows_find hf
    obtain ⟨_, a', b', h3, h4⟩ := follows_find hg
    rw [h1] at h3
    cases h3
    exact (scene_inv hp).world.inj _ _ a (World.find_some h4).1 (World.find_some h2).1
  · exact .inr ⟨hd, fun h hf => hnot h hf hd⟩

/-- A view leads to its object, whatever that contains at the time of the call: the calls through the view are those on the present
contents, and are undefined while the object has none or is destroyed. -/
theorem C129_view {k : Kit α} {s : Scene α} {v h : ℕ} {u : View} (hw : Watches k s v h u) :
    (s.world.content h = none → (∀ data den, s.step k (.decomposeView v data den) = none) ∧
      (∀ scale, s.step k (.composeView v scale) = none) ∧ s.step k (.castView v) = none) ∧
    ∀ b, s.world.content h = some b →
      (∀ data den, match u.decompose k b data den with
        | .ok d x => ∃ s', s.step k (.decomposeView v data den) = some (s', .plain (.bool x)) ∧ OnlyChanges s.world s'.world h { b with decs := d }
        | .throw d => ∃ s', s.step k (.decomposeView v data den) = some (s', .plain .threw) ∧ OnlyChanges s.world s'.world h { b with decs := d }
        | .ub => s.step k (.decomposeView v data den) = none) ∧
      (∀ scale, match u.compose k b scale with
        | .ok o => ∃ s', s.step k (.composeView v scale) = some (s', .plain (.signals o)) ∧ ∀ g, s'.world.content g = s.world.content g
        | .throw => ∃ s', s.step k (.composeView v scale) = some (s', .plain .threw) ∧ ∀ g, s'.world.content g = s.world.content g
        | .ub => s.step k (.composeView v scale) = none) ∧
      (match u.cast b with
        | .ok nb => ∃ s', s.step k (.castView v) = some (s', .plain .done) ∧ OnlyChanges s.world s'.world (fresh s.world) nb
        | .throw => ∃ s', s.step k (.castView v) = some (s', .plain .threw) ∧ ∀ g, s'.world.content g = s.world.content g
        | .ub => s.step k (.castView v) = none) := by
  obtain ⟨hp, hv⟩ := watches_view hw
  have hi := (scene_inv hp).world
  constructor
  · intro hc
    have hf := content_none hc
    refine ⟨fun data den => ?_, fun scale => ?_, ?_⟩ <;> simp [Scene.step, Scene.through, hv, Scene.call, World.step, hf]
  · intro b hc
    obtain ⟨a, hf⟩ := World.content_some.1 hc
    refine ⟨fun data den => ?_, fun scale => ?_, ?_⟩
    · obtain ⟨c, hs⟩ := step_viewDecompose hi hf u data den
      simp only [Scene.step, Scene.through, hv, Scene.call, hs]
      cases u.decompose k b data den with
      | ok d x => exact ⟨_, rfl, onlyChanges_set hi hf c⟩
      | throw d => exact ⟨_, rfl, onlyChanges_set hi hf c⟩
      | ub => rfl
    · obtain ⟨c, hs⟩ := step_viewCompose hi hf u scale
      simp only [Scene.step, Scene.through, hv, Scene.call, hs]
      cases u.compose k b scale with
      | ok o => exact ⟨_, rfl, fun _ => rfl⟩
      | throw => exact ⟨_, rfl, fun _ => rfl⟩
      | ub => rfl
    · simp only [Scene.step, Scene.through, hv, Scene.call, World.step, hf]
      cases u.cast b with
      | ok nb => exact ⟨_, rfl, content_alloc_new nb, fun g hg => content_alloc_other hi nb hg⟩
      | throw => exact ⟨_, rfl, fun _ => rfl⟩
      | ub => rfl

/-- Moving an object parts a view of it from a reference into it: the reference goes along with the contents, the view stays with the
object, which has none. -/
theorem C129_moved {k : Kit α} {s s' : Scene α} {v r h : ℕ} {u : View} (hw : Watches k s v h u) (hf : Follows k s r h) {x : SceneReply α}
    (hs : s.step k (.call (.move h)) = some (s', x)) :
    (∃ b, s.world.content h = some b ∧ s'.step k (.readRef r) = some (s', .buffer b)) ∧
      (∀ data den, s'.step k (.decomposeView v data den) = none) ∧ (∀ scale, s'.step k (.composeView v scale) = none) ∧
      s'.step k (.castView v) = none := by
  obtain ⟨hp, a, b, h1, h2⟩ := follows_find hf
  obtain ⟨y, hy, _, _⟩ := call_some hs
  obtain ⟨h3, h4⟩ := find_move h2 hy
  constructor
  · refine ⟨b, World.content_some.2 ⟨a, h2⟩, ?_⟩
    simp [Scene.step, refs_step hs h1, alive_of_find h3]
  · refine (C129_view (Watches.kept (.call (.move h)) hw (by simp) hs)).1 ?_
    unfold World.content; rw [h4]; rfl

/-- Assigning an object to itself leaves all contents as they are, and the views of it usable, but no reference into it. -/
theorem C129_selfAssigned {k : Kit α} {s s' : Scene α} {r h : ℕ} (hf : Follows k s r h) {x : SceneReply α}
    (hs : s.step k (.call (.assign h h)) = some (s', x)) :
    (∀ g, s'.world.content g = s.world.content g) ∧ s'.step k (.readRef r) = none ∧
      ∀ ch idx m, s'.step k (.writeRef r ch idx m) = none := by
  refine ⟨fun g => ?_, C129_dangling (.assigned h hf hs)⟩
  obtain ⟨hp, a, b, h1, h2⟩ := follows_find hf
  obtain ⟨y, hy, _, _⟩ := call_some hs
  have hi := (scene_inv hp).world
  have h3 := (World.find_some h2).1
  simp only [World.step, h3, h2, Option.some.injEq, Prod.mk.injEq] at hy
  rw [← hy.1]
  by_cases hg : g = h
  · subst hg
    rw [World.content_some.2 ⟨a, h2⟩]
    refine World.content_some.2 ⟨s.world.heap.length, World.find_of ?_ ?_⟩
    · simp [(List.getElem?_eq_some_iff.1 h3).1]
    · simp
  · unfold World.content
    congr 1
    unfold World.find
    simp only
    rw [List.getElem?_set_ne (Ne.symm hg)]
    cases ht : s.world.handles[g]? with
    | none => rfl
    | some t =>
      cases t with
      | holds a' => simp only; rw [List.getElem?_append_left (hi.owns g a' ht)]
      | _ => rfl

/-! ### A concrete case -/

private def ltKit : Kit ℤ := ⟨fun o => if o = 1 then [1, 1] else [], id, fun _ _ x => x⟩

private def ltRun (k : Kit ℤ) : Scene ℤ → List (SceneOp ℤ) → Option (Scene ℤ)
  | s, [] => some s
  | s, op :: ops => (s.step k op).bind fun r => ltRun k r.1 ops

private theorem lt_played {k : Kit ℤ} : ∀ {ops : List (SceneOp ℤ)} {s s' : Scene ℤ}, Played k s → ltRun k s ops = some s' → Played k s'
  | [], s, s', hp, h => by cases h; exact hp
  | op :: ops, s, s', hp, h => by
    simp only [ltRun] at h
    rw [Option.bind_eq_some_iff] at h
    obtain ⟨⟨t, x⟩, h1, h2⟩ := h
    exact lt_played (.next op hp h1) h2

private def ltOps : List (SceneOp ℤ) := [.call (.construct ⟨[4], 1, 1, 1⟩), .call (.decompose 0 [Mat.ofCol [1, 2, 3, 4]] nullDenoiser)]

/-- A buffer is decomposed; a view of it and references into it are kept; it is moved. The view and the reference follow what the
theorems say (both hypotheses of `C129_moved` hold); the subbands are still read through the reference. -/
example : ∃ s s' x, Watches ltKit s 0 0 ⟨0, 1, false⟩ ∧ Follows ltKit s 0 0 ∧ s.step ltKit (.call (.move 0)) = some (s', x) ∧
    Follows ltKit s' 0 1 ∧ Watches ltKit s' 0 0 ⟨0, 1, false⟩ ∧ s'.step ltKit (.composeView 0 0) = none ∧
    (s'.step ltKit (.readRef 0)).map (fun y => match y.2 with
      | .buffer b => b.decs.map (fun c => c.map Mat.data)
      | _ => []) = some [[[-1, -1], [3, 7]]] := by
  have h0 : ∃ s, ltRun ltKit Scene.init ltOps = some s ∧ ∃ s1 x1, s.step ltKit (.makeView 0 ⟨0, 1, false⟩) = some (s1, x1) ∧
      ∃ s2 x2, s1.step ltKit (.takeRef 0) = some (s2, x2) ∧ s.views.length = 0 ∧ s1.refs.length = 0 ∧
      ∃ s3 x3, s2.step ltKit (.call (.move 0)) = some (s3, x3) ∧ fresh s2.world = 1 ∧ s3.step ltKit (.composeView 0 0) = none ∧
      (s3.step ltKit (.readRef 0)).map (fun y => match y.2 with
        | .buffer b => b.decs.map (fun c => c.map Mat.data)
        | _ => []) = some [[[-1, -1], [3, 7]]] :=
    ⟨_, rfl, _, _, rfl, _, _, rfl, rfl, rfl, _, _, rfl, rfl, rfl, rfl⟩
  obtain ⟨s, hs, s1, x1, h1, s2, x2, h2, l1, l2, s3, x3, h3, l3, h4, h5⟩ := h0
  have hp := lt_played .start hs
  have w1 : Watches ltKit s1 0 0 ⟨0, 1, false⟩ := by have := Watches.made hp h1; rwa [l1] at this
  have w2 := Watches.kept _ w1 (by simp) h2
  have f2 : Follows ltKit s2 0 0 := by have := Follows.taken (.next _ hp h1) h2; rwa [l2] at this
  have f3 : Follows ltKit s3 0 1 := by have := Follows.moved f2 h3; rwa [l3] at this
  exact ⟨s2, s3, x3, w2, f2, h3, f3, Watches.kept _ w2 (by simp) h3, h4, h5⟩

/-- References dangle after a copy of the object has been assigned back to it. -/
example : ∃ s, Dangles ltKit s 0 ∧ (s.world.content 0).isSome := by
  have h0 : ∃ s, ltRun ltKit Scene.init ltOps = some s ∧ ∃ s1 x1, s.step ltKit (.takeRef 0) = some (s1, x1) ∧ s.refs.length = 0 ∧
      ∃ s2 x2, s1.step ltKit (.call (.copy 0)) = some (s2, x2) ∧ ∃ s3 x3, s2.step ltKit (.call (.assign 0 1)) = some (s3, x3) ∧
      (s3.world.content 0).isSome := ⟨_, rfl, _, _, rfl, rfl, _, _, rfl, _, _, rfl, rfl⟩
  obtain ⟨s, hs, s1, x1, h1, l1, s2, x2, h2, s3, x3, h3, h4⟩ := h0
  have f1 : Follows ltKit s1 0 0 := by have := Follows.taken (lt_played .start hs) h1; rwa [l1] at this
  exact ⟨s3, .assigned 1 (.kept _ f1 id h2) h3, h4⟩

end WB.Props
