import Verif.Proof.Program
import Verif.Proof.Decomp
import Verif.Proof.Bridge

/-!
C138: calls before `main` and after it, when the matrix cache is not there.
-/

namespace WB.Props

open WB WB.Spec

variable {α : Type} [Zero α] [Add α] [Mul α] [Neg α] [Inhabited α]

/-- C138. Decomposing a picture outside the life of the cache is undefined behaviour, whatever the picture. -/
theorem C138_decompose (k : Kit α) (s : Program α) (hl : s.life ≠ .during) (h : ℕ) (b : Buffer α) (hb : s.world.content h = some b) (hv : ValidParams b.params)
    (hd : b.params.shape.length = 2) (h0 : 0 < b.params.signalNumber) (data : List (Mat α)) (hs : IsSignal b.params data) (den : Denoiser α) :
    s.next k (.call (.decompose h data den)) = none := by
  obtain ⟨a, hf⟩ := World.content_some.1 hb
  have hc := shapeCheck_ok hv (hs.1.symm ▸ h0) fun m hm => shaped_of (hs.2 m hm)
  refine next_asks hl (q := .plain b.params) (rest := fun st => ownEffect (s.world.own.world.update a b (s.world.own.world.cache, decomposeImpl k st b.params b.decs data den 0 b.params.signalNumber))) ?_
  simp only [Own.start, find_own, hf, Own.beginDecompose]
  rw [if_pos ⟨hd, by rw [← hs.1, hc]⟩]

/-- C138. And so is composing one, at any scale and whether or not something was decomposed. -/
theorem C138_compose (k : Kit α) (s : Program α) (hl : s.life ≠ .during) (h : ℕ) (b : Buffer α) (hb : s.world.content h = some b)
    (hd : b.params.shape.length = 2) (scale : ℤ) : s.next k (.call (.compose h scale)) = none := by
  obtain ⟨a, hf⟩ := World.content_some.1 hb
  refine next_asks hl (q := .transposed b.params) (rest := fun st => ownEffect (s.world.own.world.query (s.world.own.world.cache,
    composeImpl k st b.params b.decs scale 0 b.params.signalNumber >>= fun ms => pure (.signals (some ms))))) ?_
  simp only [Own.start, find_own, hf, Own.beginCompose]
  rw [if_pos ⟨hd, by omega⟩]

/-- C138. Every other call, and every call on a buffer for 1D signals, does then what it does during `main`: the same reply, the same buffers, and undefined behaviour in the
same cases. -/
theorem C138_others (k : Kit α) (s : Program α) (hr : Lives k s) (op : Op α) (hn : ¬ OnPicture s.world op) :
    match s.world.step k op with
    | none => s.next k (.call op) = none
    | some (w, r) => ∃ s', s.next k (.call op) = some (s', [r]) ∧ SameBuffers s'.world w := by
  by_cases hl : s.life = .during
  · obtain ⟨l, v⟩ := s
    cases hl
    cases hv : v.step k op with
    | none => simp only [Program.next, hv]; rfl
    | some x => exact ⟨⟨.during, x.1⟩, by simp only [Program.next, hv, Option.map_some], rfl, rfl⟩
  · cases hst : s.world.own.start k op with
    | asks q rest => exact absurd (start_asks hst) hn
    | ends r =>
      have e := next_ends hr.inv.cache hl hst
      cases hv : s.world.step k op with
      | none => rw [hv] at e; exact e
      | some x => rw [hv] at e; exact ⟨_, e, rfl, rfl⟩

/-- C138. A call can only be undefined because the cache is not there if it is on a picture: what succeeds during `main` and fails outside is such a call. -/
theorem C138_only_pictures (k : Kit α) (s : Program α) (hr : Lives k s) (op : Op α) (w : World α) (r : Reply α) (h1 : s.world.step k op = some (w, r))
    (h2 : s.next k (.call op) = none) : s.life ≠ .during ∧ OnPicture s.world op := by
  refine ⟨fun hl => ?_, ?_⟩
  · obtain ⟨l, v⟩ := s
    cases hl
    simp only [Program.next] at h2
    rw [h1] at h2
    cases h2
  · by_contra hn
    have := C138_others k s hr op hn
    rw [h1] at this
    obtain ⟨s', h, _⟩ := this
    rw [h] at h2
    cases h2

/-- C138. Whole programs: if nothing is decomposed or composed outside the life of the cache, the construction and the destruction of the cache do not show. All replies and
all buffers are those of the same calls with a cache that is there from the start to the end. -/
theorem C138_program (k : Kit α) (es : List (Happening α)) (hc : Careful .before es) :
    match World.init.run k (callsOf es) with
    | none => Program.init.run k es = none
    | some (w, rs) => ∃ s, Program.init.run k es = some (s, rs) ∧ SameBuffers s.world w :=
  careful_run es Program.init World.init (World.inv_init k) (World.inv_init k) ⟨rfl, rfl⟩ hc

/-! ### examples -/

/-- A small filter table. -/
private def exKit : Kit ℤ := ⟨fun o => if o = 1 then [1, 1] else [], id, fun _ _ x => x⟩

/-- A static buffer for pictures that is decomposed by the constructor of a static object: the constructor is fine, the decomposition is not. -/
example : Program.init.run exKit [.call (.construct ⟨[4, 4], 1, 1, 1⟩),
    .call (.decompose 0 [Mat.ofFn 4 4 fun i j => (i + 2 * j : ℤ)] nullDenoiser), .born] = none := by
  have c := ctor_ok_of_valid (α := ℤ) (p := ⟨[4, 4], 1, 1, 1⟩) ⟨by simp, by simp, by simp⟩ (by unfold RepresentableType; simp)
  have h1 : (Program.init : Program ℤ).next exKit (.call (.construct ⟨[4, 4], 1, 1, 1⟩)) =
      some (⟨.before, (World.init : World ℤ).alloc (emptyBuffer ⟨[4, 4], 1, 1, 1⟩)⟩, [.done]) := by
    simp only [Program.next, Program.init, Own.start, World.step]
    erw [c]
    rfl
  have h2 := C138_decompose exKit ⟨.before, (World.init : World ℤ).alloc (emptyBuffer ⟨[4, 4], 1, 1, 1⟩)⟩ (by simp) 0 (emptyBuffer ⟨[4, 4], 1, 1, 1⟩) rfl
    ⟨by simp [emptyBuffer], by simp [emptyBuffer], by simp [emptyBuffer]⟩ rfl (by simp [emptyBuffer]) [Mat.ofFn 4 4 fun i j => (i + 2 * j : ℤ)]
    ⟨rfl, by intro m hm; simp at hm; subst hm; exact ⟨rfl, rfl⟩⟩ nullDenoiser
  simp only [Program.run, h1, h2]

/-- A static buffer that is filled and used in `main` and destroyed after the cache. -/
example (data : List (Mat ℤ)) : Careful .before [.call (.construct ⟨[4, 4], 1, 1, 1⟩), .born, .call (.decompose 0 data nullDenoiser),
    .call (.compose 0 0), .gone, .call (.destroy 0)] := by
  simp [Careful, lifeAfter, transforms]

end WB.Props
