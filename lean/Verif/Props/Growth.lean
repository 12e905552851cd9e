import Verif.Proof.Growth
import Verif.Proof.Bridge
import Verif.Props.Linear

/-!
C137: the memory that the matrix cache takes.
-/

namespace WB.Props

open Spec

variable {α : Type} [Zero α] [Add α] [Mul α] [Neg α] [Inhabited α]

/-- C137. However many calls a process makes, the cache has at most one pair of entries for each set of parameters of a picture buffer that was constructed, or of a
view of one that was converted to a buffer. -/
theorem C137_entries (k : Kit α) (ops : List (Op α)) (w : World α) (rs : List (Reply α)) (h : World.init.run k ops = some (w, rs)) :
    (keysOf w.cache.main).Nodup ∧ (keysOf w.cache.trans).Nodup ∧ (∀ p ∈ keysOf w.cache.trans, p ∈ keysOf w.cache.main) ∧
    ∀ p ∈ keysOf w.cache.main, p.shape.length = 2 ∧ ValidParams p ∧
      (∃ op ∈ ops, ∃ q, Constructs q op ∧ q.shape = p.shape ∧ q.steps = p.steps ∧ q.wtype = p.wtype ∧ p.signalNumber ≤ q.signalNumber) ∧
      ((∀ op ∈ ops, ¬ Casts op) → ∃ op ∈ ops, Constructs p op) := by
  have start : ∀ O : Params → Prop, Grown O (World.init : World α) := fun O =>
    ⟨List.nodup_nil, List.nodup_nil, fun p hp => (by cases hp), fun p hp => (by cases hp), fun b hb => (by cases hb)⟩
  have g := grown_run (O := fun p => ∃ op ∈ ops, ∃ q, Constructs q op ∧ q.shape = p.shape ∧ q.steps = p.steps ∧ q.wtype = p.wtype ∧
    p.signalNumber ≤ q.signalNumber) (World.inv_init k) h ⟨fun op hop p hp => ⟨op, hop, p, hp, rfl, rfl, rfl, le_rfl⟩, by
      rintro op hop _ p m ⟨o, ho, q, h1, h2, h3, h4, h5⟩ hm
      exact ⟨o, ho, q, h1, h2, h3, h4, le_trans hm h5⟩⟩ (start _)
  refine ⟨g.main, g.trans, g.sub, fun p hp => ⟨(g.keys p hp).1, (g.keys p hp).2.1, (g.keys p hp).2.2, fun hc => ?_⟩⟩
  have g' := grown_run (O := fun p => ∃ op ∈ ops, Constructs p op) (World.inv_init k) h ⟨fun op hop p hp => ⟨op, hop, hp⟩,
    fun op hop hcast => absurd hcast (hc op hop)⟩ (start _)
  exact (g'.keys p hp).2.2

/-- C137. One call adds at most one entry to each map, for the parameters of the picture buffer that it decomposes or composes and only if there is none yet; all other
calls leave the cache alone. -/
theorem C137_call (k : Kit α) (w w' : World α) (op : Op α) (x : Reply α) (h : w.step k op = some (w', x)) :
    (transforms op = none → w'.cache = w.cache) ∧
    (w'.cache = w.cache ∨ ∃ i b, transforms op = some i ∧ w.content i = some b ∧ b.params.shape.length = 2 ∧
      GrewBy b.params w.cache.main w'.cache.main ∧ GrewBy b.params w.cache.trans w'.cache.trans) ∧
    ∀ i b, transforms op = some i → w.content i = some b → b.params ∈ keysOf w.cache.main → b.params ∈ keysOf w.cache.trans → w'.cache = w.cache := by
  refine ⟨fun ht => ?_, ?_, fun i b ht hc h1 h2 => ?_⟩
  · rcases step_grew h with e | ⟨_, _, e, _⟩
    · exact e
    · rw [ht] at e; cases e
  · rcases step_grew h with e | ⟨i, b, h1, h2, h3, h4⟩
    · exact .inl e
    · exact .inr ⟨i, b, h1, h2, h3, h4.1, h4.2.1⟩
  · rcases step_grew h with e | ⟨i', b', g1, g2, _, g4⟩
    · exact e
    · rw [ht] at g1
      cases g1
      rw [hc] at g2
      cases g2
      have e1 := g4.1.same h1
      have e2 := g4.2.1.same h2
      cases hw : w.cache
      cases hw' : w'.cache
      rw [hw, hw'] at e1 e2
      simp only at e1 e2
      rw [e1, e2]

/-- C137. Nothing is ever released: entries stay as they are to the end, also when all buffers have been destroyed. -/
theorem C137_kept (k : Kit α) (w w' : World α) (ops : List (Op α)) (rs : List (Reply α)) (h : w.run k ops = some (w', rs)) :
    w.cache.main <+: w'.cache.main ∧ w.cache.trans <+: w'.cache.trans := kept_run h

/-- C137. The matrices of an entry hold at most `4 · wtype` numbers for every row and every column of the padded picture, however many steps there are; the
transposed ones hold as many. -/
theorem C137_memory (k : Kit α) (w : World α) (h : Reached k w) (p : Params) (hk : FilterPresent k p) (s : Stack α)
    (hs : (p, s) ∈ w.cache.main ∨ (p, s) ∈ w.cache.trans) : numbersIn s ≤ 4 * p.wtype * (p.shape.map (paddedSide p)).sum := by
  have hc := (Reached.inv h).cache
  obtain ⟨ops, rs, hrun⟩ := h
  obtain ⟨_, _, g3, g4⟩ := C137_entries k ops w rs hrun
  have hv : ValidParams p := by
    refine (g4 p ?_).2.1
    rcases hs with hs | hs
    · exact List.mem_map.2 ⟨_, hs, rfl⟩
    · exact g3 p (List.mem_map.2 ⟨_, hs, rfl⟩)
  obtain ⟨c1, c2⟩ := stack_count hv hk
  rw [← paddedShape_spec hv] at c1
  have hf := freshStack_ok hv hk
  rcases hs with hs | hs
  · have := hc.1 _ hs
    simp only at this
    rw [hf] at this
    cases this
    exact c1
  · have := hc.2 _ hs
    have e : freshTrans k p = .ok (transStack (stackP p (scaling k p))) := by
      unfold freshTrans
      rw [hf]
      rfl
    simp only at this
    rw [e] at this
    cases this
    rw [c2]
    exact c1

/-- C137. The number of channels is part of the key although the matrices do not depend on it: entries that differ in the number of channels only hold the same
matrices. -/
theorem C137_channels (k : Kit α) (w : World α) (h : Reached k w) (p : Params) (m : ℕ) (s t : Stack α) :
    ((p, s) ∈ w.cache.main → ({ p with signalNumber := m }, t) ∈ w.cache.main → s = t) ∧
    ((p, s) ∈ w.cache.trans → ({ p with signalNumber := m }, t) ∈ w.cache.trans → s = t) := by
  have hc := (Reached.inv h).cache
  constructor
  · intro h1 h2
    have a := hc.1 _ h1
    have b := hc.1 _ h2
    have e : freshStack k { p with signalNumber := m } = freshStack k p := rfl
    simp only at a b
    rw [e, a] at b
    cases b
    rfl
  · intro h1 h2
    have a := hc.2 _ h1
    have b := hc.2 _ h2
    have e : freshTrans k { p with signalNumber := m } = freshTrans k p := rfl
    simp only at a b
    rw [e, a] at b
    cases b
    rfl

/-- C137. And there are such entries: after one successful decomposition with either number of channels the same matrices are stored twice. -/
theorem C137_stored_twice (k : Kit α) (p : Params) (m : ℕ) (hv : ValidParams p) (hd : p.shape.length = 2) (h0 : 0 < p.signalNumber) (hm : 0 < m)
    (hne : m ≠ p.signalNumber) (hr : p.wtype < 2 ^ 30) (hk : FilterPresent k p) (data data' : List (Mat α)) (h1 : IsSignal p data)
    (h2 : IsSignal { p with signalNumber := m } data') :
    ∃ w s, World.init.run k [.construct p, .construct { p with signalNumber := m }, .decompose 0 data nullDenoiser, .decompose 1 data' nullDenoiser] =
      some (w, [.done, .done, .bool true, .bool true]) ∧ w.cache.main = [(p, s), ({ p with signalNumber := m }, s)] := by
  have hv' : ValidParams { p with signalNumber := m } := hv
  have hk' : FilterPresent k { p with signalNumber := m } := hk
  have c1 := ctor_ok_of_valid (α := α) hv hr
  have c2 := ctor_ok_of_valid (α := α) hv' hr
  set b1 := emptyBuffer (α := α) p with hb1
  set b2 := emptyBuffer (α := α) { p with signalNumber := m } with hb2
  obtain ⟨w2, hw2⟩ : ∃ w2, w2 = ((World.init : World α).alloc b1).alloc b2 := ⟨_, rfl⟩
  have s1 : (World.init : World α).step k (.construct p) = some ((World.init : World α).alloc b1, .done) := by simp only [World.step]; rw [c1]; rfl
  have s2 : ((World.init : World α).alloc b1).step k (.construct { p with signalNumber := m }) = some (w2, .done) := by simp only [World.step]; rw [c2, hw2]; rfl
  have i2 : w2.Inv k := World.inv_step (World.inv_step (World.inv_init k) _ s1) _ s2
  have f0 : w2.find 0 = some (0, b1) := by rw [hw2]; rfl
  have f1 : w2.find 1 = some (1, b2) := by rw [hw2]; rfl
  have e2 : w2.cache.main = [] := by rw [hw2]; rfl
  obtain ⟨x, hx⟩ := step_decompose i2 f0 data nullDenoiser
  have d1 := decompose_ok (b := b1) (ctor_wf c1).1 hk h0 h1 (fun _ => nullDenoiser_sized)
  rw [d1] at hx
  obtain ⟨w3, hw3⟩ : ∃ w3, w2.step k (.decompose 0 data nullDenoiser) = some (w3, .bool true) := ⟨_, hx⟩
  have i3 : w3.Inv k := World.inv_step i2 _ hw3
  have f3 : w3.find 1 = some (1, b2) := step_frame i2 f1 (by simp [Changes]) hw3
  obtain ⟨y, hy⟩ := step_decompose i3 f3 data' nullDenoiser
  have d2 := decompose_ok (b := b2) (ctor_wf c2).1 hk' hm h2 (fun _ => nullDenoiser_sized)
  rw [d2] at hy
  obtain ⟨w4, hw4⟩ : ∃ w4, w3.step k (.decompose 1 data' nullDenoiser) = some (w4, .bool true) := ⟨_, hy⟩
  have run : World.init.run k [.construct p, .construct { p with signalNumber := m }, .decompose 0 data nullDenoiser, .decompose 1 data' nullDenoiser] =
      some (w4, [.done, .done, .bool true, .bool true]) := by
    simp only [World.run, s1, s2, hw3, hw4]
  have k3 : p ∈ keysOf w3.cache.main := decomposed_key f0 hd hw3
  have k4 : { p with signalNumber := m } ∈ keysOf w4.cache.main := decomposed_key f3 hd hw4
  have g3 : GrewBy p w2.cache.main w3.cache.main := by
    rcases step_grew hw3 with e | ⟨i, b, ht, hc, _, g⟩
    · exact .inl (by rw [e])
    · cases ht
      rw [World.content_some.2 ⟨_, f0⟩] at hc
      cases hc
      exact g.1
  have g4 : GrewBy { p with signalNumber := m } w3.cache.main w4.cache.main := by
    rcases step_grew hw4 with e | ⟨i, b, ht, hc, _, g⟩
    · exact .inl (by rw [e])
    · cases ht
      rw [World.content_some.2 ⟨_, f3⟩] at hc
      cases hc
      exact g.1
  obtain ⟨s, hs⟩ : ∃ s, w3.cache.main = [(p, s)] := by
    rcases g3 with e | ⟨_, s, e⟩
    · rw [e, e2] at k3; cases k3
    · exact ⟨s, by rw [e, e2]; rfl⟩
  obtain ⟨t, ht⟩ : ∃ t, w4.cache.main = [(p, s), ({ p with signalNumber := m }, t)] := by
    rcases g4 with e | ⟨_, t, e⟩
    · rw [e, hs] at k4
      have := List.mem_singleton.1 k4
      exact absurd (congrArg Params.signalNumber this) hne
    · exact ⟨t, by rw [e, hs]; rfl⟩
  have := (C137_channels k w4 ⟨_, _, run⟩ p m s t).1 (by rw [ht]; simp) (by rw [ht]; simp)
  rw [← this] at ht
  exact ⟨w4, s, run, ht⟩

omit [Zero α] [Add α] [Mul α] [Inhabited α] in
/-- C137. The same for threads: in every schedule no map ever has two entries for the same parameters, and none for parameters that nobody has asked for. -/
theorem C137_threads {n : ℕ} (k : Kit α) (reqs : Fin n → List Req) (l : List (Fin n)) (s : Shared α n) (h : Runs k (Shared.init reqs) l s) :
    (keysOf s.main).Nodup ∧ (keysOf s.trans).Nodup ∧ (∀ p ∈ keysOf s.main, AskedFor reqs p) ∧ ∀ p ∈ keysOf s.trans, AskedFor reqs p := by
  obtain ⟨⟨a, b⟩, c, d⟩ := shared_grown (inv_init k reqs) h ⟨List.nodup_nil, List.nodup_nil⟩ ⟨fun p hp => (by cases hp), fun p hp => (by cases hp)⟩
  exact ⟨a, b, c, d⟩

/-! ### examples -/

/-- A small filter table. -/
private def exKit : Kit ℤ := ⟨fun o => if o = 1 then [1, 1] else [], id, fun _ _ x => x⟩

/-- Two buffers for pictures of 4 by 4, one with one channel and one with three: after decomposing a picture with each there are two entries with the same matrices. -/
example : ∃ w s, World.init.run exKit [.construct ⟨[4, 4], 1, 1, 1⟩, .construct ⟨[4, 4], 3, 1, 1⟩,
      .decompose 0 [Mat.ofFn 4 4 fun i j => (i + 2 * j : ℤ)] nullDenoiser,
      .decompose 1 (List.replicate 3 (Mat.ofFn 4 4 fun i j => (i * j : ℤ))) nullDenoiser] = some (w, [.done, .done, .bool true, .bool true]) ∧
    w.cache.main = [(⟨[4, 4], 1, 1, 1⟩, s), (⟨[4, 4], 3, 1, 1⟩, s)] :=
  C137_stored_twice exKit ⟨[4, 4], 1, 1, 1⟩ 3 ⟨by simp, by simp, by simp⟩ rfl (by simp) (by simp) (by simp) (by simp) (by simp [FilterPresent, exKit]) _ _
    ⟨rfl, by intro m hm; simp at hm; subst hm; exact ⟨rfl, rfl⟩⟩ ⟨rfl, by intro m hm; simp at hm; subst hm; exact ⟨rfl, rfl⟩⟩

/-- Its entries are no larger than 32 numbers. -/
example (w : World ℤ) (h : Reached exKit w) (s : Stack ℤ) (hs : (⟨[4, 4], 1, 1, 1⟩, s) ∈ w.cache.main) : numbersIn s ≤ 32 := by
  have := C137_memory exKit w h ⟨[4, 4], 1, 1, 1⟩ (by simp [FilterPresent, exKit]) s (.inl hs)
  simpa [paddedSide] using this

end WB.Props
