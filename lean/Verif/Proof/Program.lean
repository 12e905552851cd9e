import Verif.Spec.Program
import Verif.Proof.Clients
import Verif.Proof.Growth

/-!
Calls outside the life of the cache.
-/

namespace WB

open Spec

variable {α : Type} [Zero α] [Add α] [Mul α] [Neg α] [Inhabited α]

/-- The cache is asked only for pictures. -/
theorem start_asks {k : Kit α} {w : World α} {op : Op α} {q : Req} {rest : Outcome (Stack α) → Option (Own α × Reply α)} (h : w.own.start k op = .asks q rest) :
    OnPicture w op := by
  have hd : ∀ {i a b data den s c}, w.find i = some (a, b) → transforms op = some i → w.own.beginDecompose k a b data den s c = .asks q rest → OnPicture w op := by
    intro i a b data den s c hf ht h
    unfold Own.beginDecompose at h
    dsimp only at h
    split_ifs at h with hc
    exact ⟨i, b, ht, World.content_some.2 ⟨_, hf⟩, hc.1⟩
  have hq : ∀ {i a b sc s c f}, w.find i = some (a, b) → transforms op = some i → w.own.beginCompose k b sc s c f = .asks q rest → OnPicture w op := by
    intro i a b sc s c f hf ht h
    unfold Own.beginCompose at h
    dsimp only at h
    split_ifs at h with hc
    exact ⟨i, b, ht, World.content_some.2 ⟨_, hf⟩, hc.1⟩
  cases op with
  | decompose i data den =>
    simp only [Own.start, find_own] at h
    split at h
    · rename_i a b hf; exact hd hf rfl h
    · cases h
  | decompose1 i data den =>
    simp only [Own.start, find_own] at h
    split at h
    · rename_i a b hf; exact hd hf rfl h
    · cases h
  | compose i s =>
    simp only [Own.start, find_own] at h
    split at h
    · rename_i a b hf; exact hq hf rfl h
    · cases h
  | compose1 i s =>
    simp only [Own.start, find_own] at h
    split at h
    · rename_i a b hf; exact hq hf rfl h
    · cases h
  | viewDecompose i v data den =>
    simp only [Own.start, find_own] at h
    split at h
    · rename_i a b hf
      split at h
      · split_ifs at h
        exact hd hf rfl h
      · cases h
      · cases h
    · cases h
  | viewCompose i v s =>
    simp only [Own.start, find_own] at h
    split at h
    · rename_i a b hf
      split at h
      · exact hq hf rfl h
      · cases h
      · cases h
    · cases h
  | _ => cases h

/-- A call that does not ask has the effect it always has. -/
theorem next_ends {k : Kit α} {s : Program α} (hc : CacheOk k s.world.cache) (hl : s.life ≠ .during) {op : Op α} {r : Option (Own α × Reply α)}
    (h : s.world.own.start k op = .ends r) :
    s.next k (.call op) = (ownEffect (s.world.step k op)).map fun r => (⟨s.life, ⟨s.world.cache, r.1.heap, r.1.handles⟩⟩, [r.2]) := by
  have e := start_eq hc op
  rw [h] at e
  obtain ⟨l, w⟩ := s
  cases l with
  | during => exact absurd rfl hl
  | before => simp only [Program.next, h, e, Begun.fresh]
  | after => simp only [Program.next, h, e, Begun.fresh]

theorem next_asks {k : Kit α} {s : Program α} (hl : s.life ≠ .during) {op : Op α} {q : Req} {rest : Outcome (Stack α) → Option (Own α × Reply α)}
    (h : s.world.own.start k op = .asks q rest) : s.next k (.call op) = none := by
  obtain ⟨l, w⟩ := s
  cases l with
  | during => exact absurd rfl hl
  | before => simp only [Program.next, h]
  | after => simp only [Program.next, h]

/-- What a call does depends on the buffers only. -/
theorem step_same {k : Kit α} {w v : World α} (hw : CacheOk k w.cache) (hv : CacheOk k v.cache) (h : SameBuffers w v) (op : Op α) :
    ownEffect (w.step k op) = ownEffect (v.step k op) := by
  rw [start_eq hw, start_eq hv]
  have : w.own = v.own := by unfold World.own; rw [h.1, h.2]
  rw [this]

/-- What an event leaves behind. -/
theorem next_inv {k : Kit α} {s s' : Program α} (hs : s.world.Inv k) {e : Happening α} {rs : List (Reply α)} (h : s.next k e = some (s', rs)) : s'.world.Inv k := by
  have hcall : ∀ {op}, s.life ≠ .during → s.next k (.call op) = some (s', rs) → s'.world.Inv k := by
    intro op hl h
    cases hb : s.world.own.start k op with
    | asks q rest => rw [next_asks hl hb] at h; cases h
    | ends r =>
      rw [next_ends hs.cache hl hb] at h
      cases hw : s.world.step k op with
      | none => rw [hw] at h; cases h
      | some x =>
        rw [hw] at h
        cases h
        have := World.inv_step hs op (w' := x.1) (x := x.2) hw
        exact ⟨hs.cache, this.wf, this.owns, this.inj⟩
  obtain ⟨l, w⟩ := s
  cases e with
  | born => cases l <;> (cases h; exact hs)
  | gone =>
    cases l with
    | during => cases h; exact ⟨cacheOk_empty k, hs.wf, hs.owns, hs.inj⟩
    | before => cases h; exact hs
    | after => cases h; exact hs
  | call op =>
    cases l with
    | before => exact hcall (by simp) h
    | after => exact hcall (by simp) h
    | during =>
      simp only [Program.next] at h
      cases hw : w.step k op with
      | none => rw [hw] at h; cases h
      | some x => rw [hw] at h; cases h; exact World.inv_step hs op (w' := x.1) (x := x.2) hw

theorem prun_inv {k : Kit α} : ∀ (es : List (Happening α)) {s s' : Program α} {rs : List (Reply α)}, s.world.Inv k → s.run k es = some (s', rs) → s'.world.Inv k
  | [], _, _, _, hs, h => by cases h; exact hs
  | e :: es, s, s', rs, hs, h => by
    rw [Program.run] at h
    cases he : s.next k e with
    | none => rw [he] at h; cases h
    | some x =>
      rw [he] at h
      dsimp only at h
      cases hr : Program.run k x.1 es with
      | none => rw [hr] at h; cases h
      | some y => rw [hr] at h; cases h; exact prun_inv es (next_inv hs (s' := x.1) (rs := x.2) he) hr

theorem _root_.WB.Spec.Lives.inv {k : Kit α} {s : Program α} (h : Lives k s) : s.world.Inv k := by
  obtain ⟨es, rs, h⟩ := h
  exact prun_inv es (World.inv_init k) h

/-- Two worlds with the same buffers have the same runs. -/
theorem careful_run {k : Kit α} : ∀ (es : List (Happening α)) (s : Program α) (w : World α), s.world.Inv k → w.Inv k → SameBuffers s.world w → Careful s.life es →
    match w.run k (callsOf es) with
    | none => s.run k es = none
    | some (w', rs) => ∃ s', s.run k es = some (s', rs) ∧ SameBuffers s'.world w'
  | [], s, w, _, _, hb, _ => ⟨s, rfl, hb⟩
  | .born :: es, s, w, hs, hw, hb, hc => by
    obtain ⟨l, v⟩ := s
    obtain ⟨s', he, hv, hl⟩ : ∃ s', Program.next k ⟨l, v⟩ .born = some (s', []) ∧ s'.world = v ∧ s'.life = lifeAfter l (.born : Happening α) := by
      cases l <;> exact ⟨_, rfl, rfl, rfl⟩
    have ih := careful_run es s' w (hv ▸ hs) hw (hv ▸ hb) (hl ▸ hc.2)
    simp only [callsOf]
    cases hr : w.run k (callsOf es) with
    | none => rw [hr] at ih; rw [Program.run, he]; dsimp only at ih ⊢; rw [ih]
    | some x => rw [hr] at ih; obtain ⟨y, hy, hyb⟩ := ih; exact ⟨y, by rw [Program.run, he]; dsimp only; rw [hy]; rfl, hyb⟩
  | .gone :: es, s, w, hs, hw, hb, hc => by
    obtain ⟨l, v⟩ := s
    obtain ⟨s', he, hi, hsb, hl⟩ : ∃ s', Program.next k ⟨l, v⟩ .gone = some (s', []) ∧ s'.world.Inv k ∧ SameBuffers s'.world w ∧
        s'.life = lifeAfter l (.gone : Happening α) := by
      have h2 : ∀ x, Program.next k ⟨l, v⟩ .gone = some (x, []) → x.world.Inv k := fun x hx => next_inv hs hx
      cases l <;> exact ⟨_, rfl, h2 _ rfl, ⟨hb.1, hb.2⟩, rfl⟩
    have ih := careful_run es s' w hi hw hsb (hl ▸ hc.2)
    simp only [callsOf]
    cases hr : w.run k (callsOf es) with
    | none => rw [hr] at ih; rw [Program.run, he]; dsimp only at ih ⊢; rw [ih]
    | some x => rw [hr] at ih; obtain ⟨y, hy, hyb⟩ := ih; exact ⟨y, by rw [Program.run, he]; dsimp only; rw [hy]; rfl, hyb⟩
  | .call op :: es, s, w, hs, hw, hb, hc => by
    have e := step_same hs.cache hw.cache hb op
    have key : (w.step k op = none ∧ s.next k (.call op) = none) ∨
        ∃ w' r s', w.step k op = some (w', r) ∧ s.next k (.call op) = some (s', [r]) ∧ SameBuffers s'.world w' ∧ s'.life = s.life := by
      have hout : s.life ≠ .during → transforms op = none → (w.step k op = none ∧ s.next k (.call op) = none) ∨
          ∃ w' r s', w.step k op = some (w', r) ∧ s.next k (.call op) = some (s', [r]) ∧ SameBuffers s'.world w' ∧ s'.life = s.life := fun hl ht => by
        cases hst : s.world.own.start k op with
        | asks q rest => obtain ⟨h, b, h1, _⟩ := start_asks hst; rw [ht] at h1; cases h1
        | ends r =>
          have hn := next_ends hs.cache hl hst
          rw [e] at hn
          cases hx : w.step k op with
          | none => rw [hx] at hn; exact .inl ⟨rfl, hn⟩
          | some x => rw [hx] at hn; exact .inr ⟨x.1, x.2, _, rfl, hn, ⟨rfl, rfl⟩, rfl⟩
      obtain ⟨l, v⟩ := s
      cases l with
      | before => exact hout (by simp) (hc.1 (by simp) op rfl)
      | after => exact hout (by simp) (hc.1 (by simp) op rfl)
      | during =>
        cases hx : w.step k op with
        | none =>
          rw [hx] at e
          cases hv : v.step k op with
          | none => exact .inl ⟨rfl, by simp only [Program.next, hv]; rfl⟩
          | some y => rw [hv] at e; cases e
        | some x =>
          rw [hx] at e
          cases hv : v.step k op with
          | none => rw [hv] at e; cases e
          | some y =>
            rw [hv] at e
            simp only [ownEffect, Option.map_some, Option.some.injEq, Prod.mk.injEq, World.own, Own.mk.injEq] at e
            exact .inr ⟨x.1, x.2, ⟨.during, y.1⟩, rfl, by simp only [Program.next, hv, Option.map_some, e.2], ⟨e.1.1, e.1.2⟩, rfl⟩
    have hc' : ∀ {l}, l = s.life → Careful l es := by
      rintro _ rfl
      obtain ⟨l, v⟩ := s
      cases l <;> exact hc.2
    rw [callsOf, World.run]
    rcases key with ⟨h1, h2⟩ | ⟨w', r, s', h1, h2, h3, h4⟩
    · rw [h1, Program.run, h2]
    · have ih := careful_run es s' w' (next_inv hs h2) (World.inv_step hw op h1) h3 (hc' h4)
      rw [h1]
      dsimp only
      cases hr : w'.run k (callsOf es) with
      | none => rw [hr] at ih; rw [Program.run, h2]; dsimp only at ih ⊢; rw [ih]
      | some x => rw [hr] at ih; obtain ⟨y, hy, hyb⟩ := ih; exact ⟨y, by rw [Program.run, h2]; dsimp only; rw [hy]; rfl, hyb⟩

end WB
