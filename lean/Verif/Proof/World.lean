import Verif.Proof.Cache

/-!
Invariants of the process state over histories of calls.
-/

set_option linter.unusedSectionVars false

namespace WB

open Spec

variable {α : Type}

theorem Run.After.bind {σ β γ : Type} {P : σ → Prop} {x : Run σ β} {f : σ → β → Run σ γ} (hx : x.After P)
    (hf : ∀ s a, P s → (f s a).After P) : (x.bind f).After P := by
  cases x with
  | ok s a => exact hf s a hx
  | throw s => exact hx
  | ub => trivial

theorem Run.After.lift {σ β : Type} {P : σ → Prop} {s : σ} (h : P s) (o : Outcome β) : (Run.lift s o).After P := by
  cases o with
  | ok a => exact h
  | throw => exact h
  | ub => trivial

/-- Same number of channels and of subbands in each. -/
def SameLayout (d d' : Decs α) : Prop := d'.map List.length = d.map List.length

theorem sameLayout_refl (d : Decs α) : SameLayout d d := rfl

theorem setSub_layout {d0 d : Decs α} (h : SameLayout d0 d) (ch idx : ℕ) (m : Mat α) :
    (setSub d ch idx m).After (SameLayout d0) := by
  unfold setSub
  cases hd : d[ch]? with
  | none => trivial
  | some c =>
    simp only
    split_ifs
    · show (d.set ch (c.set idx m)).map List.length = d0.map List.length
      rw [← h, List.map_set, List.length_set]
      apply set_self_eq
      simp [hd]
    · trivial

section
variable [Zero α] [Add α] [Mul α] [Neg α] [Inhabited α]

theorem decomposeSteps_layout (p : Params) (stack : Stack α) (f : Filters α) (den : Denoiser α) (ch : ℕ) (d0 : Decs α) :
    ∀ (rem : ℕ) (d : Decs α) (m : Mat α), SameLayout d0 d →
      (decomposeSteps p stack f den ch rem d m).After (SameLayout d0) := by
  intro rem
  induction rem with
  | zero => intro d m h; exact h
  | succ rem ih =>
    intro d m h
    unfold decomposeSteps
    refine Run.After.bind ?_ (fun s a hs => ih s a hs)
    split_ifs
    · unfold oneSideStep1D
      refine Run.After.bind (Run.After.lift h _) (fun s a hs => ?_)
      simp only
      split_ifs
      · exact hs
      · exact Run.After.bind (setSub_layout hs _ _ _) (fun s _ hs => hs)
    · refine Run.After.bind (Run.After.lift h _) (fun s a hs => ?_)
      unfold oneSideStep2D
      refine Run.After.bind (Run.After.lift hs _) (fun s a hs => ?_)
      refine Run.After.bind (setSub_layout hs _ _ _) (fun s _ hs => ?_)
      refine Run.After.bind (setSub_layout hs _ _ _) (fun s _ hs => ?_)
      exact Run.After.bind (setSub_layout hs _ _ _) (fun s _ hs => hs)

theorem decomposeChannels_layout (p : Params) (stack : Stack α) (f : Filters α) (den : Denoiser α) (data : List (Mat α))
    (start : ℕ) (d0 : Decs α) : ∀ (chs : List ℕ) (d : Decs α), SameLayout d0 d →
      (decomposeChannels p stack f den data start chs d).After (SameLayout d0) := by
  intro chs
  induction chs with
  | nil => intro d h; exact h
  | cons ch chs ih =>
    intro d h
    unfold decomposeChannels
    refine Run.After.bind (Run.After.lift h _) (fun s a hs => ?_)
    refine Run.After.bind (decomposeSteps_layout p stack f den ch d0 _ s a hs) (fun s a hs => ?_)
    exact Run.After.bind (setSub_layout hs _ _ _) (fun s _ hs => ih s hs)

/-- No call of `DecomposeImpl`, whatever its arguments and result, changes the layout. -/
theorem decomposeImpl_layout (k : Kit α) (g : Outcome (Stack α)) (p : Params) (d : Decs α) (data : List (Mat α))
    (den : Denoiser α) (start count : ℤ) : (decomposeImpl k g p d data den start count).After (SameLayout d) := by
  unfold decomposeImpl
  refine Run.After.bind (Run.After.lift (sameLayout_refl d) _) (fun s a hs => ?_)
  cases a with
  | true =>
    refine Run.After.bind (Run.After.lift hs _) (fun s a hs => ?_)
    exact decomposeChannels_layout _ _ _ _ _ _ d _ s hs
  | false => exact hs

theorem decomposeCached_layout (k : Kit α) (c : Cache α) (p : Params) (d : Decs α) (data : List (Mat α))
    (den : Denoiser α) (start count : ℤ) : (decomposeCached k c p d data den start count).2.After (SameLayout d) := by
  unfold decomposeCached
  split_ifs
  · exact decomposeImpl_layout _ _ _ _ _ _ _ _
  · exact decomposeImpl_layout _ _ _ _ _ _ _ _

theorem wellFormed_layout {p : Params} {d d' : Decs α} (h : WellFormed (Buffer.mk p d)) (hl : SameLayout d d') :
    WellFormed (Buffer.mk p d') := by
  obtain ⟨hv, hn, hc⟩ := h
  refine ⟨hv, ?_, ?_⟩
  · have := congrArg List.length hl
    simp only [List.length_map] at this
    simp only at hn ⊢
    rw [this, hn]
  · intro c hcm
    simp only at hc ⊢
    have h1 : c.length ∈ d'.map List.length := List.mem_map_of_mem hcm
    rw [hl, List.mem_map] at h1
    obtain ⟨c', hc', he⟩ := h1
    rw [← he]; exact hc c' hc'

theorem ctor_wf {p : Params} {b : Buffer α} (h : ctor p = .ok b) : WellFormed b ∧ b.params = p := by
  obtain ⟨hv, hr, rfl⟩ := ctor_valid_of_ok h
  refine ⟨⟨hv, by simp [emptyBuffer], ?_⟩, rfl⟩
  intro c hc
  simp only [emptyBuffer, List.mem_replicate] at hc
  rw [hc.2]; simp [emptyBuffer]

theorem ctorWith_wf {p : Params} {d : Decs α} {b : Buffer α} (h : ctorWith p d = .ok b) :
    WellFormed b ∧ b.params = p ∧ b.decs = d := by
  have hr : RepresentableType p := by
    unfold ctorWith at h
    cases hc : ctor (α := α) p with
    | ok b' => exact (ctor_valid_of_ok hc).2.1
    | throw => rw [hc] at h; cases h
    | ub => rw [hc] at h; cases h
  obtain ⟨h1, h2, h3, rfl⟩ := (ctorWith_ok_iff hr d b).1 h
  exact ⟨⟨h1, h2, h3⟩, rfl, rfl⟩

/-- What a successful cast yields. -/
theorem cast_some {v : View} {b nb : Buffer α} (h : v.cast b = .ok nb) :
    0 ≤ v.count ∧ ctor { b.params with signalNumber := v.count.toNat } =
        .ok (emptyBuffer (α := α) { b.params with signalNumber := v.count.toNat }) ∧
      nb.params = { b.params with signalNumber := v.count.toNat } ∧ nb.decs.length = v.count.toNat ∧
      ∀ i < v.count.toNat, 0 ≤ (i : ℤ) + v.start ∧ ∃ c, nb.decs[i]? = some c ∧ b.decs[((i : ℤ) + v.start).toNat]? = some c := by
  unfold View.cast at h
  split_ifs at h with h0
  cases hc : ctor (α := α) { b.params with signalNumber := v.count.toNat } with
  | throw => rw [hc] at h; cases h
  | ub => rw [hc] at h; cases h
  | ok nb' =>
    rw [hc, Outcome.bind_ok] at h
    obtain ⟨hv, hr, rfl⟩ := ctor_valid_of_ok hc
    cases hm : (List.range v.count.toNat).mapM (fun (ch : ℕ) =>
      if 0 ≤ (ch : ℤ) + v.start then rd b.decs ((ch : ℤ) + v.start).toNat else .ub) with
    | throw => rw [hm] at h; cases h
    | ub => rw [hm] at h; cases h
    | ok chs =>
      rw [hm, Outcome.bind_ok] at h
      cases h
      have key : ∀ (l : List ℕ) (chs : Decs α), l.mapM (fun (ch : ℕ) =>
          if 0 ≤ (ch : ℤ) + v.start then rd b.decs ((ch : ℤ) + v.start).toNat else .ub) = .ok chs →
          chs.length = l.length ∧ ∀ i a : ℕ, l[i]? = some a →
            0 ≤ (a : ℤ) + v.start ∧ ∃ c, chs[i]? = some c ∧ b.decs[((a : ℤ) + v.start).toNat]? = some c := by
        intro l
        induction l with
        | nil => intro chs h; cases h; simp
        | cons x l ih =>
          intro chs h
          rw [List.mapM_cons] at h
          split_ifs at h with hx
          · unfold rd at h
            cases hg : b.decs[((x : ℤ) + v.start).toNat]? with
            | none => rw [hg] at h; cases h
            | some c =>
              rw [hg] at h
              simp only [Outcome.bind_ok] at h
              cases hm' : (l.mapM (fun (ch : ℕ) =>
                if 0 ≤ (ch : ℤ) + v.start then rd b.decs ((ch : ℤ) + v.start).toNat else .ub)) with
              | throw => unfold rd at hm'; rw [hm'] at h; cases h
              | ub => unfold rd at hm'; rw [hm'] at h; cases h
              | ok cs =>
                have hm2 := hm'
                unfold rd at hm2
                rw [hm2] at h
                cases h
                obtain ⟨h1, h2⟩ := ih cs hm'
                refine ⟨by simp [h1], ?_⟩
                intro i a ha
                cases i with
                | zero => simp at ha; subst ha; exact ⟨hx, c, by simp, hg⟩
                | succ i => simpa using h2 i a (by simpa using ha)
          · cases h
      obtain ⟨h1, h2⟩ := key _ _ hm
      refine ⟨by omega, rfl, rfl, by simpa using h1, ?_⟩
      intro i hi
      exact h2 i i (by simp [hi])

theorem cast_wf {v : View} {b nb : Buffer α} (hb : WellFormed b) (h : v.cast b = .ok nb) : WellFormed nb := by
  obtain ⟨h0, hc, hp, hl, hch⟩ := cast_some h
  have hw := (ctor_wf hc).1
  refine ⟨?_, ?_, ?_⟩
  · rw [hp]; exact hw.1
  · rw [hp]; exact hl
  · intro c hcm
    obtain ⟨i, hi, he⟩ := List.mem_iff_getElem.1 hcm
    rw [hp]
    obtain ⟨_, c', h1, h2⟩ := hch i (by omega)
    rw [List.getElem?_eq_getElem hi, he] at h1
    cases h1
    exact hb.2.2 c (List.mem_of_getElem? h2)

/-- Invariant of a process. -/
structure World.Inv (k : Kit α) (w : World α) : Prop where
  cache : CacheOk k w.cache
  wf : ∀ b ∈ w.heap, WellFormed b
  owns : ∀ h a : ℕ, w.handles[h]? = some (.holds a) → a < w.heap.length
  inj : ∀ h g a : ℕ, w.handles[h]? = some (.holds a) → w.handles[g]? = some (.holds a) → h = g

theorem World.inv_init (k : Kit α) : (World.init : World α).Inv k :=
  ⟨cacheOk_empty k, by simp [World.init], by simp [World.init], by simp [World.init]⟩

theorem World.find_some {w : World α} {h a : ℕ} {b : Buffer α} (hf : w.find h = some (a, b)) :
    w.handles[h]? = some (.holds a) ∧ w.heap[a]? = some b := by
  unfold World.find at hf
  split at hf
  · rename_i a' ha'
    rw [Option.map_eq_some_iff] at hf
    obtain ⟨b', h1, h2⟩ := hf
    cases h2
    exact ⟨ha', h1⟩
  · cases hf

theorem World.find_of {w : World α} {h a : ℕ} {b : Buffer α} (h1 : w.handles[h]? = some (.holds a))
    (h2 : w.heap[a]? = some b) : w.find h = some (a, b) := by
  unfold World.find; rw [h1]; simp [h2]

theorem World.content_some {w : World α} {h : ℕ} {b : Buffer α} :
    w.content h = some b ↔ ∃ a, w.find h = some (a, b) := by
  unfold World.content
  rw [Option.map_eq_some_iff]
  constructor
  · rintro ⟨⟨a, b'⟩, h1, rfl⟩; exact ⟨a, h1⟩
  · rintro ⟨a, ha⟩; exact ⟨_, ha, rfl⟩

theorem set_holds {l : List Slot} {i h a : ℕ} {s : Slot} (hh : (l.set i s)[h]? = some (.holds a)) :
    (i = h ∧ s = .holds a) ∨ (i ≠ h ∧ l[h]? = some (.holds a)) := by
  rw [List.getElem?_set] at hh
  split_ifs at hh with h1 h2
  · cases hh; exact .inl ⟨h1, rfl⟩
  · exact .inr ⟨h1, hh⟩

theorem append_holds {l : List Slot} {h a : ℕ} {s : Slot} (hh : (l ++ [s])[h]? = some (.holds a)) :
    (h = l.length ∧ s = .holds a) ∨ (h < l.length ∧ l[h]? = some (.holds a)) := by
  rw [List.getElem?_append] at hh
  split_ifs at hh with h1
  · exact .inr ⟨h1, hh⟩
  · left
    rcases hx : h - l.length with _ | n <;> rw [hx] at hh <;> simp at hh
    exact ⟨by omega, hh⟩

theorem inv_alloc {k : Kit α} {w : World α} (hw : w.Inv k) {b : Buffer α} (hb : WellFormed b) : (w.alloc b).Inv k := by
  refine ⟨hw.cache, ?_, ?_, ?_⟩
  · intro b' hb'
    simp only [World.alloc, List.mem_append, List.mem_singleton] at hb'
    rcases hb' with h | rfl
    · exact hw.wf _ h
    · exact hb
  · intro h a ha
    simp only [World.alloc, List.length_append, List.length_singleton]
    rcases append_holds ha with ⟨_, h2⟩ | ⟨_, h2⟩
    · cases h2; omega
    · have := hw.owns h a h2; omega
  · intro h g a hh hg
    rcases append_holds hh with ⟨h1, h2⟩ | ⟨h1, h2⟩ <;> rcases append_holds hg with ⟨h3, h4⟩ | ⟨h3, h4⟩
    · omega
    · cases h2; have := hw.owns g _ h4; omega
    · cases h4; have := hw.owns h _ h2; omega
    · exact hw.inj h g a h2 h4

theorem inv_heapset {k : Kit α} {w : World α} (hw : w.Inv k) {c : Cache α} (hc : CacheOk k c) {a : ℕ} {b : Buffer α}
    (hb : WellFormed b) : (World.mk c (w.heap.set a b) w.handles).Inv k := by
  refine ⟨hc, ?_, ?_, hw.inj⟩
  · intro b' hb'
    rcases List.mem_or_eq_of_mem_set hb' with h | h
    · exact hw.wf _ h
    · rw [h]; exact hb
  · intro h x hx
    simpa using hw.owns h x hx

theorem inv_cache {k : Kit α} {w : World α} (hw : w.Inv k) {c : Cache α} (hc : CacheOk k c) :
    (World.mk c w.heap w.handles).Inv k := ⟨hc, hw.wf, hw.owns, hw.inj⟩

theorem inv_handles {k : Kit α} {w : World α} (hw : w.Inv k) (hs : List Slot)
    (h1 : ∀ h a : ℕ, hs[h]? = some (.holds a) → ∃ h' : ℕ, w.handles[h']? = some (Slot.holds a))
    (h2 : ∀ h g a : ℕ, hs[h]? = some (.holds a) → hs[g]? = some (.holds a) → h = g) :
    (World.mk w.cache w.heap hs).Inv k := by
  refine ⟨hw.cache, hw.wf, ?_, h2⟩
  intro h a ha
  obtain ⟨h', hh⟩ := h1 h a ha
  exact hw.owns h' a hh

theorem inv_update {k : Kit α} {w w' : World α} (hw : w.Inv k) {a : ℕ} {b : Buffer α} (hb : WellFormed b)
    {r : Cache α × Run (Decs α) Bool} (hc : CacheOk k r.1) (hr : r.2.After (SameLayout b.decs)) {x : Reply α}
    (h : w.update a b r = some (w', x)) : w'.Inv k := by
  unfold World.update at h
  obtain ⟨c, r⟩ := r
  cases r with
  | ok d y =>
    simp only [Option.some.injEq, Prod.mk.injEq] at h
    rw [← h.1]
    exact inv_heapset hw hc (wellFormed_layout hb hr)
  | throw d =>
    simp only [Option.some.injEq, Prod.mk.injEq] at h
    rw [← h.1]
    exact inv_heapset hw hc (wellFormed_layout hb hr)
  | ub => cases h

theorem inv_query {k : Kit α} {w w' : World α} (hw : w.Inv k) {r : Cache α × Outcome (Reply α)} (hc : CacheOk k r.1)
    {x : Reply α} (h : w.query r = some (w', x)) : w'.Inv k := by
  unfold World.query at h
  obtain ⟨c, r⟩ := r
  cases r with
  | ok d =>
    simp only [Option.some.injEq, Prod.mk.injEq] at h
    rw [← h.1]; exact inv_cache hw hc
  | throw =>
    simp only [Option.some.injEq, Prod.mk.injEq] at h
    rw [← h.1]; exact inv_cache hw hc
  | ub => cases h

theorem inv_build {k : Kit α} {w w' : World α} (hw : w.Inv k) {o : Outcome (Buffer α)} (ho : ∀ b, o = .ok b → WellFormed b)
    {x : Reply α} (h : w.build o = some (w', x)) : w'.Inv k := by
  unfold World.build at h
  cases o with
  | ok b =>
    simp only [Option.some.injEq, Prod.mk.injEq] at h
    rw [← h.1]; exact inv_alloc hw (ho b rfl)
  | throw =>
    simp only [Option.some.injEq, Prod.mk.injEq] at h
    rw [← h.1]; exact hw
  | ub => cases h

/-- Every call keeps the invariant. -/
theorem World.inv_step {k : Kit α} {w w' : World α} (hw : w.Inv k) (op : Op α) {x : Reply α}
    (h : w.step k op = some (w', x)) : w'.Inv k := by
  have hfind : ∀ {i a b}, w.find i = some (a, b) → WellFormed b := fun hf =>
    hw.wf _ (List.mem_of_getElem? (World.find_some hf).2)
  cases op with
  | construct p => exact inv_build hw (fun b hb => (ctor_wf hb).1) h
  | constructWith p decs => exact inv_build hw (fun b hb => (ctorWith_wf hb).1) h
  | copy i =>
    simp only [World.step] at h
    split at h
    · rename_i a b hf
      cases h
      exact inv_alloc hw (hfind hf)
    · cases h
  | move i =>
    simp only [World.step] at h
    split at h
    · cases h
    · cases h
    · rename_i s hs hi
      cases h
      apply inv_handles hw
      · intro h a ha
        rcases append_holds ha with ⟨_, h2⟩ | ⟨_, h2⟩
        · subst h2; exact ⟨i, hi⟩
        · rcases set_holds h2 with ⟨_, h4⟩ | ⟨_, h4⟩
          · cases h4
          · exact ⟨h, h4⟩
      · intro h g a hh hg
        rcases append_holds hh with ⟨h1, h2⟩ | ⟨h1, h2⟩ <;> rcases append_holds hg with ⟨h3, h4⟩ | ⟨h3, h4⟩
        · omega
        · subst h2
          rcases set_holds h4 with ⟨_, h6⟩ | ⟨h5, h6⟩
          · cases h6
          · exact absurd (hw.inj i g a hi h6) h5
        · subst h4
          rcases set_holds h2 with ⟨_, h6⟩ | ⟨h5, h6⟩
          · cases h6
          · exact absurd (hw.inj i h a hi h6) h5
        · rcases set_holds h2 with ⟨_, h6⟩ | ⟨h5, h6⟩
          · cases h6
          · rcases set_holds h4 with ⟨_, h8⟩ | ⟨h7, h8⟩
            · cases h8
            · exact hw.inj h g a h6 h8
  | assign i j =>
    simp only [World.step] at h
    split at h
    · cases h
    · rename_i a b hni hi hf
      cases h
      refine ⟨hw.cache, ?_, ?_, ?_⟩
      · intro b' hb'
        simp only [List.mem_append, List.mem_singleton] at hb'
        rcases hb' with h | rfl
        · exact hw.wf _ h
        · exact hfind hf
      · intro h a ha
        simp only [List.length_append, List.length_singleton]
        rcases set_holds ha with ⟨_, h2⟩ | ⟨_, h2⟩
        · cases h2; omega
        · have := hw.owns h a h2; omega
      · intro h g a hh hg
        rcases set_holds hh with ⟨h1, h2⟩ | ⟨h1, h2⟩ <;> rcases set_holds hg with ⟨h3, h4⟩ | ⟨h3, h4⟩
        · omega
        · cases h2; have := hw.owns g _ h4; omega
        · cases h4; have := hw.owns h _ h2; omega
        · exact hw.inj h g a h2 h4
    · cases h
  | moveAssign i j =>
    simp only [World.step] at h
    split at h
    · cases h
    · cases h
    · rename_i s0 s _ _ hi hj
      split_ifs at h with hij
      · cases h; exact hw
      · cases h
        apply inv_handles hw
        · intro h a ha
          rcases set_holds ha with ⟨_, h2⟩ | ⟨_, h2⟩
          · subst h2; exact ⟨j, hj⟩
          · rcases set_holds h2 with ⟨_, h4⟩ | ⟨_, h4⟩
            · cases h4
            · exact ⟨h, h4⟩
        · intro h g a hh hg
          rcases set_holds hh with ⟨h1, h2⟩ | ⟨h1, h2⟩ <;> rcases set_holds hg with ⟨h3, h4⟩ | ⟨h3, h4⟩
          · omega
          · subst h2
            rcases set_holds h4 with ⟨_, h6⟩ | ⟨h5, h6⟩
            · cases h6
            · exact absurd (hw.inj j g a hj h6) h5
          · subst h4
            rcases set_holds h2 with ⟨_, h6⟩ | ⟨h5, h6⟩
            · cases h6
            · exact absurd (hw.inj j h a hj h6) h5
          · rcases set_holds h2 with ⟨_, h6⟩ | ⟨h5, h6⟩
            · cases h6
            · rcases set_holds h4 with ⟨_, h8⟩ | ⟨h7, h8⟩
              · cases h8
              · exact hw.inj h g a h6 h8
    · cases h
  | destroy i =>
    simp only [World.step] at h
    split at h
    · cases h
    · cases h
    · cases h
      apply inv_handles hw
      · intro h a ha
        rcases set_holds ha with ⟨_, h2⟩ | ⟨_, h2⟩
        · cases h2
        · exact ⟨h, h2⟩
      · intro h g a hh hg
        rcases set_holds hh with ⟨_, h2⟩ | ⟨_, h2⟩
        · cases h2
        · rcases set_holds hg with ⟨_, h4⟩ | ⟨_, h4⟩
          · cases h4
          · exact hw.inj h g a h2 h4
  | decompose i data den =>
    simp only [World.step] at h
    split at h
    · rename_i a b hf
      exact inv_update hw (hfind hf) (decomposeCached_eq hw.cache _ _ _ _ _ _).2 (decomposeCached_layout _ _ _ _ _ _ _ _) h
    · cases h
  | decompose1 i data den =>
    simp only [World.step] at h
    split at h
    · rename_i a b hf
      exact inv_update hw (hfind hf) (decomposeCached_eq hw.cache _ _ _ _ _ _).2 (decomposeCached_layout _ _ _ _ _ _ _ _) h
    · cases h
  | compose i scale =>
    simp only [World.step] at h
    split at h
    · exact inv_query hw (composeCached_eq hw.cache _ _ _ _ _).2 h
    · cases h
  | compose1 i scale =>
    simp only [World.step] at h
    split at h
    · exact inv_query hw (composeCached_eq hw.cache _ _ _ _ _).2 h
    · cases h
  | viewDecompose i v data den =>
    simp only [World.step] at h
    split at h
    · rename_i a b hf
      split at h
      · split_ifs at h
        exact inv_update hw (hfind hf) (decomposeCached_eq hw.cache _ _ _ _ _ _).2 (decomposeCached_layout _ _ _ _ _ _ _ _) h
      · cases h; exact hw
      · cases h
    · cases h
  | viewCompose i v scale =>
    simp only [World.step] at h
    split at h
    · split at h
      · exact inv_query hw (composeCached_eq hw.cache _ _ _ _ _).2 h
      · cases h; exact hw
      · cases h
    · cases h
  | cast i v =>
    simp only [World.step] at h
    split at h
    · rename_i a b hf
      exact inv_build hw (fun nb hnb => cast_wf (hfind hf) hnb) h
    · cases h
  | write i ch idx m =>
    simp only [World.step] at h
    split at h
    · rename_i a b hf
      have hl := setSub_layout (sameLayout_refl b.decs) ch idx m
      split at h
      · rename_i d u hd
        cases h
        rw [hd] at hl
        exact inv_heapset hw hw.cache (wellFormed_layout (hfind hf) hl)
      · cases h
    · cases h

theorem World.inv_run {k : Kit α} {w w' : World α} (hw : w.Inv k) (ops : List (Op α)) {xs : List (Reply α)}
    (h : w.run k ops = some (w', xs)) : w'.Inv k := by
  induction ops generalizing w xs with
  | nil => cases h; exact hw
  | cons op ops ih =>
    simp only [World.run] at h
    cases hs : w.step k op with
    | none => rw [hs] at h; cases h
    | some r =>
      obtain ⟨w1, x⟩ := r
      rw [hs] at h
      simp only at h
      cases hr : World.run k w1 ops with
      | none => rw [hr] at h; cases h
      | some r =>
        obtain ⟨w2, xs'⟩ := r
        rw [hr] at h
        cases h
        exact ih (World.inv_step hw op hs) hr

end

end WB
