import Verif.Proof.World
import Verif.Spec.History

/-!
Frame lemmas for calls: what happens to a buffer that is not the target, and parameters of the target.
-/

set_option linter.unusedSectionVars false

namespace WB

open Spec

variable {α : Type}

section
variable [Zero α] [Add α] [Mul α] [Neg α] [Inhabited α]

theorem Reached.inv {k : Kit α} {w : World α} (h : Reached k w) : w.Inv k := by
  obtain ⟨ops, rs, hr⟩ := h
  exact World.inv_run (World.inv_init k) ops hr

theorem run_append {k : Kit α} {w w' w'' : World α} {ops ops' : List (Op α)} {rs rs' : List (Reply α)}
    (h : w.run k ops = some (w', rs)) (h' : w'.run k ops' = some (w'', rs')) :
    w.run k (ops ++ ops') = some (w'', rs ++ rs') := by
  induction ops generalizing w rs with
  | nil => cases h; simpa using h'
  | cons op ops ih =>
    simp only [World.run, List.cons_append] at h ⊢
    cases hs : w.step k op with
    | none => rw [hs] at h; cases h
    | some r =>
      obtain ⟨w1, x⟩ := r
      rw [hs] at h
      simp only at h ⊢
      cases hr : World.run k w1 ops with
      | none => rw [hr] at h; cases h
      | some r =>
        obtain ⟨w2, xs'⟩ := r
        rw [hr] at h
        cases h
        rw [ih hr]
        rfl

theorem Reached.step {k : Kit α} {w w' : World α} (h : Reached k w) {op : Op α} {x : Reply α}
    (hs : w.step k op = some (w', x)) : Reached k w' := by
  obtain ⟨ops, rs, hr⟩ := h
  refine ⟨ops ++ [op], rs ++ [x], run_append hr ?_⟩
  simp [World.run, hs]

theorem find_alloc_old {w : World α} {b : Buffer α} {h a : ℕ} {b' : Buffer α} (hf : w.find h = some (a, b')) :
    (w.alloc b).find h = some (a, b') := by
  obtain ⟨h1, h2⟩ := World.find_some hf
  apply World.find_of
  · simp [World.alloc, List.getElem?_append_left (List.getElem?_eq_some_iff.1 h1).1, h1]
  · simp [World.alloc, List.getElem?_append_left (List.getElem?_eq_some_iff.1 h2).1, h2]

theorem find_alloc_new {w : World α} (b : Buffer α) : (w.alloc b).find (fresh w) = some (w.heap.length, b) := by
  apply World.find_of <;> simp [World.alloc, fresh]

theorem content_alloc_new {w : World α} (b : Buffer α) : (w.alloc b).content (fresh w) = some b :=
  World.content_some.2 ⟨_, find_alloc_new b⟩

/-- The two shapes of an update. -/
theorem update_some {w w' : World α} {a : ℕ} {b : Buffer α} {r : Cache α × Run (Decs α) Bool} {x : Reply α}
    (h : w.update a b r = some (w', x)) :
    ∃ d, w' = { w with cache := r.1, heap := w.heap.set a { b with decs := d } } ∧
      ((∃ y, r.2 = .ok d y ∧ x = .bool y) ∨ (r.2 = .throw d ∧ x = .threw)) := by
  unfold World.update at h
  split at h
  · rename_i d y hr; cases h; exact ⟨d, rfl, .inl ⟨y, hr, rfl⟩⟩
  · rename_i d hr; cases h; exact ⟨d, rfl, .inr ⟨hr, rfl⟩⟩
  · cases h

theorem query_some {w w' : World α} {r : Cache α × Outcome (Reply α)} {x : Reply α}
    (h : w.query r = some (w', x)) : w' = { w with cache := r.1 } := by
  unfold World.query at h
  split at h
  · cases h; rfl
  · cases h; rfl
  · cases h

theorem build_some {w w' : World α} {o : Outcome (Buffer α)} {x : Reply α} (h : w.build o = some (w', x)) :
    (∃ b, o = .ok b ∧ w' = w.alloc b ∧ x = .done) ∨ (o = .throw ∧ w' = w ∧ x = .threw) := by
  unfold World.build at h
  split at h
  · rename_i b; cases h; exact .inl ⟨b, rfl, rfl, rfl⟩
  · cases h; exact .inr ⟨rfl, rfl, rfl⟩
  · cases h

theorem find_heapset_other {w : World α} {k : Kit α} (hw : w.Inv k) {g h a a' : ℕ} {b b' nb : Buffer α} {c : Cache α}
    (hg : w.find g = some (a, b)) (hh : w.find h = some (a', b')) (hne : g ≠ h) :
    (World.mk c (w.heap.set a nb) w.handles).find h = some (a', b') := by
  obtain ⟨g1, g2⟩ := World.find_some hg
  obtain ⟨h1, h2⟩ := World.find_some hh
  refine World.find_of (w := World.mk _ _ _) h1 ?_
  have : a ≠ a' := by rintro rfl; exact hne (hw.inj g h a g1 h1)
  simp [List.getElem?_set_ne this, h2]

theorem find_heapset_same {w : World α} {h a : ℕ} {b nb : Buffer α} {c : Cache α}
    (hh : w.find h = some (a, b)) : (World.mk c (w.heap.set a nb) w.handles).find h = some (a, nb) := by
  obtain ⟨h1, h2⟩ := World.find_some hh
  refine World.find_of (w := World.mk _ _ _) h1 ?_
  simp [(List.getElem?_eq_some_iff.1 h2).1]

theorem find_cache {w : World α} {c : Cache α} {h : ℕ} : (World.mk c w.heap w.handles).find h = w.find h := rfl

/-- A call that does not change handle `h` leaves its buffer as it is. -/
theorem step_frame {k : Kit α} {w w' : World α} (hw : w.Inv k) {h a : ℕ} {b : Buffer α} (hh : w.find h = some (a, b))
    {op : Op α} (hc : ¬ Changes h op) {x : Reply α} (hs : w.step k op = some (w', x)) : w'.find h = some (a, b) := by
  obtain ⟨h1, h2⟩ := World.find_some hh
  have hlt := (List.getElem?_eq_some_iff.1 h1).1
  have hlta := (List.getElem?_eq_some_iff.1 h2).1
  have hbuild : ∀ {o}, w.build o = some (w', x) → w'.find h = some (a, b) := by
    intro o ho
    rcases build_some ho with ⟨nb, _, rfl, _⟩ | ⟨_, rfl, _⟩
    · exact find_alloc_old hh
    · exact hh
  have hquery : ∀ {r}, w.query r = some (w', x) → w'.find h = some (a, b) := by
    intro r hr
    rw [query_some hr]; exact hh
  have hupd : ∀ {g a' b' r}, g ≠ h → w.find g = some (a', b') → w.update a' b' r = some (w', x) →
      w'.find h = some (a, b) := by
    intro g a' b' r hne hg hr
    obtain ⟨d, rfl, _⟩ := update_some hr
    exact find_heapset_other hw hg hh hne
  cases op with
  | construct p => exact hbuild hs
  | constructWith p decs => exact hbuild hs
  | copy i =>
    simp only [World.step] at hs
    split at hs
    · cases hs; exact find_alloc_old hh
    · cases hs
  | move i =>
    simp only [World.step] at hs
    split at hs
    · cases hs
    · cases hs
    · cases hs
      refine World.find_of (w := World.mk _ _ _) ?_ h2
      have : i ≠ h := hc
      simp only []
      rw [List.getElem?_append_left (by simpa using hlt), List.getElem?_set_ne this, h1]
  | assign i j =>
    simp only [World.step] at hs
    split at hs
    · cases hs
    · cases hs
      have : i ≠ h := hc
      apply World.find_of
      · simp [List.getElem?_set_ne this, h1]
      · simp only []
        rw [List.getElem?_append_left hlta, h2]
    · cases hs
  | moveAssign i j =>
    have hi : i ≠ h := fun e => hc (.inl e)
    have hj : j ≠ h := fun e => hc (.inr e)
    simp only [World.step] at hs
    split at hs
    · cases hs
    · cases hs
    · split_ifs at hs
      · cases hs; exact hh
      · cases hs
        refine World.find_of (w := World.mk _ _ _) ?_ h2
        simp [List.getElem?_set_ne hi, List.getElem?_set_ne hj, h1]
    · cases hs
  | destroy i =>
    have : i ≠ h := hc
    simp only [World.step] at hs
    split at hs
    · cases hs
    · cases hs
    · cases hs
      refine World.find_of (w := World.mk _ _ _) ?_ h2
      simp [List.getElem?_set_ne this, h1]
  | decompose i data den =>
    simp only [World.step] at hs
    split at hs
    · rename_i a' b' hf; exact hupd hc hf hs
    · cases hs
  | decompose1 i data den =>
    simp only [World.step] at hs
    split at hs
    · rename_i a' b' hf; exact hupd hc hf hs
    · cases hs
  | compose i scale =>
    simp only [World.step] at hs
    split at hs
    · exact hquery hs
    · cases hs
  | compose1 i scale =>
    simp only [World.step] at hs
    split at hs
    · exact hquery hs
    · cases hs
  | viewDecompose i v data den =>
    simp only [World.step] at hs
    split at hs
    · rename_i a' b' hf
      split at hs
      · split_ifs at hs
        exact hupd hc hf hs
      · cases hs; exact hh
      · cases hs
    · cases hs
  | viewCompose i v scale =>
    simp only [World.step] at hs
    split at hs
    · split at hs
      · exact hquery hs
      · cases hs; exact hh
      · cases hs
    · cases hs
  | cast i v =>
    simp only [World.step] at hs
    split at hs
    · exact hbuild hs
    · cases hs
  | write i ch idx m =>
    simp only [World.step] at hs
    split at hs
    · rename_i a' b' hf
      split at hs
      · cases hs; exact find_heapset_other hw hf hh hc
      · cases hs
    · cases hs

theorem run_frame {k : Kit α} {w w' : World α} (hw : w.Inv k) {h a : ℕ} {b : Buffer α} (hh : w.find h = some (a, b))
    {ops : List (Op α)} (hc : ∀ op ∈ ops, ¬ Changes h op) {xs : List (Reply α)} (hs : w.run k ops = some (w', xs)) :
    w'.find h = some (a, b) := by
  induction ops generalizing w xs with
  | nil => cases hs; exact hh
  | cons op ops ih =>
    simp only [World.run] at hs
    cases h1 : w.step k op with
    | none => rw [h1] at hs; cases hs
    | some r =>
      obtain ⟨w1, x⟩ := r
      rw [h1] at hs
      simp only at hs
      cases h2 : World.run k w1 ops with
      | none => rw [h2] at hs; cases hs
      | some r =>
        obtain ⟨w2, xs'⟩ := r
        rw [h2] at hs
        cases hs
        exact ih (World.inv_step hw op h1) (step_frame hw hh (hc op (by simp)) h1) (fun o ho => hc o (by simp [ho])) h2

/-- A call that does not rebind handle `h` leaves the parameters of its buffer as they are. -/
theorem step_params {k : Kit α} {w w' : World α} (hw : w.Inv k) {h a : ℕ} {b : Buffer α} (hh : w.find h = some (a, b))
    {op : Op α} (hc : ¬ Rebinds h op) {x : Reply α} (hs : w.step k op = some (w', x)) :
    ∃ b', w'.find h = some (a, b') ∧ b'.params = b.params := by
  by_cases hch : Changes h op
  · have hupd : ∀ {r}, w.update a b r = some (w', x) → ∃ b', w'.find h = some (a, b') ∧ b'.params = b.params := by
      intro r hr
      obtain ⟨d, rfl, _⟩ := update_some hr
      exact ⟨_, find_heapset_same hh, rfl⟩
    cases op with
    | decompose i data den =>
      have e : i = h := hch
      subst e
      simp only [World.step, hh] at hs
      exact hupd hs
    | decompose1 i data den =>
      have e : i = h := hch
      subst e
      simp only [World.step, hh] at hs
      exact hupd hs
    | viewDecompose i v data den =>
      have e : i = h := hch
      subst e
      simp only [World.step, hh] at hs
      split at hs
      · split_ifs at hs
        exact hupd hs
      · cases hs; exact ⟨b, hh, rfl⟩
      · cases hs
    | write i ch idx m =>
      have e : i = h := hch
      subst e
      simp only [World.step, hh] at hs
      split at hs
      · cases hs; exact ⟨_, find_heapset_same hh, rfl⟩
      · cases hs
    | construct p => exact absurd hch hc
    | constructWith p decs => exact absurd hch hc
    | copy i => exact absurd hch hc
    | move i => exact absurd hch hc
    | assign i j => exact absurd hch hc
    | moveAssign i j => exact absurd hch hc
    | destroy i => exact absurd hch hc
    | compose i s => exact absurd hch hc
    | compose1 i s => exact absurd hch hc
    | viewCompose i v s => exact absurd hch hc
    | cast i v => exact absurd hch hc
  · exact ⟨b, step_frame hw hh hch hs, rfl⟩

/-- The decomposition call in terms of the uncached function. -/
theorem step_decompose {k : Kit α} {w : World α} (hw : w.Inv k) {h a : ℕ} {b : Buffer α} (hh : w.find h = some (a, b))
    (data : List (Mat α)) (den : Denoiser α) :
    ∃ c, w.step k (.decompose h data den) = w.update a b (c, b.decompose k data den) := by
  refine ⟨(decomposeCached k w.cache b.params b.decs data den 0 b.params.signalNumber).1, ?_⟩
  have := (decomposeCached_eq hw.cache b.params b.decs data den 0 b.params.signalNumber).1
  simp only [World.step, hh]
  congr 1
  exact Prod.ext rfl this

theorem step_decompose1 {k : Kit α} {w : World α} (hw : w.Inv k) {h a : ℕ} {b : Buffer α} (hh : w.find h = some (a, b))
    (data : List α) (den : Denoiser α) :
    ∃ c, w.step k (.decompose1 h data den) = w.update a b (c, b.decompose1 k data den) := by
  refine ⟨(decomposeCached k w.cache b.params b.decs [Mat.ofCol data] den 0 1).1, ?_⟩
  have := (decomposeCached_eq hw.cache b.params b.decs [Mat.ofCol data] den 0 1).1
  simp only [World.step, hh]
  congr 1
  exact Prod.ext rfl this

theorem step_compose {k : Kit α} {w : World α} (hw : w.Inv k) {h a : ℕ} {b : Buffer α} (hh : w.find h = some (a, b))
    (scale : ℤ) :
    ∃ c, w.step k (.compose h scale) = w.query (c, b.compose k scale >>= fun ms => pure (.signals (some ms))) := by
  refine ⟨(composeCached k w.cache b.params b.decs scale 0 b.params.signalNumber).1, ?_⟩
  have := (composeCached_eq hw.cache b.params b.decs scale 0 b.params.signalNumber).1
  simp only [World.step, hh]
  rw [this]
  rfl

end

end WB
