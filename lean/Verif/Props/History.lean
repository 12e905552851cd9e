import Verif.Proof.History
import Verif.Proof.Nonempty
import Verif.Model.Coeffs

/-!
Properties over histories of calls: C02, C21, C25, C36, C40.
-/

namespace WB.Props

open Spec

variable {α : Type} [Zero α] [Add α] [Mul α] [Neg α] [Inhabited α]

/-- C02. After every history of calls every buffer has valid parameters, one channel per signal and the prescribed number
of subbands in each; a constructor call gives the new buffer the parameters it was called with; and no later call, whether
it succeeds, is rejected or throws, changes the parameters unless it replaces the object behind the handle. -/
theorem C02_layout_invariant (k : Kit α) (w : World α) (hw : Reached k w) :
    (∀ h b, w.content h = some b → WellFormed b) ∧
    (∀ h b op w' x, w.content h = some b → ¬ Rebinds h op → w.step k op = some (w', x) →
      ∃ b', w'.content h = some b' ∧ b'.params = b.params) ∧
    (∀ p w' x, w.step k (.construct p) = some (w', x) →
      (x = .done ∧ ∃ b, w'.content (fresh w) = some b ∧ b.params = p) ∨ (x = .threw ∧ w' = w)) ∧
    (∀ p d w' x, w.step k (.constructWith p d) = some (w', x) →
      (x = .done ∧ w'.content (fresh w) = some ⟨p, d⟩) ∨ (x = .threw ∧ w' = w)) := by
  have hi := Reached.inv hw
  refine ⟨?_, ?_, ?_, ?_⟩
  · intro h b hb
    obtain ⟨a, ha⟩ := World.content_some.1 hb
    exact hi.wf b (List.mem_of_getElem? (World.find_some ha).2)
  · intro h b op w' x hb hr hs
    obtain ⟨a, ha⟩ := World.content_some.1 hb
    obtain ⟨b', h1, h2⟩ := step_params hi ha hr hs
    exact ⟨b', World.content_some.2 ⟨a, h1⟩, h2⟩
  · intro p w' x hs
    rcases build_some hs with ⟨b, h1, rfl, rfl⟩ | ⟨_, rfl, rfl⟩
    · exact .inl ⟨rfl, b, content_alloc_new b, (ctor_wf h1).2⟩
    · exact .inr ⟨rfl, rfl⟩
  · intro p d w' x hs
    rcases build_some hs with ⟨b, h1, rfl, rfl⟩ | ⟨_, rfl, rfl⟩
    · obtain ⟨_, h2, h3⟩ := ctorWith_wf h1
      refine .inl ⟨rfl, ?_⟩
      rw [content_alloc_new, ← h2, ← h3]
    · exact .inr ⟨rfl, rfl⟩

/-- C21. In any two processes with any two histories, decomposing the same data with the same denoiser into buffers with
the same parameters has the same outcome (including undefined behaviour), and when it succeeds the two buffers are equal
afterwards; composing buffers with the same parameters and subbands gives the same result. -/
theorem C21_history_independent (k : Kit α) (w₁ w₂ : World α) (hw₁ : Reached k w₁) (hw₂ : Reached k w₂)
    (h₁ h₂ : ℕ) (b₁ b₂ : Buffer α) (hb₁ : w₁.content h₁ = some b₁) (hb₂ : w₂.content h₂ = some b₂)
    (hp : b₁.params = b₂.params) :
    (∀ data den,
      (w₁.step k (.decompose h₁ data den) = none ∧ w₂.step k (.decompose h₂ data den) = none) ∨
      ∃ w₁' w₂' x, w₁.step k (.decompose h₁ data den) = some (w₁', x) ∧
        w₂.step k (.decompose h₂ data den) = some (w₂', x) ∧
        (x = .bool true → w₁'.content h₁ = w₂'.content h₂) ∧
        (x = .bool false → w₁'.content h₁ = some b₁ ∧ w₂'.content h₂ = some b₂)) ∧
    (b₁ = b₂ → ∀ scale, (w₁.step k (.compose h₁ scale)).map Prod.snd = (w₂.step k (.compose h₂ scale)).map Prod.snd) := by
  have hi₁ := Reached.inv hw₁
  have hi₂ := Reached.inv hw₂
  obtain ⟨a₁, ha₁⟩ := World.content_some.1 hb₁
  obtain ⟨a₂, ha₂⟩ := World.content_some.1 hb₂
  have wf₁ := hi₁.wf b₁ (List.mem_of_getElem? (World.find_some ha₁).2)
  have wf₂ := hi₂.wf b₂ (List.mem_of_getElem? (World.find_some ha₂).2)
  constructor
  · intro data den
    obtain ⟨c₁, e₁⟩ := step_decompose hi₁ ha₁ data den
    obtain ⟨c₂, e₂⟩ := step_decompose hi₂ ha₂ data den
    rw [e₁, e₂]
    have r₁ := decomposeImpl_refines k b₁.params b₁.decs data den 0 b₁.params.signalNumber wf₁.2.2 (by rw [wf₁.2.1]; omega)
    have r₂ := decomposeImpl_refines k b₂.params b₂.decs data den 0 b₂.params.signalNumber wf₂.2.2 (by rw [wf₂.2.1]; omega)
    have q₁ : b₁.decompose k data den = decomposeImpl k (freshStack k b₁.params) b₁.params b₁.decs data den
        ((0 : ℕ) : ℤ) b₁.params.signalNumber := rfl
    have q₂ : b₂.decompose k data den = decomposeImpl k (freshStack k b₂.params) b₂.params b₂.decs data den
        ((0 : ℕ) : ℤ) b₂.params.signalNumber := rfl
    rw [← q₁] at r₁
    rw [← q₂, ← hp] at r₂
    generalize hr₁ : b₁.decompose k data den = x₁ at r₁
    generalize hr₂ : b₂.decompose k data den = x₂ at r₂
    cases ho : decO k b₁.params data den b₁.params.signalNumber with
    | ub =>
      rw [ho] at r₁ r₂
      have s₁ : x₁ = .ub := r₁
      have s₂ : x₂ = .ub := r₂
      subst s₁; subst s₂
      exact .inl ⟨rfl, rfl⟩
    | throw =>
      rw [ho] at r₁ r₂
      obtain ⟨d₁, _, s₁⟩ := r₁
      obtain ⟨d₂, _, s₂⟩ := r₂
      subst s₁; subst s₂
      exact .inr ⟨_, _, .threw, rfl, rfl, by simp, by simp⟩
    | ok o =>
      rw [ho] at r₁ r₂
      cases o with
      | none =>
        have s₁ : x₁ = .ok b₁.decs false := r₁
        have s₂ : x₂ = .ok b₂.decs false := r₂
        subst s₁; subst s₂
        refine .inr ⟨_, _, .bool false, rfl, rfl, by simp, fun _ => ⟨?_, ?_⟩⟩
        · exact World.content_some.2 ⟨a₁, find_heapset_same ha₁⟩
        · exact World.content_some.2 ⟨a₂, find_heapset_same ha₂⟩
      | some cs =>
        obtain ⟨l₁, _, s₁⟩ := r₁
        obtain ⟨_, _, s₂⟩ := r₂
        subst s₁; subst s₂
        refine .inr ⟨_, _, .bool true, rfl, rfl, fun _ => ?_, by simp⟩
        have f₁ : splice b₁.decs 0 cs = cs := splice_zero_full (by rw [l₁, wf₁.2.1])
        have f₂ : splice b₂.decs 0 cs = cs := splice_zero_full (by rw [l₁, wf₂.2.1, hp])
        rw [World.content_some.2 ⟨a₁, find_heapset_same ha₁⟩, World.content_some.2 ⟨a₂, find_heapset_same ha₂⟩]
        rw [f₁, f₂, hp]
  · rintro rfl scale
    obtain ⟨c₁, e₁⟩ := step_compose hi₁ ha₁ scale
    obtain ⟨c₂, e₂⟩ := step_compose hi₂ ha₂ scale
    rw [e₁, e₂]
    unfold World.query
    simp only
    cases b₁.compose k scale <;> rfl

/-- C21, second part. Repeating a successful decomposition leaves the buffer as it is. -/
theorem C21_repeat_identical (k : Kit α) (w w' : World α) (hw : Reached k w) (h : ℕ) (data : List (Mat α)) (den : Denoiser α)
    (hs : w.step k (.decompose h data den) = some (w', .bool true)) :
    ∃ w'', w'.step k (.decompose h data den) = some (w'', .bool true) ∧ w''.content h = w'.content h := by
  have hi := Reached.inv hw
  cases hf : w.find h with
  | none => simp [World.step, hf] at hs
  | some ab =>
    obtain ⟨a, b⟩ := ab
    have hw' := Reached.step hw hs
    obtain ⟨b', h1, h2⟩ := step_params hi hf (op := .decompose h data den) (by simp [Rebinds]) hs
    obtain ⟨h3, _⟩ := C21_history_independent k w w' hw hw' h h b b' (World.content_some.2 ⟨a, hf⟩)
      (World.content_some.2 ⟨a, h1⟩) h2.symm
    rcases h3 data den with ⟨e, _⟩ | ⟨w₁, w₂, x, e1, e2, e3, _⟩
    · rw [hs] at e; cases e
    · rw [hs] at e1
      cases e1
      exact ⟨w₂, e2, (e3 rfl).symm⟩

/-- C36. Copy construction and copy assignment succeed for every live buffer, the two buffers are equal right afterwards,
and from then on no sequence of calls on the other one (or on any third one) changes either of them. -/
theorem C36_copies_independent (k : Kit α) (w : World α) (hw : Reached k w) (g : ℕ) (b : Buffer α)
    (hb : w.content g = some b) :
    (∃ w', w.step k (.copy g) = some (w', .done) ∧ fresh w ≠ g ∧
      w'.content (fresh w) = some b ∧ w'.content g = some b ∧
      ∀ ops w'' xs, w'.run k ops = some (w'', xs) →
        ((∀ op ∈ ops, ¬ Changes (fresh w) op) → w''.content (fresh w) = some b) ∧
        ((∀ op ∈ ops, ¬ Changes g op) → w''.content g = some b)) ∧
    (∀ h b₀, w.content h = some b₀ → h ≠ g →
      ∃ w', w.step k (.assign h g) = some (w', .done) ∧
      w'.content h = some b ∧ w'.content g = some b ∧
      ∀ ops w'' xs, w'.run k ops = some (w'', xs) →
        ((∀ op ∈ ops, ¬ Changes h op) → w''.content h = some b) ∧
        ((∀ op ∈ ops, ¬ Changes g op) → w''.content g = some b)) := by
  have hi := Reached.inv hw
  obtain ⟨a, ha⟩ := World.content_some.1 hb
  have hlt : g < w.handles.length := (List.getElem?_eq_some_iff.1 (World.find_some ha).1).1
  constructor
  · have hs : w.step k (.copy g) = some (w.alloc b, .done) := by simp [World.step, ha]
    have hi' := World.inv_step hi _ hs
    refine ⟨_, hs, by unfold fresh; omega, content_alloc_new b, World.content_some.2 ⟨a, find_alloc_old ha⟩, ?_⟩
    intro ops w'' xs hr
    exact ⟨fun hc => World.content_some.2 ⟨_, run_frame hi' (find_alloc_new b) hc hr⟩,
      fun hc => World.content_some.2 ⟨_, run_frame hi' (find_alloc_old ha) hc hr⟩⟩
  · intro h b₀ hb₀ hne
    obtain ⟨a₀, ha₀⟩ := World.content_some.1 hb₀
    obtain ⟨f1, f2⟩ := World.find_some ha₀
    have hs : w.step k (.assign h g) = some ({ w with heap := w.heap ++ [b], handles := w.handles.set h (.holds w.heap.length) }, .done) := by
      simp [World.step, ha, f1]
    have hi' := World.inv_step hi _ hs
    have hh : (World.mk w.cache (w.heap ++ [b]) (w.handles.set h (.holds w.heap.length))).find h = some (w.heap.length, b) := by
      refine World.find_of (w := World.mk _ _ _) ?_ ?_
      · simp [(List.getElem?_eq_some_iff.1 f1).1]
      · simp
    have hg := step_frame hi ha (op := .assign h g) hne hs
    refine ⟨_, hs, World.content_some.2 ⟨_, hh⟩, World.content_some.2 ⟨_, hg⟩, ?_⟩
    intro ops w'' xs hr
    exact ⟨fun hc => World.content_some.2 ⟨_, run_frame hi' hh hc hr⟩,
      fun hc => World.content_some.2 ⟨_, run_frame hi' hg hc hr⟩⟩

/-- C25. Converting a view that lies inside the buffer (its length is that of an accepted parameter set) gives a new buffer
with the same parameters except for the number of channels, whose channels are those of the view; no later call on the
viewed buffer changes it. -/
theorem C25_cast_copies_channels (k : Kit α) (w : World α) (hw : Reached k w) (h : ℕ) (b : Buffer α)
    (hb : w.content h = some b) (hr : RepresentableType b.params) (start count : ℕ) (c : Bool)
    (hin : start + count ≤ b.params.signalNumber) :
    ∃ w' nb, w.step k (.cast h ⟨start, count, c⟩) = some (w', .done) ∧ fresh w ≠ h ∧
      w'.content h = some b ∧ w'.content (fresh w) = some nb ∧
      nb.params = { b.params with signalNumber := count } ∧
      nb.decs.length = count ∧ (∀ i < count, nb.decs[i]? = b.decs[start + i]?) ∧
      ∀ ops w'' xs, w'.run k ops = some (w'', xs) → (∀ op ∈ ops, ¬ Changes (fresh w) op) →
        w''.content (fresh w) = some nb := by
  have hi := Reached.inv hw
  obtain ⟨a, ha⟩ := World.content_some.1 hb
  have wf := hi.wf b (List.mem_of_getElem? (World.find_some ha).2)
  have hlt : h < w.handles.length := (List.getElem?_eq_some_iff.1 (World.find_some ha).1).1
  have hv : ValidParams { b.params with signalNumber := count } := wf.1
  have hc := ctor_ok_of_valid (α := α) hv hr
  have hm : (List.range count).mapM (fun (ch : ℕ) =>
      if 0 ≤ (ch : ℤ) + (start : ℤ) then rd b.decs ((ch : ℤ) + (start : ℤ)).toNat else .ub) =
      .ok ((List.range count).map (fun ch => b.decs.getD (start + ch) [])) := by
    apply Outcome.mapM_ok
    intro ch hch
    rw [List.mem_range] at hch
    have e : ((ch : ℤ) + (start : ℤ)).toNat = start + ch := by omega
    rw [if_pos (by omega), e, rd_eq_getD [] (by rw [wf.2.1]; omega)]
  have hcast : (View.mk start count c).cast b =
      .ok ⟨{ b.params with signalNumber := count }, (List.range count).map (fun ch => b.decs.getD (start + ch) [])⟩ := by
    unfold View.cast
    simp only [Int.toNat_natCast]
    rw [if_neg (by omega), hc, Outcome.bind_ok, hm, Outcome.bind_ok]
    rfl
  have hs : w.step k (.cast h ⟨start, count, c⟩) = some (w.alloc ⟨{ b.params with signalNumber := count },
      (List.range count).map (fun ch => b.decs.getD (start + ch) [])⟩, .done) := by
    simp only [World.step, ha, hcast, World.build]
  have hi' := World.inv_step hi _ hs
  refine ⟨_, _, hs, by unfold fresh; omega, World.content_some.2 ⟨a, find_alloc_old ha⟩, content_alloc_new _, rfl, by simp, ?_, ?_⟩
  · intro i hlt
    have : start + i < b.decs.length := by rw [wf.2.1]; omega
    simp [hlt, List.getD, this]
  · intro ops w'' xs hr' hc'
    exact World.content_some.2 ⟨_, run_frame hi' (find_alloc_new _) hc' hr'⟩

theorem isEmpty_iff (b : Buffer α) : b.isEmpty = true ↔ ∀ c ∈ b.decs, ∀ m ∈ c, m.data = [] := by
  unfold Buffer.isEmpty
  simp only [List.all_eq_true, beq_iff_eq]
  constructor
  · intro h c hc m hm
    rw [← List.length_eq_zero_iff, m.wf]; exact h c hc m hm
  · intro h c hc m hm
    rw [← m.wf, h c hc m hm]; rfl

/-- C40. `IsEmpty` holds exactly when no subband stores a sample. In every history it is true for a newly constructed
buffer and false after a successful `Decompose` of at least one channel of a signal with positive sides, through the matrix
and the vector interface and through views, for every denoiser and even for data whose later channels have other shapes. -/
theorem C40_is_empty (k : Kit α) (w : World α) (hw : Reached k w) :
    (∀ b : Buffer α, b.isEmpty = true ↔ ∀ c ∈ b.decs, ∀ m ∈ c, m.data = []) ∧
    (∀ p w', w.step k (.construct p) = some (w', .done) → ∃ b, w'.content (fresh w) = some b ∧ b.isEmpty = true) ∧
    (∀ h b w', w.content h = some b → FilterPresent k b.params → (∀ n ∈ b.params.shape, 0 < n) →
      (0 < b.params.signalNumber ∧ (∃ data den, w.step k (.decompose h data den) = some (w', .bool true)) ∨
       0 < b.params.signalNumber ∧ (∃ v den, w.step k (.decompose1 h v den) = some (w', .bool true)) ∨
       (∃ v data den, 0 ≤ v.start ∧ 0 < v.count ∧ w.step k (.viewDecompose h v data den) = some (w', .bool true))) →
      ∃ b', w'.content h = some b' ∧ b'.isEmpty = false) := by
  have hi := Reached.inv hw
  refine ⟨isEmpty_iff, ?_, ?_⟩
  · intro p w' hs
    rcases build_some hs with ⟨b, h1, rfl, _⟩ | ⟨_, _, hx⟩
    · refine ⟨b, content_alloc_new b, ?_⟩
      obtain ⟨_, _, rfl⟩ := ctor_valid_of_ok h1
      rw [isEmpty_iff]
      intro c hc m hm
      simp only [emptyBuffer, List.mem_replicate] at hc
      rw [hc.2, List.mem_replicate] at hm
      rw [hm.2]; rfl
    · cases hx
  · intro h b w' hb hf hpos hcase
    obtain ⟨a, ha⟩ := World.content_some.1 hb
    have wf := hi.wf b (List.mem_of_getElem? (World.find_some ha).2)
    -- any successful run over `n > 0` channels
    have key : ∀ (data : List (Mat α)) (den : Denoiser α) (start n : ℕ) (c : Cache α), 0 < n → start + n ≤ b.params.signalNumber →
        w.update a b (c, decomposeImpl k (freshStack k b.params) b.params b.decs data den start n) = some (w', .bool true) →
        ∃ b', w'.content h = some b' ∧ b'.isEmpty = false := by
      intro data den start n c hn hle hu
      have href := decomposeImpl_refines k b.params b.decs data den start n wf.2.2 (by rw [wf.2.1]; exact hle)
      obtain ⟨d, rfl, hres⟩ := update_some hu
      rcases hres with ⟨y, hy, hxy⟩ | ⟨_, hx⟩
      · cases hxy
        simp only at hy
        rw [hy] at href
        refine ⟨_, World.content_some.2 ⟨a, find_heapset_same ha⟩, ?_⟩
        cases ho : decO k b.params data den n with
        | ub => rw [ho] at href; cases href
        | throw => rw [ho] at href; obtain ⟨_, _, h⟩ := href; cases h
        | ok o =>
          rw [ho] at href
          cases o with
          | none => cases href
          | some cs =>
            obtain ⟨h1, h2, h3⟩ := href
            cases h3
            obtain ⟨c', hc', l, hl, hne⟩ := decO_nonempty wf.1 hf hpos hn ho
            rw [← Bool.not_eq_true, isEmpty_iff]
            intro hall
            have := hall c' (by simp only [splice, List.mem_append]; exact .inl (.inr hc')) l hl
            rw [← l.wf, this] at hne
            exact hne rfl
      · cases hx
    rcases hcase with ⟨hn, data, den, hs⟩ | ⟨hn, v, den, hs⟩ | ⟨v, data, den, h0, hn, hs⟩
    · obtain ⟨c, e⟩ := step_decompose hi ha data den
      rw [e] at hs
      exact key data den 0 _ c hn (by omega) hs
    · obtain ⟨c, e⟩ := step_decompose1 hi ha v den
      rw [e] at hs
      exact key [Mat.ofCol v] den 0 1 c (by omega) (by omega) hs
    · simp only [World.step, ha] at hs
      split at hs
      · rename_i hr
        split_ifs at hs
        have hin : v.start.toNat + v.count.toNat ≤ b.params.signalNumber := by
          unfold View.checkRange at hr
          split_ifs at hr
          simp only [Outcome.ok.injEq, decide_eq_true_eq] at hr
          omega
        have e1 : ((v.start.toNat : ℕ) : ℤ) = v.start := by omega
        have e2 : ((v.count.toNat : ℕ) : ℤ) = v.count := by omega
        have hdc := (decomposeCached_eq hi.cache b.params b.decs data den v.start v.count).1
        refine key data den v.start.toNat v.count.toNat (decomposeCached k w.cache b.params b.decs data den v.start v.count).1
          (by omega) hin ?_
        rw [e1, e2, ← hdc]
        exact hs
      · cases hs
      · cases hs

/-- A kit for examples: Haar without normalisation on the integers. -/
private def exKit : Kit ℤ := ⟨fun o => if o = 1 then [1, 1] else [], id, fun _ _ x => x⟩

/-- A concrete history: construct, decompose, copy, decompose the copy with other data, compose the original. All hypotheses
of C02, C21, C25, C36 and C40 are met by the states it passes through. -/
example : ∃ w xs, (World.init.run exKit [.construct ⟨[4], 2, 1, 1⟩,
      .decompose 0 [Mat.ofCol [1, 2, 3, 4], Mat.ofCol [5, 6, 7, 8]] nullDenoiser, .copy 0,
      .decompose 1 [Mat.ofCol [0, 0, 0, 1], Mat.ofCol [0, 0, 0, 0]] nullDenoiser,
      .cast 0 ⟨1, 1, false⟩, .compose 0 0]) = some (w, xs) ∧
    (w.content 0).map Buffer.isEmpty = some false ∧
    (w.content 0).map (fun b => b.decs.map (fun c => c.map Mat.data)) = some [[[-1, -1], [3, 7]], [[-1, -1], [11, 15]]] ∧
    (w.content 1).map (fun b => b.decs.map (fun c => c.map Mat.data)) = some [[[0, -1], [0, 1]], [[0, 0], [0, 0]]] ∧
    (w.content 2).map (fun b => b.decs.map (fun c => c.map Mat.data)) = some [[[-1, -1], [11, 15]]] :=
  ⟨_, _, rfl, rfl, rfl, rfl, rfl⟩

end WB.Props
