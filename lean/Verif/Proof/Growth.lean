import Verif.Spec.Growth
import Verif.Spec.Threads
import Verif.Proof.History
import Verif.Proof.Threads
import Verif.Proof.Decomp
import Verif.Proof.Window
import Verif.Props.Params

/-!
What one call adds to the matrix cache.
-/

namespace WB

open Spec

variable {α : Type}

theorem mapFind_none {m : List (Params × Stack α)} {p : Params} (h : mapFind m p = none) : p ∉ keysOf m := by
  unfold mapFind at h
  rw [Option.map_eq_none_iff, List.find?_eq_none] at h
  intro hp
  obtain ⟨e, he, rfl⟩ := List.mem_map.1 hp
  have := h e he
  have hirr := Props.C35_params_total_order.1 e.1
  simp [hirr] at this

theorem findRef_none {m : List (Params × Stack α)} {p : Params} (h : findRef m p = none) : p ∉ keysOf m := by
  unfold findRef at h
  rw [List.findIdx?_eq_none_iff] at h
  intro hp
  obtain ⟨e, he, rfl⟩ := List.mem_map.1 hp
  have := h e he
  have hirr := Props.C35_params_total_order.1 e.1
  simp [hirr] at this

theorem mapFind_key {m : List (Params × Stack α)} {p : Params} {s : Stack α} (h : mapFind m p = some s) : p ∈ keysOf m :=
  List.mem_map.2 ⟨_, mapFind_some h, rfl⟩

theorem _root_.WB.Spec.GrewBy.prefix {p : Params} {m m' : List (Params × Stack α)} (h : GrewBy p m m') : m <+: m' := by
  rcases h with rfl | ⟨_, s, rfl⟩
  · exact List.prefix_refl _
  · exact List.prefix_append _ _

theorem _root_.WB.Spec.GrewBy.nodup {p : Params} {m m' : List (Params × Stack α)} (h : GrewBy p m m') (hm : (keysOf m).Nodup) : (keysOf m').Nodup := by
  rcases h with rfl | ⟨h, s, rfl⟩
  · exact hm
  · unfold keysOf at *
    rw [List.map_append, List.nodup_append]
    refine ⟨hm, by simp, ?_⟩
    intro a ha b hb
    simp at hb
    subst hb
    rintro rfl
    exact h ha

theorem _root_.WB.Spec.GrewBy.keys {p : Params} {m m' : List (Params × Stack α)} (h : GrewBy p m m') {q : Params} (hq : q ∈ keysOf m') : q ∈ keysOf m ∨ q = p := by
  rcases h with rfl | ⟨_, s, rfl⟩
  · exact .inl hq
  · unfold keysOf at *
    simpa using hq

theorem _root_.WB.Spec.GrewBy.same {p : Params} {m m' : List (Params × Stack α)} (h : GrewBy p m m') (hp : p ∈ keysOf m) : m' = m := by
  rcases h with rfl | ⟨hn, _⟩
  · rfl
  · exact absurd hp hn

theorem keysOf_prefix {m m' : List (Params × Stack α)} (h : m <+: m') {p : Params} (hp : p ∈ keysOf m) : p ∈ keysOf m' := by
  obtain ⟨l, rfl⟩ := h
  unfold keysOf at *
  rw [List.map_append]
  exact List.mem_append_left _ hp

section
variable [Zero α] [Add α] [Mul α] [Neg α] [Inhabited α]

/-- What a request may do to the cache. -/
def CacheGrew (p : Params) (c c' : Cache α) : Prop :=
  GrewBy p c.main c'.main ∧ GrewBy p c.trans c'.trans ∧ (c'.trans = c.trans ∨ p ∈ keysOf c'.main)

omit [Zero α] [Add α] [Mul α] [Neg α] [Inhabited α] in
theorem cacheGrew_refl (p : Params) (c : Cache α) : CacheGrew p c c := ⟨.inl rfl, .inl rfl, .inl rfl⟩

omit [Zero α] [Add α] [Mul α] [Inhabited α] in
theorem genMatrices_grew {k : Kit α} {c c' : Cache α} {padded : List ℕ} {p : Params} {s : Stack α} (h : c.genMatrices k padded p = .ok (c', s)) :
    GrewBy p c.main c'.main ∧ c'.trans = c.trans ∧ p ∈ keysOf c'.main := by
  unfold Cache.genMatrices at h
  split at h
  · rename_i st hm
    cases h
    exact ⟨.inl rfl, rfl, mapFind_key hm⟩
  · rename_i hm
    cases hb : buildStack k padded p with
    | ok st =>
      rw [hb] at h
      cases h
      exact ⟨.inr ⟨mapFind_none hm, _, rfl⟩, rfl, by simp [keysOf]⟩
    | throw => rw [hb] at h; cases h
    | ub => rw [hb] at h; cases h

omit [Zero α] [Add α] [Mul α] [Inhabited α] in
theorem genTrans_grew {k : Kit α} {c c' : Cache α} {padded : List ℕ} {p : Params} {s : Stack α} (h : c.genTrans k padded p = .ok (c', s)) :
    CacheGrew p c c' ∧ p ∈ keysOf c'.trans := by
  unfold Cache.genTrans at h
  split at h
  · rename_i st hm
    cases h
    exact ⟨cacheGrew_refl _ _, mapFind_key hm⟩
  · rename_i hm
    cases hb : c.genMatrices k padded p with
    | ok r =>
      obtain ⟨c1, st⟩ := r
      rw [hb] at h
      cases h
      obtain ⟨h1, h2, h3⟩ := genMatrices_grew hb
      refine ⟨⟨h1, ?_, .inr h3⟩, by simp [keysOf]⟩
      rw [h2]
      exact .inr ⟨mapFind_none hm, _, rfl⟩
    | throw => rw [hb] at h; cases h
    | ub => rw [hb] at h; cases h

theorem decomposeCached_grew (k : Kit α) (c : Cache α) (p : Params) (d : Decs α) (data : List (Mat α)) (den : Denoiser α) (start count : ℤ) :
    (decomposeCached k c p d data den start count).1 = c ∨ (p.dimension = 2 ∧ CacheGrew p c (decomposeCached k c p d data den start count).1) := by
  unfold decomposeCached
  split_ifs with h
  · right
    refine ⟨h.1, ?_⟩
    simp only
    cases hg : c.genMatrices k (paddedShape p) p with
    | ok r =>
      obtain ⟨c1, st⟩ := r
      obtain ⟨h1, h2, h3⟩ := genMatrices_grew hg
      exact ⟨h1, .inl h2, .inl h2⟩
    | throw => exact cacheGrew_refl _ _
    | ub => exact cacheGrew_refl _ _
  · exact .inl rfl

theorem composeCached_grew (k : Kit α) (c : Cache α) (p : Params) (d : Decs α) (scale start count : ℤ) :
    (composeCached k c p d scale start count).1 = c ∨ (p.dimension = 2 ∧ CacheGrew p c (composeCached k c p d scale start count).1) := by
  unfold composeCached
  split_ifs with h
  · right
    refine ⟨h.1, ?_⟩
    simp only
    cases hg : c.genTrans k (paddedShape p) p with
    | ok r =>
      obtain ⟨c1, st⟩ := r
      exact (genTrans_grew hg).1
    | throw => exact cacheGrew_refl _ _
    | ub => exact cacheGrew_refl _ _
  · exact .inl rfl

/-- One call: the cache stays as it is, or a picture buffer is transformed and entries for its parameters are added. -/
theorem step_grew {k : Kit α} {w w' : World α} {op : Op α} {x : Reply α} (h : w.step k op = some (w', x)) :
    w'.cache = w.cache ∨ ∃ i b, transforms op = some i ∧ w.content i = some b ∧ b.params.shape.length = 2 ∧ CacheGrew b.params w.cache w'.cache := by
  have hb : ∀ {o : Outcome (Buffer α)}, w.build o = some (w', x) → w'.cache = w.cache := by
    intro o ho
    rcases build_some ho with ⟨b, _, rfl, _⟩ | ⟨_, rfl, _⟩ <;> rfl
  have hd : ∀ {i a b data den s c}, w.find i = some (a, b) → transforms op = some i →
      w.update a b (decomposeCached k w.cache b.params b.decs data den s c) = some (w', x) →
      w'.cache = w.cache ∨ ∃ i b, transforms op = some i ∧ w.content i = some b ∧ b.params.shape.length = 2 ∧ CacheGrew b.params w.cache w'.cache := by
    intro i a b data den s c hf ht hu
    obtain ⟨d, rfl, _⟩ := update_some hu
    rcases decomposeCached_grew k w.cache b.params b.decs data den s c with e | ⟨e1, e2⟩
    · exact .inl e
    · exact .inr ⟨i, b, ht, World.content_some.2 ⟨_, hf⟩, e1, e2⟩
  have hq : ∀ {i a b sc s c} {f : Outcome (List (Mat α)) → Outcome (Reply α)}, w.find i = some (a, b) → transforms op = some i →
      w.query ((composeCached k w.cache b.params b.decs sc s c).1, f (composeCached k w.cache b.params b.decs sc s c).2) = some (w', x) →
      w'.cache = w.cache ∨ ∃ i b, transforms op = some i ∧ w.content i = some b ∧ b.params.shape.length = 2 ∧ CacheGrew b.params w.cache w'.cache := by
    intro i a b sc s c f hf ht hu
    rw [query_some hu]
    rcases composeCached_grew k w.cache b.params b.decs sc s c with e | ⟨e1, e2⟩
    · exact .inl e
    · exact .inr ⟨i, b, ht, World.content_some.2 ⟨_, hf⟩, e1, e2⟩
  cases op with
  | construct p => exact .inl (hb h)
  | constructWith p d => exact .inl (hb h)
  | decompose i data den =>
    simp only [World.step] at h
    split at h
    · rename_i a b hf; exact hd hf rfl h
    · cases h
  | decompose1 i data den =>
    simp only [World.step] at h
    split at h
    · rename_i a b hf; exact hd hf rfl h
    · cases h
  | compose i s =>
    simp only [World.step] at h
    split at h
    · rename_i a b hf; exact hq (f := fun o => o >>= fun ms => pure (.signals (some ms))) hf rfl h
    · cases h
  | compose1 i s =>
    simp only [World.step] at h
    split at h
    · rename_i a b hf; exact hq (f := fun o => o >>= fun ms => rd ms 0 >>= fun m => column0 m >>= fun v => pure (.vector v)) hf rfl h
    · cases h
  | viewDecompose i v data den =>
    simp only [World.step] at h
    split at h
    · rename_i a b hf
      split at h
      · split_ifs at h
        exact hd hf rfl h
      · cases h; exact .inl rfl
      · cases h
    · cases h
  | viewCompose i v s =>
    simp only [World.step] at h
    split at h
    · rename_i a b hf
      split at h
      · exact hq (f := fun o => o >>= fun ms => pure (.signals (some ms))) hf rfl h
      · cases h; exact .inl rfl
      · cases h
    · cases h
  | _ =>
    left
    simp only [World.step] at h
    repeat' split at h
    all_goals first
      | exact hb h
      | (cases h; rfl)
      | cases h

/-- A set of parameters that has those of the constructor calls and, if views are converted, with some parameters also those with fewer channels. -/
structure OpsFrom (ops : List (Op α)) (O : Params → Prop) : Prop where
  made : ∀ op ∈ ops, ∀ p, Constructs p op → O p
  view : ∀ op ∈ ops, Casts op → ∀ p m, O p → m ≤ p.signalNumber → O { p with signalNumber := m }

omit [Zero α] [Add α] [Mul α] [Neg α] in
theorem mapM_range_len {β : Type} {n : ℕ} {f : ℕ → Outcome β} {l : List β} (h : (List.range n).mapM f = .ok l) {i : ℕ} (hi : i < n) : ∃ y, f i = .ok y := by
  by_contra hc
  push Not at hc
  have : ∀ (xs : List ℕ) (l : List β), i ∈ xs → xs.mapM f ≠ .ok l := by
    intro xs
    induction xs with
    | nil => intro l hm; cases hm
    | cons a t ih =>
      intro l hm he
      rw [List.mapM_cons] at he
      rcases List.mem_cons.1 hm with rfl | hm
      · cases hf : f i with
        | ok y => exact hc y hf
        | throw => rw [hf] at he; cases he
        | ub => rw [hf] at he; cases he
      · cases hf : f a with
        | ok y =>
          rw [hf] at he
          cases ht : t.mapM f with
          | ok l' => exact ih l' hm ht
          | throw =>
            have he : (t.mapM f >>= fun ys => pure (y :: ys)) = Outcome.ok l := he
            rw [ht] at he; cases he
          | ub =>
            have he : (t.mapM f >>= fun ys => pure (y :: ys)) = Outcome.ok l := he
            rw [ht] at he; cases he
        | throw => rw [hf] at he; cases he
        | ub => rw [hf] at he; cases he
  exact this _ l (List.mem_range.2 hi) h

/-- What the conversion of a view makes. -/
theorem cast_params {v : View} {b nb : Buffer α} (hb : WellFormed b) (h : v.cast b = .ok nb) :
    ∃ m ≤ b.params.signalNumber, nb.params = { b.params with signalNumber := m } := by
  unfold View.cast at h
  split_ifs at h with hc
  cases hk : ctor (α := α) { b.params with signalNumber := v.count.toNat } with
  | ok c =>
    rw [hk] at h
    cases hm : (List.range v.count.toNat).mapM (fun (ch : ℕ) =>
      if 0 ≤ (ch : ℤ) + v.start then rd b.decs ((ch : ℤ) + v.start).toNat else .ub) with
    | ok chs =>
      have h : ((List.range v.count.toNat).mapM (fun (ch : ℕ) =>
        if 0 ≤ (ch : ℤ) + v.start then rd b.decs ((ch : ℤ) + v.start).toNat else .ub) >>= fun chs => pure { c with decs := chs }) = Outcome.ok nb := h
      rw [hm] at h
      cases h
      refine ⟨v.count.toNat, ?_, ?_⟩
      · by_contra hlt
        have hlt : b.params.signalNumber < v.count.toNat := by omega
        obtain ⟨y0, h0⟩ := mapM_range_len hm (show 0 < v.count.toNat by omega)
        obtain ⟨y1, h1⟩ := mapM_range_len hm hlt
        have hs : 0 ≤ v.start := by
          by_contra hn
          rw [if_neg (by omega)] at h0
          cases h0
        rw [if_pos (by omega)] at h1
        unfold rd at h1
        have hl : b.decs.length = b.params.signalNumber := hb.2.1
        rw [List.getElem?_eq_none (by omega)] at h1
        cases h1
      · exact (ctor_wf hk).2
    | throw =>
      have h : ((List.range v.count.toNat).mapM (fun (ch : ℕ) =>
        if 0 ≤ (ch : ℤ) + v.start then rd b.decs ((ch : ℤ) + v.start).toNat else .ub) >>= fun chs => pure { c with decs := chs }) = Outcome.ok nb := h
      rw [hm] at h
      cases h
    | ub =>
      have h : ((List.range v.count.toNat).mapM (fun (ch : ℕ) =>
        if 0 ≤ (ch : ℤ) + v.start then rd b.decs ((ch : ℤ) + v.start).toNat else .ub) >>= fun chs => pure { c with decs := chs }) = Outcome.ok nb := h
      rw [hm] at h
      cases h
  | throw => rw [hk] at h; cases h
  | ub => rw [hk] at h; cases h

/-- The parameters of all buffers are among the given ones. -/
theorem heap_origin {k : Kit α} {w w' : World α} (hw : w.Inv k) {op : Op α} {x : Reply α} (h : w.step k op = some (w', x)) {O : Params → Prop}
    (ho : OpsFrom [op] O) (hp : ∀ b ∈ w.heap, O b.params) : ∀ b ∈ w'.heap, O b.params := by
  have hset : ∀ {i a b} {d : Decs α}, w.find i = some (a, b) → ∀ c ∈ w.heap.set a { b with decs := d }, O c.params := by
    intro i a b d hf c hc
    rcases List.mem_or_eq_of_mem_set hc with hc | rfl
    · exact hp c hc
    · exact hp b (List.mem_of_getElem? (World.find_some hf).2)
  have happ : ∀ {i a b}, w.find i = some (a, b) → ∀ c ∈ w.heap ++ [b], O c.params := by
    intro i a b hf c hc
    rcases List.mem_append.1 hc with hc | hc
    · exact hp c hc
    · rw [List.mem_singleton.1 hc]
      exact hp b (List.mem_of_getElem? (World.find_some hf).2)
  have hb : ∀ {o : Outcome (Buffer α)}, (∀ b, o = .ok b → O b.params) → w.build o = some (w', x) → ∀ b ∈ w'.heap, O b.params := by
    intro o ho' ho
    rcases build_some ho with ⟨b, e, rfl, _⟩ | ⟨_, rfl, _⟩
    · intro c hc
      rcases List.mem_append.1 hc with hc | hc
      · exact hp c hc
      · rw [List.mem_singleton.1 hc]
        exact ho' b e
    · exact hp
  have hu : ∀ {i a b r}, w.find i = some (a, b) → w.update a b r = some (w', x) → ∀ b ∈ w'.heap, O b.params := by
    intro i a b r hf hr
    obtain ⟨d, rfl, _⟩ := update_some hr
    exact hset hf
  have hq : ∀ {r}, w.query r = some (w', x) → ∀ b ∈ w'.heap, O b.params := by
    intro r hr
    rw [query_some hr]; exact hp
  cases op with
  | construct p => exact hb (fun b e => ho.made _ (List.mem_singleton.2 rfl) _ (ctor_wf e).2.symm) h
  | constructWith p d => exact hb (fun b e => ho.made _ (List.mem_singleton.2 rfl) _ (ctorWith_wf e).2.1.symm) h
  | cast i v =>
    simp only [World.step] at h
    split at h
    · rename_i a b hf
      have hm := List.mem_of_getElem? (World.find_some hf).2
      refine hb (fun nb e => ?_) h
      obtain ⟨m, h1, h2⟩ := cast_params (hw.wf b hm) e
      rw [h2]
      exact ho.view _ (List.mem_singleton.2 rfl) trivial _ m (hp b hm) h1
    · cases h
  | _ =>
    simp only [World.step] at h
    repeat' split at h
    all_goals first
      | exact hq h
      | exact hu ‹_› h
      | (cases h; exact happ ‹_›)
      | (cases h; exact hset ‹_›)
      | (cases h; exact hp)
      | cases h

/-- What holds of the cache after any history. -/
structure Grown (O : Params → Prop) (w : World α) : Prop where
  main : (keysOf w.cache.main).Nodup
  trans : (keysOf w.cache.trans).Nodup
  sub : ∀ p ∈ keysOf w.cache.trans, p ∈ keysOf w.cache.main
  keys : ∀ p ∈ keysOf w.cache.main, p.shape.length = 2 ∧ ValidParams p ∧ O p
  heap : ∀ b ∈ w.heap, O b.params

theorem grown_step {k : Kit α} {w w' : World α} (hw : w.Inv k) {op : Op α} {x : Reply α} (h : w.step k op = some (w', x)) {O : Params → Prop}
    (ho : OpsFrom [op] O) (hg : Grown O w) : Grown O w' := by
  have hh := heap_origin hw h ho hg.heap
  rcases step_grew h with e | ⟨i, b, _, hc, hd, hcg⟩
  · exact ⟨e ▸ hg.main, e ▸ hg.trans, e ▸ hg.sub, e ▸ hg.keys, hh⟩
  · have g1 : GrewBy _ _ _ := hcg.1
    have g2 : GrewBy _ _ _ := hcg.2.1
    have g3 := hcg.2.2
    obtain ⟨a, hf⟩ := World.content_some.1 hc
    have hm := List.mem_of_getElem? (World.find_some hf).2
    refine ⟨g1.nodup hg.main, g2.nodup hg.trans, fun p hp => ?_, fun p hp => ?_, hh⟩
    · rcases g3 with e | e
      · rw [e] at hp
        exact keysOf_prefix g1.prefix (hg.sub p hp)
      · rcases g2.keys hp with hp | rfl
        · exact keysOf_prefix g1.prefix (hg.sub p hp)
        · exact e
    · rcases g1.keys hp with hp | rfl
      · exact hg.keys p hp
      · exact ⟨hd, (hw.wf b hm).1, hg.heap b hm⟩

theorem grown_run {k : Kit α} {O : Params → Prop} : ∀ {ops : List (Op α)} {w w' : World α} {rs : List (Reply α)}, w.Inv k → w.run k ops = some (w', rs) →
    OpsFrom ops O → Grown O w → Grown O w' := by
  intro ops
  induction ops with
  | nil => intro w w' rs _ h _ hg; cases h; exact hg
  | cons op ops ih =>
    intro w w' rs hw h ho hg
    unfold World.run at h
    split at h
    · cases h
    · rename_i w1 r1 h1
      split at h
      · cases h
      · rename_i w2 rs2 h2
        cases h
        refine ih (World.inv_step hw _ h1) h2 ⟨fun o h => ho.made o (List.mem_cons_of_mem _ h), fun o h => ho.view o (List.mem_cons_of_mem _ h)⟩ ?_
        exact grown_step hw h1 ⟨fun o h => ho.made o (by rw [List.mem_singleton.1 h]; simp), fun o h => ho.view o (by rw [List.mem_singleton.1 h]; simp)⟩ hg

theorem kept_step {k : Kit α} {w w' : World α} {op : Op α} {x : Reply α} (h : w.step k op = some (w', x)) :
    w.cache.main <+: w'.cache.main ∧ w.cache.trans <+: w'.cache.trans := by
  rcases step_grew h with e | ⟨_, _, _, _, _, g⟩
  · rw [e]; exact ⟨List.prefix_refl _, List.prefix_refl _⟩
  · exact ⟨GrewBy.prefix g.1, GrewBy.prefix g.2.1⟩

theorem kept_run {k : Kit α} : ∀ {ops : List (Op α)} {w w' : World α} {rs : List (Reply α)}, w.run k ops = some (w', rs) →
    w.cache.main <+: w'.cache.main ∧ w.cache.trans <+: w'.cache.trans := by
  intro ops
  induction ops with
  | nil => intro w w' rs h; cases h; exact ⟨List.prefix_refl _, List.prefix_refl _⟩
  | cons op ops ih =>
    intro w w' rs h
    unfold World.run at h
    split at h
    · cases h
    · rename_i w1 r1 h1
      split at h
      · cases h
      · rename_i w2 rs2 h2
        cases h
        obtain ⟨a, b⟩ := kept_step h1
        obtain ⟨c, d⟩ := ih h2
        exact ⟨a.trans c, b.trans d⟩

/-- After a successful decomposition of pictures there is an entry for the parameters. -/
theorem decomposed_key {k : Kit α} {w w' : World α} {h a : ℕ} {b : Buffer α} (hf : w.find h = some (a, b)) (hd : b.params.shape.length = 2)
    {data : List (Mat α)} {den : Denoiser α} (hs : w.step k (.decompose h data den) = some (w', .bool true)) : b.params ∈ keysOf w'.cache.main := by
  simp only [World.step, hf] at hs
  obtain ⟨d, rfl, hr⟩ := update_some hs
  show b.params ∈ keysOf (decomposeCached k w.cache b.params b.decs data den 0 b.params.signalNumber).1.main
  have hok : (decomposeCached k w.cache b.params b.decs data den 0 b.params.signalNumber).2 = .ok d true := by
    rcases hr with ⟨y, h1, h2⟩ | ⟨_, h2⟩
    · cases h2; exact h1
    · cases h2
  have no : ∀ {st : Outcome (Stack α)} {P : Prop}, (shapeCheck b.params data b.params.signalNumber matches .ok true) = true →
      decomposeImpl k st b.params b.decs data den 0 b.params.signalNumber = .ok d true → (∀ s, st ≠ .ok s) → P := by
    intro st P hm hi hn
    exfalso
    have hd2 : b.params.dimension = 2 := hd
    unfold decomposeImpl at hi
    cases hsc : shapeCheck b.params data b.params.signalNumber with
    | ok g =>
      cases g
      · simp [hsc] at hm
      · rw [hsc, hd2] at hi
        cases st with
        | ok s => exact hn s rfl
        | throw => cases hi
        | ub => cases hi
    | throw => simp [hsc] at hm
    | ub => simp [hsc] at hm
  unfold decomposeCached at hok ⊢
  split_ifs at hok ⊢ with hc
  · cases hg : w.cache.genMatrices k (paddedShape b.params) b.params with
    | ok r => obtain ⟨c1, st⟩ := r; exact (genMatrices_grew hg).2.2
    | throw => exact no hc.2 (by rw [hg] at hok; exact hok) (by intro s; simp [cacheResult])
    | ub => exact no hc.2 (by rw [hg] at hok; exact hok) (by intro s; simp [cacheResult])
  · exfalso
    apply hc
    refine ⟨hd, ?_⟩
    unfold decomposeImpl at hok
    cases hsc : shapeCheck b.params data b.params.signalNumber with
    | ok g => cases g <;> simp_all [Run.lift, Run.bind]
    | throw => rw [hsc] at hok; cases hok
    | ub => rw [hsc] at hok; cases hok

end

/-! ### how much an entry holds -/

theorem sum_range_list (n : ℕ) (f : ℕ → ℕ) : ((List.range n).map f).sum = ∑ i ∈ Finset.range n, f i := rfl

theorem row_count (r : List (ℕ × α)) {n : ℕ} (h : ∀ e ∈ r, e.1 < n) : ((List.range n).map fun j => (r.filter fun e => e.1 = j).length).sum = r.length := by
  rw [sum_range_list]
  induction r with
  | nil => simp
  | cons e r ih =>
    have h1 : ∀ j, ((e :: r).filter fun e => e.1 = j).length = (if e.1 = j then 1 else 0) + (r.filter fun e => e.1 = j).length := by
      intro j
      rw [List.filter_cons]
      by_cases he : e.1 = j <;> simp [he, Nat.add_comm]
    simp only [h1]
    rw [Finset.sum_add_distrib, ih (fun e he => h e (List.mem_cons_of_mem _ he)), Finset.sum_ite_eq, if_pos (Finset.mem_range.2 (h e (by simp))), List.length_cons,
      Nat.add_comm]

theorem transpose_count (m : SpMat α) (h : ∀ r ∈ m.rowsE, ∀ e ∈ r, e.1 < m.cols) : (m.transpose.rowsE.map List.length).sum = (m.rowsE.map List.length).sum := by
  unfold SpMat.transpose
  simp only [List.map_map]
  have key : ∀ (rows : List (List (ℕ × α))) (off : ℕ), (∀ r ∈ rows, ∀ e ∈ r, e.1 < m.cols) →
      ((List.range m.cols).map (List.length ∘ fun j => (rows.zipIdx off).flatMap fun (r, i) => (r.filter fun e => e.1 = j).map fun e => (i, e.2))).sum =
        (rows.map List.length).sum := by
    intro rows
    induction rows with
    | nil => intro off _; simp [sum_range_list]
    | cons r rows ih =>
      intro off hr
      rw [List.map_cons, List.sum_cons, ← ih (off + 1) (fun r h => hr r (List.mem_cons_of_mem _ h)), ← row_count r (hr r (by simp)), sum_range_list, sum_range_list,
        sum_range_list, ← Finset.sum_add_distrib]
      refine Finset.sum_congr rfl fun j _ => ?_
      simp [List.zipIdx_cons]
  exact key _ 0 h

section
variable [Zero α] [Neg α]

omit [Neg α] in
theorem daubP_count {lo hi : List α} {t n : ℕ} (h1 : lo.length = 2 * t) (h2 : hi.length = 2 * t) :
    ((daubP lo hi n).rowsE.map List.length).sum ≤ 2 * t * n := by
  unfold daubP
  simp only [List.map_append, List.map_map, List.sum_append]
  have e1 : List.length ∘ rowP lo n = fun _ => 2 * t := by funext i; simp [rowP, h1]
  have e2 : List.length ∘ rowP hi n = fun _ => 2 * t := by funext i; simp [rowP, h2]
  rw [e1, e2]
  simp only [List.map_const', List.length_range, List.sum_replicate, smul_eq_mul]
  have : n / 2 + n / 2 ≤ n := by omega
  calc n / 2 * (2 * t) + n / 2 * (2 * t) = (2 * t) * (n / 2 + n / 2) := by ring
    _ ≤ 2 * t * n := Nat.mul_le_mul_left _ this

omit [Neg α] in
theorem daubP_inside {lo hi : List α} {n : ℕ} (h1 : lo.length ≤ n) (h2 : hi.length ≤ n) : ∀ r ∈ (daubP lo hi n).rowsE, ∀ e ∈ r, e.1 < (daubP lo hi n).cols := by
  intro r hr
  unfold daubP at hr
  rcases List.mem_append.1 hr with hr | hr
  · obtain ⟨i, hi', rfl⟩ := List.mem_map.1 hr
    rw [List.mem_range] at hi'
    exact rowP_lt (by omega) h1
  · obtain ⟨i, hi', rfl⟩ := List.mem_map.1 hr
    rw [List.mem_range] at hi'
    exact rowP_lt (by omega) h2

theorem steps_sum (n K : ℕ) : ∑ i ∈ Finset.range K, n / 2 ^ i ≤ 2 * n := by
  have : ∑ i ∈ Finset.range K, n / 2 ^ i + 2 * (n / 2 ^ K) ≤ 2 * n := by
    induction K with
    | zero => simp
    | succ K ih =>
      rw [Finset.sum_range_succ, pow_succ, ← Nat.div_div_eq_div_mul]
      omega
  omega

theorem list_sum_le {β : Type} {l : List β} {f g : β → ℕ} (h : ∀ x ∈ l, f x ≤ g x) : (l.map f).sum ≤ (l.map g).sum := by
  induction l with
  | nil => simp
  | cons a t ih =>
    rw [List.map_cons, List.map_cons, List.sum_cons, List.sum_cons]
    exact Nat.add_le_add (h a (by simp)) (ih fun x hx => h x (List.mem_cons_of_mem _ hx))

theorem sums_le (l : List ℕ) (K t : ℕ) : ((List.range K).map fun i => (l.map fun n => 2 * t * (n / 2 ^ i)).sum).sum ≤ 4 * t * l.sum := by
  rw [sum_range_list]
  induction l with
  | nil => simp
  | cons a l ih =>
    simp only [List.map_cons, List.sum_cons]
    rw [Finset.sum_add_distrib, ← Finset.mul_sum, Nat.mul_add]
    refine Nat.add_le_add ?_ ih
    calc 2 * t * ∑ i ∈ Finset.range K, a / 2 ^ i ≤ 2 * t * (2 * a) := Nat.mul_le_mul_left _ (steps_sum a K)
      _ = 4 * t * a := by ring

end

section
variable [Zero α] [Add α] [Mul α] [Neg α] [Inhabited α]

theorem stack_count {k : Kit α} {p : Params} (hv : ValidParams p) (hf : FilterLen k p) :
    numbersIn (stackP p (scaling k p)) ≤ 4 * p.wtype * (paddedShape p).sum ∧
    numbersIn (transStack (stackP p (scaling k p))) = numbersIn (stackP p (scaling k p)) := by
  constructor
  · refine le_trans ?_ (sums_le (paddedShape p) p.steps p.wtype)
    unfold numbersIn stackP
    rw [List.map_map]
    refine list_sum_le fun i hi => ?_
    have ht := wavelet_of_steps hv (List.mem_range.1 hi)
    simp only [Function.comp, List.map_map]
    refine list_sum_le fun n hn => ?_
    exact daubP_count (length_scaling hf ht) (by rw [length_qmf, length_scaling hf ht])
  · unfold numbersIn stackP transStack
    rw [List.map_map, List.map_map, List.map_map]
    congr 1
    refine List.map_congr_left fun i hi => ?_
    have ht := wavelet_of_steps hv (List.mem_range.1 hi)
    simp only [Function.comp, List.map_map]
    congr 1
    refine List.map_congr_left fun n hn => ?_
    simp only [Function.comp]
    have hL := length_scaling hf ht
    rw [paddedShape_of_wavelet ht, List.mem_map] at hn
    obtain ⟨n0, hn0, rfl⟩ := hn
    obtain ⟨n2, h1, _, h3⟩ := padded_halves hv ht hn0 (List.mem_range.1 hi)
    exact transpose_count _ (daubP_inside (by omega) (by rw [length_qmf]; omega))

end

/-! ### threads -/

section
variable [Neg α] {n : ℕ}

omit [Neg α] in
theorem insertRef_grew (m : List (Params × Stack α)) (p : Params) (st : Stack α) : GrewBy p m (insertRef m p st).1 := by
  unfold insertRef
  cases h : findRef m p with
  | some i => exact .inl rfl
  | none => exact .inr ⟨findRef_none h, st, rfl⟩

theorem shared_step_grew {k : Kit α} {s s' : Shared α n} {i : Fin n} (h : s.step k i = some s') :
    (s'.main = s.main ∨ ∃ p b st, (s.threads i).pc = .insertMain p b st ∧ GrewBy p s.main s'.main) ∧
    (s'.trans = s.trans ∨ ∃ p st, (s.threads i).pc = .insertTrans p st ∧ GrewBy p s.trans s'.trans) := by
  unfold Shared.step at h
  cases hp : (s.threads i).pc with
  | insertMain p b st => rw [hp] at h; cases h; exact ⟨.inr ⟨p, b, st, rfl, insertRef_grew _ _ _⟩, .inl rfl⟩
  | insertTrans p st => rw [hp] at h; cases h; exact ⟨.inl rfl, .inr ⟨p, st, rfl, insertRef_grew _ _ _⟩⟩
  | _ =>
    rw [hp] at h
    simp only at h
    try repeat' split at h
    all_goals first
      | (cases h; exact ⟨.inl rfl, .inl rfl⟩)
      | cases h

theorem asked_head {k : Kit α} {reqs : Fin n → List Req} {s : Shared α n} (hi : Inv k reqs s) {i : Fin n} {r : Req} (h : (s.threads i).todo.head? = some r) :
    r ∈ reqs i := by
  obtain ⟨l, h1, _⟩ := hi.served i
  rw [h1]
  exact List.mem_append_right _ (List.mem_of_mem_head? h)

theorem shared_grown {k : Kit α} {reqs : Fin n → List Req} {s s' : Shared α n} {l : List (Fin n)} (hi : Inv k reqs s) (h : Runs k s l s')
    (h1 : (keysOf s.main).Nodup ∧ (keysOf s.trans).Nodup) (h2 : (∀ p ∈ keysOf s.main, AskedFor reqs p) ∧ ∀ p ∈ keysOf s.trans, AskedFor reqs p) :
    ((keysOf s'.main).Nodup ∧ (keysOf s'.trans).Nodup) ∧ (∀ p ∈ keysOf s'.main, AskedFor reqs p) ∧ ∀ p ∈ keysOf s'.trans, AskedFor reqs p := by
  induction h with
  | nil => exact ⟨h1, h2⟩
  | @cons s s1 s2 i l hs _ ih =>
    obtain ⟨g1, g2⟩ := shared_step_grew hs
    refine ih (inv_step hi hs) ⟨?_, ?_⟩ ⟨?_, ?_⟩
    · rcases g1 with e | ⟨p, b, st, _, g⟩
      · rw [e]; exact h1.1
      · exact g.nodup h1.1
    · rcases g2 with e | ⟨p, st, _, g⟩
      · rw [e]; exact h1.2
      · exact g.nodup h1.2
    · rcases g1 with e | ⟨p, b, st, hp, g⟩
      · rw [e]; exact h2.1
      · intro q hq
        rcases g.keys hq with hq | rfl
        · exact h2.1 q hq
        · have := hi.pc i
          rw [hp] at this
          have := asked_head hi this.1
          unfold reqOf at this
          split_ifs at this
          · exact ⟨i, .inr this⟩
          · exact ⟨i, .inl this⟩
    · rcases g2 with e | ⟨p, st, hp, g⟩
      · rw [e]; exact h2.2
      · intro q hq
        rcases g.keys hq with hq | rfl
        · exact h2.2 q hq
        · have := hi.pc i
          rw [hp] at this
          exact ⟨i, .inr (asked_head hi this.1)⟩

end

end WB
