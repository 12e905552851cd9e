import Verif.Proof.Damage
import Verif.Spec.AnyDamage

/-! Helper lemmas: many coefficients replaced one after the other. -/

namespace WB

open WB.Spec

theorem sidesOf_getElem? {α : Type} {d d' : Decs α} (h : sidesOf d' = sidesOf d) {n q : ℕ} {c : List (Mat α)} {m : Mat α} (hc : d[n]? = some c)
    (hm : c[q]? = some m) : ∃ c' m', d'[n]? = some c' ∧ c'[q]? = some m' ∧ c'.length = c.length ∧ m'.rows = m.rows ∧ m'.cols = m.cols := by
  have h1 := congrArg (fun l => l[n]?) h
  simp only [sidesOf, List.getElem?_map, hc, Option.map_some] at h1
  cases hc' : d'[n]? with
  | none => rw [hc'] at h1; simp at h1
  | some c' =>
    rw [hc'] at h1
    simp only [Option.map_some, Option.some.injEq] at h1
    have h2 := congrArg (fun l => l[q]?) h1
    simp only [List.getElem?_map, hm, Option.map_some] at h2
    cases hm' : c'[q]? with
    | none => rw [hm'] at h2; simp at h2
    | some m' =>
      rw [hm'] at h2
      simp only [Option.map_some, Option.some.injEq, Prod.mk.injEq] at h2
      exact ⟨c', m', rfl, hm', by simpa using congrArg List.length h1, h2.1, h2.2⟩

theorem hasPlace_of_sides {α : Type} {d d' : Decs α} (h : sidesOf d' = sidesOf d) {n q i j : ℕ} (hp : HasPlace d n q i j) : HasPlace d' n q i j := by
  obtain ⟨c, m, h1, h2, h3, h4⟩ := hp
  obtain ⟨c', m', k1, k2, _, k4, k5⟩ := sidesOf_getElem? h h1 h2
  exact ⟨c', m', k1, k2, by omega, by omega⟩

theorem placeOf_of_sides {p : Params} {d d' : Decs F32} (h : sidesOf d' = sidesOf d) {n q i j : ℕ} (hp : HasPlace d n q i j) :
    placeOf ⟨p, d'⟩ n q i j = placeOf ⟨p, d⟩ n q i j := by
  obtain ⟨c, m, h1, h2, _, _⟩ := hp
  obtain ⟨c', m', k1, k2, _, k4, k5⟩ := sidesOf_getElem? h h1 h2
  have key : ∀ x : Decs F32, (x.flatten.map fun m => 28 + 4 * (m.rows * m.cols)) =
      ((sidesOf x).flatten.map fun s => 28 + 4 * (s.1 * s.2)) := by
    intro x
    unfold sidesOf
    rw [← List.map_flatten, List.map_map]
    rfl
  have key2 : ∀ x : List (Mat F32), (x.map fun m => 28 + 4 * (m.rows * m.cols)) =
      ((x.map fun m => (m.rows, m.cols)).map fun s => 28 + 4 * (s.1 * s.2)) := by
    intro x; rw [List.map_map]; rfl
  have e1 : d.getD n [] = c := by rw [List.getD_eq_getElem?_getD, h1, Option.getD_some]
  have e2 : d'.getD n [] = c' := by rw [List.getD_eq_getElem?_getD, k1, Option.getD_some]
  have e3 : c.getD q Mat.empty = m := by rw [List.getD_eq_getElem?_getD, h2, Option.getD_some]
  have e4 : c'.getD q Mat.empty = m' := by rw [List.getD_eq_getElem?_getD, k2, Option.getD_some]
  have e5 : sidesOf (d'.take n) = sidesOf (d.take n) := by
    have := congrArg (List.take n) h
    simpa [sidesOf, List.map_take] using this
  have e6 : (c'.map fun m => (m.rows, m.cols)) = c.map fun m => (m.rows, m.cols) := by
    have := congrArg (fun l => l[n]?) h
    simpa [sidesOf, h1, k1] using this
  unfold placeOf
  simp only [e1, e2, e3, e4, k5]
  rw [key, key (d.take n), e5, key2 (c'.take q), key2 (c.take q)]
  simp only [List.map_take, e6]

theorem SameElsewhere.sides {α : Type} {R : Mat α → Mat α → Prop} (hR : ∀ m m', R m m' → EqualSides m m') {n q : ℕ} {d d' : Decs α}
    (h : SameElsewhere R n q d d') : sidesOf d' = sidesOf d := by
  unfold sidesOf
  apply List.ext_getElem?
  intro n'
  rw [List.getElem?_map, List.getElem?_map]
  cases hc : d[n']? with
  | none =>
    have : d'[n']? = none := by
      rw [List.getElem?_eq_none_iff] at hc ⊢
      rw [h.1]; exact hc
    rw [this]
  | some c =>
    obtain ⟨c', h1, h2, h3⟩ := h.2 n' c hc
    rw [h1]
    simp only [Option.map_some, Option.some.injEq]
    apply List.ext_getElem?
    intro q'
    rw [List.getElem?_map, List.getElem?_map]
    cases hm : c[q']? with
    | none =>
      have : c'[q']? = none := by
        rw [List.getElem?_eq_none_iff] at hm ⊢
        rw [h2]; exact hm
      rw [this]
    | some m =>
      obtain ⟨m', k1, k2⟩ := h3 q' m hm
      rw [k1]
      have hs : EqualSides m m' := by
        split at k2
        · exact hR _ _ k2
        · rw [k2]; exact ⟨rfl, rfl⟩
      simp [hs.1, hs.2]

theorem sides_wellFormed {p : Params} {d d' : Decs F32} (h : sidesOf d' = sidesOf d) (hb : WellFormed (Buffer.mk p d)) :
    WellFormed (Buffer.mk p d') := by
  have hl : d'.length = d.length := by simpa [sidesOf] using congrArg List.length h
  refine ⟨hb.1, hl.trans hb.2.1, fun c' hc' => ?_⟩
  have : c'.map (fun m => (m.rows, m.cols)) ∈ sidesOf d' := List.mem_map_of_mem hc'
  rw [h] at this
  obtain ⟨c, hc, he⟩ := List.mem_map.1 this
  have hlen : c'.length = c.length := by simpa using (congrArg List.length he).symm
  rw [hlen]
  exact hb.2.2 c hc

theorem sides_sizes {α : Type} {d d' : Decs α} (h : sidesOf d' = sidesOf d) {P : ℕ → ℕ → Prop} (hP : ∀ c ∈ d, ∀ m ∈ c, P m.rows m.cols) :
    ∀ c ∈ d', ∀ m ∈ c, P m.rows m.cols := by
  intro c' hc' m' hm'
  have : c'.map (fun m => (m.rows, m.cols)) ∈ sidesOf d' := List.mem_map_of_mem hc'
  rw [h] at this
  obtain ⟨c, hc, he⟩ := List.mem_map.1 this
  have : (m'.rows, m'.cols) ∈ c'.map (fun m => (m.rows, m.cols)) := List.mem_map_of_mem hm'
  rw [← he] at this
  obtain ⟨m, hm, he⟩ := List.mem_map.1 this
  simp only [Prod.mk.injEq] at he
  rw [← he.1, ← he.2]
  exact hP c hc m hm

theorem sides_fits {p : Params} {d d' : Decs F32} (h : sidesOf d' = sidesOf d) (hf : FitsFormat (Buffer.mk p d)) :
    FitsFormat (Buffer.mk p d') :=
  ⟨hf.1, hf.2.1, hf.2.2.1, sides_sizes (P := fun r c => r < 2 ^ 64 ∧ c < 2 ^ 64) h hf.2.2.2⟩

theorem sides_memory {p : Params} {M : ℕ} {d d' : Decs F32} (h : sidesOf d' = sidesOf d) (hf : FitsMemory (Buffer.mk p d) M) :
    FitsMemory (Buffer.mk p d') M := ⟨hf.1, sides_sizes (P := fun r c => r * c ≤ M) h hf.2⟩

theorem sides_shapes {α : Type} {p : Params} {d d' : Decs α} (h : sidesOf d' = sidesOf d) (hs : ∀ c ∈ d, PrescribedShapes p c) :
    ∀ c ∈ d', PrescribedShapes p c := by
  have shape : ∀ (sh : List ℕ) (m m' : Mat α), EqualSides m m' → HasShape sh m → HasShape sh m' := by
    intro sh m m' hs hh
    match sh, hh with
    | [_], hh => exact ⟨hs.1.trans hh.1, hs.2.trans hh.2⟩
    | [_, _], hh => exact ⟨hs.1.trans hh.1, hs.2.trans hh.2⟩
  intro c' hc'
  have : c'.map (fun m => (m.rows, m.cols)) ∈ sidesOf d' := List.mem_map_of_mem hc'
  rw [h] at this
  obtain ⟨c, hc, he⟩ := List.mem_map.1 this
  have key : ∀ (q : ℕ) (m' : Mat α), c'[q]? = some m' → ∃ m : Mat α, c[q]? = some m ∧ EqualSides m m' := by
    intro q m' hm'
    have h1 := congrArg (fun l => l[q]?) he
    simp only [List.getElem?_map, hm', Option.map_some] at h1
    cases hm : c[q]? with
    | none => rw [hm] at h1; simp at h1
    | some m =>
      rw [hm] at h1
      simp only [Option.map_some, Option.some.injEq, Prod.mk.injEq] at h1
      exact ⟨m, rfl, h1.1.symm, h1.2.symm⟩
  have hlen : c'.length = c.length := by simpa using (congrArg List.length he).symm
  obtain ⟨g1, g2, g3⟩ := hs _ hc
  refine ⟨hlen.trans g1, fun s hs j hj m' hm' => ?_, fun m' hm' => ?_⟩
  · obtain ⟨m, k1, k2⟩ := key _ _ hm'
    exact shape _ _ _ k2 (g2 s hs j hj m k1)
  · obtain ⟨m, k1, k2⟩ := key _ _ hm'
    exact shape _ _ _ k2 (g3 m k1)

/-- The archive of a well-formed buffer without compression. -/
theorem plain_archive (e : Ext) {b : Buffer F32} (hb : WellFormed b) (hf : FitsFormat b) (old : Bytes) :
    serialize e b old 0 = .ok (true, blob3 b.params 0 (b.decs.flatten.flatMap serMat)) := by
  have h0 : effectiveLevel b 0 = 0 := by unfold effectiveLevel; split <;> rfl
  have := serialize_eq (e := e) hb hf.2.2.1 old 0 (by rw [h0]; exact serSubbands_zero e _)
  rw [this, h0]
  rfl

theorem le_floatAt {blob : Bytes} {P : ℕ} (h : P + 4 ≤ blob.length) : le 4 (floatAt blob P).toNat = (blob.drop P).take 4 := by
  have hl : ((blob.drop P).take 4).length = 4 := by rw [List.length_take, List.length_drop]; omega
  have hlt : fromLE ((blob.drop P).take 4) < 2 ^ 32 := by
    have := fromLE_lt_pow ((blob.drop P).take 4)
    rw [hl] at this
    norm_num at this ⊢
    exact this
  unfold floatAt
  rw [ofLittleEndian_eq, BitVec.toNat_ofNat, Nat.mod_eq_of_lt hlt]
  have := le_fromLE ((blob.drop P).take 4)
  rwa [hl] at this

/-- One coefficient replaced: the archive changes in its four bytes only. -/
theorem archive_put (e : Ext) {p : Params} {d : Decs F32} (hb : WellFormed (Buffer.mk p d)) (hf : FitsFormat (Buffer.mk p d)) {n q i j : ℕ}
    (hp : HasPlace d n q i j) (v : F32) (old blob : Bytes) (hs : serialize e ⟨p, d⟩ old 0 = .ok (true, blob)) :
    ∃ d' blob', sidesOf d' = sidesOf d ∧ serialize e ⟨p, d'⟩ old 0 = .ok (true, blob') ∧ placeOf ⟨p, d⟩ n q i j + 4 ≤ blob.length ∧
      blob'.length = blob.length ∧ (blob'.drop (placeOf ⟨p, d⟩ n q i j)).take 4 = le 4 v.toNat ∧
      ∀ t, t < placeOf ⟨p, d⟩ n q i j ∨ placeOf ⟨p, d⟩ n q i j + 4 ≤ t → blob'[t]? = blob[t]? := by
  obtain ⟨c, m, hc, hm, hi, hj⟩ := hp
  obtain ⟨A, B, hA, h⟩ := plain_split e hb hf hc hm hi hj
  simp only at h
  have hself : putAt m (i * m.cols + j) (m.get i j) = m := by
    have hk : i * m.cols + j < m.data.length := by rw [m.wf]; nlinarith
    unfold putAt Mat.get
    have : m.data.set (i * m.cols + j) (m.data.getD (i * m.cols + j) default) = m.data := by
      rw [List.getD_eq_getElem _ _ hk, List.set_getElem_self]
    cases m
    simp only [Mat.mk.injEq, true_and]
    exact this
  have h0 := h (m.get i j) old
  rw [hself, putBand_self hc hm, hs] at h0
  simp only [Outcome.ok.injEq, Prod.mk.injEq, true_and] at h0
  refine ⟨_, _, SameElsewhere.sides (R := SameBut i j v) (fun _ _ h => h.1) (putBand_same hc hm (putAt_sameBut hj v)), h v old, ?_, ?_, ?_, ?_⟩
  · rw [h0, ← hA]; simp
  · rw [h0]; simp
  · rw [← hA, List.drop_left, List.take_left' (by simp)]
  · intro t ht
    rw [h0, ← hA] at *
    rcases ht with ht | ht
    · rw [List.getElem?_append_left ht, List.getElem?_append_left ht]
    · have key : ∀ x : Bytes, x.length = 4 → (A ++ (x ++ B))[t]? = B[t - A.length - 4]? := by
        intro x hx
        rw [List.getElem?_append_right (by omega), List.getElem?_append_right (by omega), hx]
      rw [key _ (by simp), key _ (by simp)]

/-- Bytes that differ from an archive only in coefficients are the archive of a buffer with the same sides. -/
theorem archive_of_changed (e : Ext) (p : Params) (blob' : Bytes) (old : Bytes) : ∀ (k : ℕ) (d : Decs F32) (blob : Bytes),
    WellFormed (Buffer.mk p d) → FitsFormat (Buffer.mk p d) → serialize e ⟨p, d⟩ old 0 = .ok (true, blob) → blob'.length = blob.length →
    (∀ t, t + k < blob.length → blob'[t]? = blob[t]?) →
    (∀ t, (∀ n q i j, HasPlace d n q i j → t < placeOf ⟨p, d⟩ n q i j ∨ placeOf ⟨p, d⟩ n q i j + 4 ≤ t) → blob'[t]? = blob[t]?) →
    ∃ d', sidesOf d' = sidesOf d ∧ serialize e ⟨p, d'⟩ old 0 = .ok (true, blob')
  | 0, d, blob, _, _, hs, hl, h1, _ => by
    refine ⟨d, rfl, ?_⟩
    rw [hs]
    congr 2
    apply List.ext_getElem?
    intro t
    by_cases ht : t < blob.length
    · exact (h1 t ht).symm
    · rw [List.getElem?_eq_none (by omega), List.getElem?_eq_none (by omega)]
  | k + 1, d, blob, hb, hf, hs, hl, h1, h2 => by
    by_cases heq : blob'[blob.length - (k + 1)]? = blob[blob.length - (k + 1)]? ∨ blob.length < k + 1
    · refine archive_of_changed e p blob' old k d blob hb hf hs hl (fun t ht => ?_) h2
      by_cases h : t = blob.length - (k + 1)
      · rcases heq with heq | heq
        · rw [h]; exact heq
        · omega
      · exact h1 t (by omega)
    · rw [not_or] at heq
      have hex : ∃ n q i j, HasPlace d n q i j ∧ placeOf ⟨p, d⟩ n q i j ≤ blob.length - (k + 1) ∧
          blob.length - (k + 1) < placeOf ⟨p, d⟩ n q i j + 4 := by
        by_contra hno
        apply heq.1
        refine h2 _ fun n q i j hp => ?_
        by_contra hlt
        exact hno ⟨n, q, i, j, hp, by omega, by omega⟩
      obtain ⟨n, q, i, j, hp, hlo, hhi⟩ := hex
      obtain ⟨d1, blob1, g1, g2, g3, g4, g5, g6⟩ := archive_put e hb hf hp (floatAt blob' (placeOf ⟨p, d⟩ n q i j)) old blob hs
      rw [le_floatAt (by omega)] at g5
      have same : ∀ t, (placeOf ⟨p, d⟩ n q i j ≤ t ∧ t < placeOf ⟨p, d⟩ n q i j + 4) ∨ blob'[t]? = blob[t]? → blob'[t]? = blob1[t]? := by
        intro t ht
        by_cases hin : placeOf ⟨p, d⟩ n q i j ≤ t ∧ t < placeOf ⟨p, d⟩ n q i j + 4
        · have := congrArg (fun l => l[t - placeOf ⟨p, d⟩ n q i j]?) g5
          simp only [List.getElem?_take, List.getElem?_drop] at this
          rw [if_pos (by omega), if_pos (by omega), Nat.add_sub_cancel' hin.1] at this
          exact this.symm
        · rw [g6 t (by omega)]
          rcases ht with ht | ht
          · exact absurd ht hin
          · exact ht
      obtain ⟨d', k1, k2⟩ := archive_of_changed e p blob' old k d1 blob1 (sides_wellFormed g1 hb) (sides_fits g1 hf) g2 (hl.trans g4.symm)
        (fun t ht => by
          apply same
          by_cases h : t = blob.length - (k + 1)
          · left; omega
          · right; exact h1 t (by omega))
        (fun t ht => by
          apply same
          right
          refine h2 t fun n' q' i' j' hp' => ?_
          have := ht n' q' i' j' (hasPlace_of_sides g1 hp')
          rwa [placeOf_of_sides g1 hp'] at this)
      exact ⟨d', k1.trans g1, k2⟩

end WB
