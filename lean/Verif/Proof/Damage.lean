import Verif.Proof.Size
import Verif.Proof.Blob
import Verif.Spec.Damage

/-! Helper lemmas: replacing one coefficient, one subband and their bytes. -/

namespace WB

open WB.Spec

theorem ofLittleEndian_eq : ∀ w, ofLittleEndian w = fromLE w
  | [] => rfl
  | x :: w => by rw [ofLittleEndian, fromLE, ofLittleEndian_eq w]

/-- A matrix with another value at the `k`-th place. -/
def putAt (m : Mat F32) (k : ℕ) (v : F32) : Mat F32 := ⟨m.rows, m.cols, m.data.set k v, by rw [List.length_set, m.wf]⟩

theorem putAt_sameBut {m : Mat F32} {i j : ℕ} (hj : j < m.cols) (v : F32) :
    SameBut i j v m (putAt m (i * m.cols + j) v) := by
  refine ⟨⟨rfl, rfl⟩, fun a ha b hb => ?_⟩
  have hab : a * m.cols + b < m.data.length := by rw [m.wf]; nlinarith
  unfold Mat.get putAt
  simp only [List.getD_eq_getElem?_getD, List.getElem?_set]
  by_cases h : a = i ∧ b = j
  · rw [if_pos h, if_pos (by rw [h.1, h.2]), if_pos (by rw [← h.1, ← h.2]; exact hab), Option.getD_some]
  · rw [if_neg h, if_neg]
    intro he
    apply h
    have h1 : (i * m.cols + j) / m.cols = (a * m.cols + b) / m.cols := by rw [he]
    have h2 : (i * m.cols + j) % m.cols = (a * m.cols + b) % m.cols := by rw [he]
    have hc : 0 < m.cols := by omega
    rw [Nat.mul_comm, Nat.mul_add_div hc, Nat.div_eq_of_lt hj, Nat.mul_comm a, Nat.mul_add_div hc, Nat.div_eq_of_lt hb] at h1
    rw [Nat.mul_comm, Nat.mul_add_mod, Nat.mod_eq_of_lt hj, Nat.mul_comm a, Nat.mul_add_mod, Nat.mod_eq_of_lt hb] at h2
    exact ⟨by omega, h2.symm⟩

/-- A decomposition with another subband `q` in channel `n`. -/
def putBand (d : Decs F32) (n q : ℕ) (m : Mat F32) : Decs F32 := d.set n ((d.getD n []).set q m)

theorem putBand_same {R : Mat F32 → Mat F32 → Prop} {d : Decs F32} {n q : ℕ} {c : List (Mat F32)} {m m' : Mat F32} (hc : d[n]? = some c)
    (hm : c[q]? = some m) (h : R m m') : SameElsewhere R n q d (putBand d n q m') := by
  have hg : d.getD n [] = c := by rw [List.getD_eq_getElem?_getD, hc, Option.getD_some]
  have hn := (List.getElem?_eq_some_iff.1 hc).1
  have hq := (List.getElem?_eq_some_iff.1 hm).1
  unfold putBand
  rw [hg]
  refine ⟨by simp, fun n' c' hc' => ?_⟩
  by_cases e : n = n'
  · subst e
    rw [hc] at hc'
    cases hc'
    refine ⟨_, by rw [List.getElem?_set_self hn], by simp, fun q' k hk => ?_⟩
    by_cases e : q = q'
    · subst e
      rw [hm] at hk
      cases hk
      exact ⟨m', by rw [List.getElem?_set_self hq], by rw [if_pos ⟨rfl, rfl⟩]; exact h⟩
    · exact ⟨k, by rw [List.getElem?_set_ne e, hk], by rw [if_neg (fun h => e h.2.symm)]⟩
  · exact ⟨c', by rw [List.getElem?_set_ne e, hc'], rfl, fun q' k hk => ⟨k, hk, by rw [if_neg (fun h => e h.1.symm)]⟩⟩

/-- The subbands before and after the chosen one. -/
theorem flatten_putBand {d : Decs F32} {n q : ℕ} {c : List (Mat F32)} {m : Mat F32} (hc : d[n]? = some c) (hm : c[q]? = some m)
    (m' : Mat F32) :
    (putBand d n q m').flatten = ((d.take n).flatten ++ c.take q) ++ m' :: (c.drop (q + 1) ++ (d.drop (n + 1)).flatten) := by
  have hg : d.getD n [] = c := by rw [List.getD_eq_getElem?_getD, hc, Option.getD_some]
  have hn := (List.getElem?_eq_some_iff.1 hc).1
  have hq := (List.getElem?_eq_some_iff.1 hm).1
  unfold putBand
  rw [hg, List.set_eq_take_append_cons_drop, if_pos hn, List.set_eq_take_append_cons_drop, if_pos hq]
  simp

theorem putBand_self {d : Decs F32} {n q : ℕ} {c : List (Mat F32)} {m : Mat F32} (hc : d[n]? = some c) (hm : c[q]? = some m) :
    putBand d n q m = d := by
  have hg : d.getD n [] = c := by rw [List.getD_eq_getElem?_getD, hc, Option.getD_some]
  obtain ⟨hn, rfl⟩ := List.getElem?_eq_some_iff.1 hc
  obtain ⟨hq, rfl⟩ := List.getElem?_eq_some_iff.1 hm
  unfold putBand
  rw [hg, List.set_getElem_self, List.set_getElem_self]

theorem sameElsewhere_wellFormed {R : Mat F32 → Mat F32 → Prop} {n q : ℕ} {p : Params} {d d' : Decs F32} (h : SameElsewhere R n q d d')
    (hb : WellFormed (Buffer.mk p d)) : WellFormed (Buffer.mk p d') := by
  refine ⟨hb.1, h.1.trans hb.2.1, fun c' hc' => ?_⟩
  obtain ⟨n', hn', rfl⟩ := List.mem_iff_getElem.1 hc'
  have hn : n' < d.length := h.1 ▸ hn'
  obtain ⟨c'', h1, h2, _⟩ := h.2 n' _ (List.getElem?_eq_getElem hn)
  rw [List.getElem?_eq_getElem hn'] at h1
  cases h1
  rw [h2]
  exact hb.2.2 _ (List.getElem_mem hn)

/-- What holds of the sizes of all subbands holds after a change that keeps the sizes. -/
theorem sameElsewhere_sizes {R : Mat F32 → Mat F32 → Prop} (hR : ∀ m m', R m m' → EqualSides m m') {n q : ℕ} {d d' : Decs F32}
    (h : SameElsewhere R n q d d') {P : ℕ → ℕ → Prop} (hP : ∀ c ∈ d, ∀ m ∈ c, P m.rows m.cols) : ∀ c ∈ d', ∀ m ∈ c, P m.rows m.cols := by
  intro c' hc' m' hm'
  obtain ⟨n', hn', rfl⟩ := List.mem_iff_getElem.1 hc'
  have hn : n' < d.length := h.1 ▸ hn'
  obtain ⟨c'', h1, h2, h3⟩ := h.2 n' _ (List.getElem?_eq_getElem hn)
  rw [List.getElem?_eq_getElem hn'] at h1
  cases h1
  obtain ⟨q', hq', rfl⟩ := List.mem_iff_getElem.1 hm'
  have hq : q' < d[n'].length := h2 ▸ hq'
  obtain ⟨m'', k1, k2⟩ := h3 q' _ (List.getElem?_eq_getElem hq)
  rw [List.getElem?_eq_getElem hq'] at k1
  cases k1
  have hs : EqualSides d[n'][q'] d'[n'][q'] := by
    split at k2
    · exact hR _ _ k2
    · rw [k2]; exact ⟨rfl, rfl⟩
  rw [hs.1, hs.2]
  exact hP _ (List.getElem_mem hn) _ (List.getElem_mem hq)

theorem serSubbands_zero (e : Ext) : ∀ ms : List (Mat F32), serSubbands e 0 ms = .ok (ms.flatMap serMat)
  | [] => rfl
  | m :: ms => by
    rw [serSubbands, serSubbands_zero e ms]
    simp [serSubband, Outcome.bind_ok, List.flatMap_cons]

theorem length_flatMap_serMat : ∀ ms : List (Mat F32), (ms.flatMap serMat).length = (ms.map fun m => 28 + 4 * (m.rows * m.cols)).sum
  | [] => rfl
  | m :: ms => by
    rw [List.flatMap_cons, List.length_append, length_serMat, length_flatMap_serMat ms, List.map_cons, List.sum_cons]

theorem length_flatMap_le (xs : List F32) : (xs.flatMap (fun x => le 4 x.toNat)).length = 4 * xs.length := by
  induction xs with
  | nil => rfl
  | cons x l ih => simp only [List.flatMap_cons, List.length_append, length_le, ih, List.length_cons]; omega

/-- The bytes of all archives that differ from a given one in one coefficient. -/
theorem plain_split (e : Ext) {b : Buffer F32} (hb : WellFormed b) (hf : FitsFormat b) {n q i j : ℕ} {c : List (Mat F32)} {m : Mat F32}
    (hc : b.decs[n]? = some c) (hm : c[q]? = some m) (hi : i < m.rows) (hj : j < m.cols) :
    ∃ A B : Bytes, A.length = placeOf b n q i j ∧ ∀ (v : F32) (old : Bytes),
      serialize e ⟨b.params, putBand b.decs n q (putAt m (i * m.cols + j) v)⟩ old 0 = .ok (true, A ++ (le 4 v.toNat ++ B)) := by
  have hg : b.decs.getD n [] = c := by rw [List.getD_eq_getElem?_getD, hc, Option.getD_some]
  have hk : i * m.cols + j < m.data.length := by rw [m.wf]; nlinarith
  have hgm : (b.decs.getD n []).getD q Mat.empty = m := by rw [hg, List.getD_eq_getElem?_getD, hm, Option.getD_some]
  refine ⟨startBytes 3 b.params ++ ([0] ++ (((b.decs.take n).flatten ++ c.take q).flatMap serMat ++
    ([1, 1, 3, 4] ++ le 8 m.rows ++ le 8 m.cols ++ le 8 (m.rows * m.cols) ++ (m.data.take (i * m.cols + j)).flatMap (fun x => le 4 x.toNat)))),
    (m.data.drop (i * m.cols + j + 1)).flatMap (fun x => le 4 x.toNat) ++ (c.drop (q + 1) ++ (b.decs.drop (n + 1)).flatten).flatMap serMat, ?_, ?_⟩
  · unfold placeOf headerSize
    rw [hgm, hg]
    simp only [List.length_append, length_startBytes, List.flatMap_append, length_flatMap_serMat, length_flatMap_le, length_le,
      List.length_cons, List.length_nil, List.length_take, Nat.min_eq_left hk.le]
    omega
  · intro v old
    have hs := putBand_same (R := SameBut i j v) hc hm (putAt_sameBut hj v)
    have hb' := sameElsewhere_wellFormed (p := b.params) hs hb
    have h0 : effectiveLevel (Buffer.mk b.params (putBand b.decs n q (putAt m (i * m.cols + j) v))) 0 = 0 := by
      unfold effectiveLevel; split <;> rfl
    have := serialize_eq (e := e) hb' hf.2.2.1 old 0 (by rw [h0]; exact serSubbands_zero e _)
    rw [this, h0]
    congr 2
    simp only
    rw [flatten_putBand hc hm]
    simp only [blob3, List.flatMap_append, List.flatMap_cons, serMat, putAt]
    rw [List.set_eq_take_append_cons_drop, if_pos hk]
    simp [List.flatMap_append, List.flatMap_cons]

/-- Prescribed shapes are kept. -/
theorem sameElsewhere_shapes {R : Mat F32 → Mat F32 → Prop} (hR : ∀ m m', R m m' → EqualSides m m') {n q : ℕ} {p : Params} {d d' : Decs F32}
    (h : SameElsewhere R n q d d') (hs : ∀ c ∈ d, PrescribedShapes p c) : ∀ c ∈ d', PrescribedShapes p c := by
  intro c' hc'
  obtain ⟨n', hn', rfl⟩ := List.mem_iff_getElem.1 hc'
  have hn : n' < d.length := h.1 ▸ hn'
  obtain ⟨c'', h1, h2, h3⟩ := h.2 n' _ (List.getElem?_eq_getElem hn)
  rw [List.getElem?_eq_getElem hn'] at h1
  cases h1
  obtain ⟨g1, g2, g3⟩ := hs _ (List.getElem_mem hn)
  have key : ∀ (q' : ℕ) (m' : Mat F32), d'[n'][q']? = some m' → ∃ m : Mat F32, d[n'][q']? = some m ∧ EqualSides m m' := by
    intro q' m' hm'
    have hq : q' < d[n'].length := by rw [← h2]; exact (List.getElem?_eq_some_iff.1 hm').1
    obtain ⟨m'', k1, k2⟩ := h3 q' _ (List.getElem?_eq_getElem hq)
    rw [hm'] at k1
    cases k1
    refine ⟨_, List.getElem?_eq_getElem hq, ?_⟩
    split at k2
    · exact hR _ _ k2
    · rw [k2]; exact ⟨rfl, rfl⟩
  have shape : ∀ (sh : List ℕ) (m m' : Mat F32), EqualSides m m' → HasShape sh m → HasShape sh m' := by
    intro sh m m' hs hh
    match sh, hh with
    | [_], hh => exact ⟨hs.1.trans hh.1, hs.2.trans hh.2⟩
    | [_, _], hh => exact ⟨hs.1.trans hh.1, hs.2.trans hh.2⟩
  refine ⟨h2.trans g1, fun s hs j hj m' hm' => ?_, fun m' hm' => ?_⟩
  · obtain ⟨m, k1, k2⟩ := key _ _ hm'
    exact shape _ _ _ k2 (g2 s hs j hj m k1)
  · obtain ⟨m, k1, k2⟩ := key _ _ hm'
    exact shape _ _ _ k2 (g3 m k1)

/-! ### Readers with any outcome -/

/-- The reader uses up `s` and ends with `o`, whatever follows. -/
def Does {β : Type} (r : Rd β) (s : Bytes) (o : Outcome β) : Prop := ∀ t, r (s ++ t) = (o >>= fun x => .ok (x, t))

theorem Reads.does {β : Type} {u : Bool} {r : Rd β} {s : Bytes} {x : β} (h : Reads u r s x) : Does r s (.ok x) := fun t => by
  rw [h.full]; rfl

theorem Does.bind {β γ : Type} {r : Rd β} {f : β → Rd γ} {s s' : Bytes} {o : Outcome β} {g : β → Outcome γ} (hr : Does r s o)
    (hf : ∀ x, Does (f x) s' (g x)) : Does (Rd.bind r f) (s ++ s') (o >>= g) := by
  intro t
  unfold Rd.bind
  rw [List.append_assoc, hr]
  cases o with
  | ok x => exact hf x t
  | throw => rfl
  | ub => rfl

theorem Does.after {β γ : Type} {u : Bool} {r : Rd β} {f : β → Rd γ} {s s' : Bytes} {x : β} {o : Outcome γ} (hr : Reads u r s x)
    (hf : Does (f x) s' o) : Does (Rd.bind r f) (s ++ s') o := by
  intro t
  unfold Rd.bind
  rw [List.append_assoc, hr.full]
  exact hf t

theorem Does.lift {β : Type} (o : Outcome β) : Does (Rd.lift o) [] o := fun t => by
  rw [List.nil_append]; unfold Rd.lift; cases o <;> rfl

theorem Does.map {β γ : Type} {r : Rd β} {s : Bytes} {o : Outcome β} (h : Does r s o) (f : β → γ) :
    Does (Rd.bind r fun x => Rd.pure (f x)) s (o >>= fun x => .ok (f x)) := by
  have := h.bind (f := fun x => Rd.pure (f x)) (s' := []) (g := fun x => .ok (f x)) fun x t => rfl
  simpa using this

theorem rdBind_assoc {β γ δ : Type} (r : Rd β) (f : β → Rd γ) (g : γ → Rd δ) :
    Rd.bind (Rd.bind r f) g = Rd.bind r fun x => Rd.bind (f x) g := by
  funext s
  unfold Rd.bind
  cases r s <;> rfl

theorem rdBind_pure_left {β γ : Type} (x : β) (f : β → Rd γ) : Rd.bind (Rd.pure x) f = f x := rfl

theorem rdMany_add {β : Type} (r : Rd β) (b : ℕ) : ∀ a, rdMany r (a + b) =
    Rd.bind (rdMany r a) fun xs => Rd.bind (rdMany r b) fun ys => Rd.pure (xs ++ ys)
  | 0 => by
    rw [Nat.zero_add, rdMany, rdBind_pure_left]
    funext s
    simp only [List.nil_append]
    unfold Rd.bind
    cases rdMany r b s <;> rfl
  | a + 1 => by
    rw [Nat.succ_add, rdMany, rdMany, rdMany_add r b a]
    simp only [rdBind_assoc, rdBind_pure_left, List.cons_append]

theorem rdLayout_append (r : Rd (Mat F32)) (b : Decs F32) : ∀ a, rdLayout r (a ++ b) =
    Rd.bind (rdLayout r a) fun xs => Rd.bind (rdLayout r b) fun ys => Rd.pure (xs ++ ys)
  | [] => by
    rw [List.nil_append, rdLayout, rdBind_pure_left]
    funext s
    simp only [List.nil_append]
    unfold Rd.bind
    cases rdLayout r b s <;> rfl
  | l :: a => by
    rw [List.cons_append, rdLayout, rdLayout, rdLayout_append r b a]
    simp only [rdBind_assoc, rdBind_pure_left, List.cons_append]

/-- A list read one by one, with any outcome for one element. -/
theorem does_many {β : Type} {r : Rd β} {s P S : Bytes} {o : Outcome β} {a b : ℕ} {pre post : List β} (h : Does r s o)
    (hpre : Reads false (rdMany r a) P pre) (hpost : Reads false (rdMany r b) S post) :
    Does (rdMany r (a + (b + 1))) (P ++ (s ++ S)) (o >>= fun x => .ok (pre ++ x :: post)) := by
  rw [rdMany_add]
  refine Does.after hpre ?_
  have : Does (rdMany r (b + 1)) (s ++ S) (o >>= fun x => .ok (x :: post)) :=
    h.bind fun x => hpost.does.map (fun xs => x :: xs)
  have := this.map (fun ys => pre ++ ys)
  cases o <;> exact this

/-- A layout read band by band, with any outcome for one band. -/
theorem does_layout {r : Rd (Mat F32)} {s P S P' S' : Bytes} {o : Outcome (Mat F32)} {L1 L2 d1 d2 : Decs F32} {l c1 c2 : List (Mat F32)}
    {a b : ℕ} (h : Does r s o) (hpre : Reads false (rdMany r a) P c1) (hpost : Reads false (rdMany r b) S c2)
    (h1 : Reads false (rdLayout r L1) P' d1) (h2 : Reads false (rdLayout r L2) S' d2) (hl : l.length = a + (b + 1)) :
    Does (rdLayout r (L1 ++ l :: L2)) (P' ++ ((P ++ (s ++ S)) ++ S')) (o >>= fun x => .ok (d1 ++ (c1 ++ x :: c2) :: d2)) := by
  rw [rdLayout_append]
  refine Does.after h1 ?_
  have : Does (rdLayout r (l :: L2)) ((P ++ (s ++ S)) ++ S') (o >>= fun x => .ok ((c1 ++ x :: c2) :: d2)) := by
    have h3 := does_many h hpre hpost
    rw [← hl] at h3
    have := h3.bind (f := fun x => Rd.bind (rdLayout r L2) fun xs => Rd.pure (x :: xs)) (s' := S') (g := fun x => .ok (x :: d2))
      fun x => h2.does.map (fun xs => x :: xs)
    cases o <;> exact this
  have := this.map (fun ys => d1 ++ ys)
  cases o <;> exact this

/-- What becomes of a blob whose body has a given outcome. -/
theorem parse_does {e : Ext} {p : Params} (hv : ValidParams p) (hs : ∀ n ∈ p.shape, n < 2 ^ 64)
    (hn : p.signalNumber < 2 ^ 64) (hw : p.wtype < 8) (ha : e.alloc 1 p.shape.length = .ok ())
    (hb : e.alloc p.signalNumber (subbandCount p) = .ok ()) {l : UInt8} {body : Bytes} {o : Outcome (Decs F32)}
    (h : Does (rdLayout (rdSubband e l.toNat) (emptyBuffer p).decs) body o) :
    (o = .ub → parse e (blob3 p l body) = .ub) ∧ (o = .throw → parse e (blob3 p l body) = .ok none) ∧
      ∀ d, o = .ok d → parse e (blob3 p l body) = .ok (some ⟨p, d⟩) := by
  have key : parse e (blob3 p l body) = caught (o >>= fun d => .ok (some ⟨p, d⟩, [])) := by
    rw [parse_blob3]
    unfold parseV3 blob3
    simp only [Rd.bind]
    rw [rdHeader_full hv hs hn hw ha hb, Outcome.bind_ok]
    simp only [useLevel]
    have := h []
    rw [List.append_nil] at this
    rw [this]
    cases o <;> rfl
  rw [key]
  exact ⟨fun h => by rw [h]; rfl, fun h => by rw [h]; rfl, fun d h => by rw [h]; rfl⟩

/-- A compressed subband is read from its payloads, whatever they are. -/
theorem does_archived {e : Ext} {M sf nz r c : ℕ} {w1 w2 : Bytes} (hM : Room e M) (hsf : sf ≠ 0) (hn : nz < 2 ^ 64) (hr : r < 2 ^ 64)
    (hc : c < 2 ^ 64) (h1 : w1.length < 2 ^ 64) (h2 : w2.length < 2 ^ 64) (hw1 : w1.length ≤ M) (hw2 : w2.length ≤ M) :
    Does (rdSubband e sf) (serArchived ⟨nz, r, c, w1, w2⟩) (decompress e ⟨nz, r, c, w1, w2⟩) := by
  have : serArchived ⟨nz, r, c, w1, w2⟩ = le 8 nz ++ (le 8 r ++ (le 8 c ++ (serBytes w1 ++ (serBytes w2 ++ [])))) := by simp [serArchived]
  rw [this]
  unfold rdSubband
  rw [if_neg hsf]
  exact Does.after (reads_checked (by norm_num at hn ⊢; omega)) (Does.after (reads_checked (by norm_num at hr ⊢; omega))
    (Does.after (reads_checked (by norm_num at hc ⊢; omega)) (Does.after (reads_bytes h1 (hM _ _ (by omega)))
      (Does.after (reads_bytes h2 (hM _ _ (by omega))) (Does.lift _)))))

theorem decompress_sides {e : Ext} {nz r c : ℕ} {w1 w2 : Bytes} {m : Mat F32} (h : decompress e ⟨nz, r, c, w1, w2⟩ = .ok m) :
    m.rows = r ∧ m.cols = c := by
  unfold decompress at h
  obtain ⟨_, _, h⟩ := bind_eq_ok h
  obtain ⟨is, _, h⟩ := bind_eq_ok h
  obtain ⟨vs, _, h⟩ := bind_eq_ok h
  unfold fromCSR at h
  obtain ⟨_, _, h⟩ := bind_eq_ok h
  have key : ∀ (l : List ℕ) (m0 m1 : Mat F32), l.foldlM (fun m n => do
      let i ← rd is n
      let v ← rd vs n
      putEntry m (i, v)) m0 = .ok m1 → m1.rows = m0.rows ∧ m1.cols = m0.cols := by
    intro l
    induction l with
    | nil => intro m0 m1 h; cases h; exact ⟨rfl, rfl⟩
    | cons x l ih =>
      intro m0 m1 h
      rw [List.foldlM_cons] at h
      obtain ⟨m2, h1, h2⟩ := bind_eq_ok h
      obtain ⟨i, _, h1⟩ := bind_eq_ok h1
      obtain ⟨v, _, h1⟩ := bind_eq_ok h1
      have := ih m2 m1 h2
      unfold putEntry at h1
      split at h1
      · cases h1
      · split at h1
        · cases h1
        · cases h1
          exact this
  have := key _ _ _ h
  exact this

theorem range_mul_flatMap (c : ℕ) : ∀ r, List.range (r * c) = (List.range r).flatMap fun i => (List.range c).map (i * c + ·)
  | 0 => by simp
  | r + 1 => by
    rw [Nat.succ_mul, List.range_add, range_mul_flatMap c r, List.range_succ, List.flatMap_append]
    simp

theorem entries_positions (m : Mat F32) : (entries m).map Prod.fst =
    (List.range (m.rows * m.cols)).filter (fun k => !isZeroPattern (m.data.getD k 0)) := by
  unfold entries
  rw [range_mul_flatMap, List.map_flatMap, List.filter_flatMap]
  apply List.flatMap_congr
  intro i hi
  rw [List.map_filterMap, List.filter_map, ← List.filterMap_eq_map, ← List.filterMap_eq_filter, List.filterMap_filterMap]
  apply List.filterMap_congr
  intro j hj
  have hk : i * m.cols + j < m.data.length := by
    rw [m.wf]; exact Mat.idx_lt (List.mem_range.1 hi) (List.mem_range.1 hj)
  have : m.data[i * m.cols + j]?.getD 0#32 = m.get i j := by
    unfold Mat.get
    rw [List.getD_eq_getElem _ _ hk, List.getElem?_eq_getElem hk, Option.getD_some]
  cases hz : F32.isZero (m.get i j) <;> simp [Option.guard, isZero_eq, this, hz]

end WB
