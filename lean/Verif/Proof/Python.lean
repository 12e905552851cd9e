import Verif.Spec.Python
import Verif.Proof.Serialize

/-! Lemmas about NumPy arrays. -/

namespace WB.Py

open WB WB.Spec

theorem floatAt_of_has {mem : Bytes} {pos : ℤ} {x : F32} (h : HasFloat mem pos x) : floatAt mem pos = .ok x := by
  obtain ⟨n, b0, b1, b2, b3, rfl, h0, h1, h2, h3, hx⟩ := h
  have hl : n + 3 < mem.length := (List.getElem?_eq_some_iff.1 h3).1
  unfold floatAt
  rw [if_pos (by omega), Int.toNat_natCast]
  have hd : mem.drop n = b0 :: b1 :: b2 :: b3 :: mem.drop (n + 4) := by
    rw [List.drop_eq_getElem_cons (by omega), List.drop_eq_getElem_cons (by omega), List.drop_eq_getElem_cons (by omega),
      List.drop_eq_getElem_cons (by omega)]
    rw [List.getElem?_eq_getElem (by omega)] at h0 h1 h2 h3
    rw [Option.some.injEq] at h0 h1 h2 h3
    rw [h0, h1, h2, h3]
  rw [hd]
  congr 1
  apply BitVec.eq_of_toNat_eq
  have := x.isLt
  simp only [List.take_succ_cons, List.take_zero, fromLE, BitVec.toNat_ofNat]
  omega

theorem has_of_floatAt {mem : Bytes} {pos : ℤ} {x : F32} (h : floatAt mem pos = .ok x) : HasFloat mem pos x := by
  unfold floatAt at h
  split at h
  next hp =>
    obtain ⟨n, rfl⟩ : ∃ n : ℕ, pos = n := ⟨pos.toNat, by omega⟩
    rw [Int.toNat_natCast] at h
    have hl : n + 4 ≤ mem.length := by omega
    refine ⟨n, mem[n], mem[n + 1], mem[n + 2], mem[n + 3], rfl, List.getElem?_eq_getElem _, List.getElem?_eq_getElem _,
      List.getElem?_eq_getElem _, List.getElem?_eq_getElem _, ?_⟩
    have hd : mem.drop n = mem[n] :: mem[n + 1] :: mem[n + 2] :: mem[n + 3] :: mem.drop (n + 4) := by
      rw [List.drop_eq_getElem_cons (by omega), List.drop_eq_getElem_cons (by omega), List.drop_eq_getElem_cons (by omega),
        List.drop_eq_getElem_cons (by omega)]
    rw [hd] at h
    simp only [List.take_succ_cons, List.take_zero, fromLE] at h
    cases h
    have h0 := mem[n].toNat_lt
    have h1 := mem[n + 1].toNat_lt
    have h2 := mem[n + 2].toNat_lt
    have h3 := mem[n + 3].toNat_lt
    rw [BitVec.toNat_ofNat]
    omega
  next => cases h

theorem floatAt_ok {mem : Bytes} {pos : ℤ} (h0 : 0 ≤ pos) (h : pos + 4 ≤ mem.length) : ∃ x, floatAt mem pos = .ok x :=
  ⟨_, if_pos ⟨h0, h⟩⟩

theorem length_floatBytes (xs : List F32) : (floatBytes xs).length = 4 * xs.length := by
  induction xs with
  | nil => rfl
  | cons x xs ih =>
    unfold floatBytes at ih ⊢
    rw [List.flatMap_cons, List.length_append, ih]
    simp [le]
    omega

theorem drop_floatBytes (xs : List F32) (k : ℕ) : (floatBytes xs).drop (4 * k) = floatBytes (xs.drop k) := by
  induction k generalizing xs with
  | zero => simp
  | succ k ih =>
    cases xs with
    | nil => simp [floatBytes]
    | cons x xs =>
      rw [List.drop_succ_cons, ← ih xs]
      unfold floatBytes
      rw [List.flatMap_cons, show 4 * (k + 1) = (le 4 x.toNat).length + 4 * k by simp [le]; omega, List.drop_append]
      simp

theorem floatAt_floatBytes (xs : List F32) (k : ℕ) (h : k < xs.length) : floatAt (floatBytes xs) (4 * k) = .ok xs[k] := by
  unfold floatAt
  have hl := length_floatBytes xs
  rw [if_pos (by omega), show (4 * (k : ℤ)).toNat = 4 * k by omega, drop_floatBytes, List.drop_eq_getElem_cons h]
  unfold floatBytes
  rw [List.flatMap_cons, List.take_append_of_le_length (by simp [le]), List.take_of_length_le (by simp [le]),
    fromLE_le_of_lt (n := 4) (x := xs[k].toNat) (by have := xs[k].isLt; norm_num at this ⊢; omega)]
  simp

theorem fillMat_ok {h w : ℕ} {f : ℕ → ℕ → Outcome F32} {g : ℕ → ℕ → F32} (hf : ∀ i < h, ∀ j < w, f i j = .ok (g i j)) :
    fillMat h w f = .ok (Mat.ofFn h w g) := by
  unfold fillMat
  have hdm : ∀ k < h * w, k / w < h ∧ k % w < w := by
    intro k hk
    have hw : 0 < w := Nat.pos_of_ne_zero (by rintro rfl; omega)
    exact ⟨Nat.div_lt_of_lt_mul (by rwa [Nat.mul_comm] at hk), Nat.mod_lt _ hw⟩
  rw [Outcome.mapM_ok (g := fun k => g (k / w) (k % w)) (fun k hk => hf _ (hdm k (List.mem_range.1 hk)).1 _ (hdm k (List.mem_range.1 hk)).2),
    Outcome.bind_ok]
  show Outcome.ok _ = _
  congr 1
  refine Mat.ofFn_congr fun i hi j hj => ?_
  have hlt := Mat.idx_lt hi hj
  simp [List.getD, hlt, Mat.idx_div hj, Mat.idx_mod hj]

theorem mapM_inv {β γ : Type} {f : β → Outcome γ} {l : List β} {r : List γ} (h : l.mapM f = .ok r) :
    r.length = l.length ∧ ∀ (i : ℕ) (x : β), l[i]? = some x → ∃ y, r[i]? = some y ∧ f x = .ok y := by
  induction l generalizing r with
  | nil => cases h; simp
  | cons z l ih =>
    rw [List.mapM_cons] at h
    cases hx : f z with
    | throw => rw [hx] at h; cases h
    | ub => rw [hx] at h; cases h
    | ok y =>
      rw [hx, Outcome.bind_ok] at h
      cases hl : l.mapM f with
      | throw => rw [hl] at h; cases h
      | ub => rw [hl] at h; cases h
      | ok ys =>
        rw [hl] at h
        cases h
        obtain ⟨h1, h2⟩ := ih hl
        refine ⟨by simp [h1], fun i x hi => ?_⟩
        cases i with
        | zero =>
          rw [List.getElem?_cons_zero, Option.some.injEq] at hi
          subst hi
          exact ⟨y, rfl, hx⟩
        | succ i => exact h2 i x hi

theorem fillMat_inv {h w : ℕ} {f : ℕ → ℕ → Outcome F32} {m : Mat F32} (hm : fillMat h w f = .ok m) :
    m.rows = h ∧ m.cols = w ∧ ∀ i < h, ∀ j < w, f i j = .ok (m.get i j) := by
  unfold fillMat at hm
  cases hx : (List.range (h * w)).mapM fun k => f (k / w) (k % w) with
  | throw => rw [hx] at hm; cases hm
  | ub => rw [hx] at hm; cases hm
  | ok xs =>
    rw [hx, Outcome.bind_ok] at hm
    cases hm
    refine ⟨rfl, rfl, fun i hi j hj => ?_⟩
    obtain ⟨h1, h2⟩ := mapM_inv hx
    obtain ⟨y, h3, h4⟩ := h2 (i * w + j) (i * w + j) (by simp [Mat.idx_lt hi hj])
    rw [Mat.idx_div hj, Mat.idx_mod hj] at h4
    rw [h4, Mat.get_ofFn hi hj]
    simp [List.getD, h3]

theorem toSignal_inv {a : NpArray} {c h w : ℕ} {ms : List (Mat F32)} (hs : a.shape = [c, h, w]) (ho : toSignal a = .ok ms) :
    ms.length = c ∧ ∀ (ch : ℕ) (m : Mat F32), ms[ch]? = some m → m.rows = h ∧ m.cols = w ∧
      ∀ i < h, ∀ j < w, floatAt a.mem (a.start + 4 * ((h * w * ch + w * i + j : ℕ) : ℤ)) = .ok (m.get i j) := by
  unfold toSignal at ho
  rw [hs] at ho
  simp only at ho
  split at ho
  · cases ho
  · split at ho
    · cases ho
    · obtain ⟨h1, h2⟩ := mapM_inv ho
      rw [List.length_range] at h1
      refine ⟨h1, fun ch m hm => ?_⟩
      have hch : ch < c := by rw [← h1]; exact (List.getElem?_eq_some_iff.1 hm).1
      obtain ⟨y, h3, h4⟩ := h2 ch ch (by simp [hch])
      rw [hm] at h3
      cases h3
      exact fillMat_inv h4

theorem elementPos3 (a : NpArray) (s0 s1 s2 : ℤ) (hs : a.strides = [s0, s1, s2]) (ch i j : ℕ) :
    elementPos a [ch, i, j] = a.start + (s0 * ch + (s1 * i + s2 * j)) := by
  unfold elementPos
  rw [hs]
  simp

theorem hasFloat_unique {mem : Bytes} {pos : ℤ} {x y : F32} (hx : HasFloat mem pos x) (hy : HasFloat mem pos y) : x = y := by
  have h := floatAt_of_has hx
  rw [floatAt_of_has hy] at h
  cases h
  rfl

theorem represents_unique {a : NpArray} {ms ms' : List (Mat F32)} (h : Represents a ms) (h' : Represents a ms') : ms = ms' := by
  obtain ⟨h1, w1, hs1, he1⟩ := h
  obtain ⟨h2, w2, hs2, he2⟩ := h'
  rw [hs1] at hs2
  simp only [List.cons.injEq, and_true] at hs2
  obtain ⟨hl, rfl, rfl⟩ := hs2
  apply List.ext_getElem hl
  intro ch hc hc'
  obtain ⟨a1, a2, a3⟩ := he1 ch _ (List.getElem?_eq_getElem hc)
  obtain ⟨b1, b2, b3⟩ := he2 ch _ (List.getElem?_eq_getElem hc')
  refine Mat.ext' (a1.trans b1.symm) (a2.trans b2.symm) fun i hi j hj => ?_
  rw [a1] at hi
  rw [a2] at hj
  exact hasFloat_unique (a3 i hi j hj) (b3 i hi j hj)

theorem index_lt {c h w ch i j : ℕ} (hc : ch < c) (hi : i < h) (hj : j < w) : h * w * ch + w * i + j < c * (h * w) := by
  have h1 := Mat.idx_lt hi hj
  have h2 := Mat.idx_lt hc h1
  rw [Nat.mul_comm (h * w) ch, Nat.mul_comm w i]
  omega

theorem toSignal_ok {a : NpArray} {c h w : ℕ} (hc : Contiguous3 a c h w) (hw : a.writable = true) (h1 : c < 2 ^ 31) (h2 : h < 2 ^ 31)
    (h3 : w < 2 ^ 31) : ∃ ms, toSignal a = .ok ms ∧ Represents a ms := by
  obtain ⟨hs, hst, h0, hl⟩ := hc
  have hval : ∀ k, ∃ x, k < c * (h * w) → a.float k = .ok x := by
    intro k
    by_cases hk : k < c * (h * w)
    · obtain ⟨x, hx⟩ := floatAt_ok (mem := a.mem) (pos := a.start + 4 * (k : ℤ)) (by omega) (by omega)
      exact ⟨x, fun _ => hx⟩
    · exact ⟨0, fun h => absurd h hk⟩
  choose v hv using hval
  have hrun : toSignal a = .ok ((List.range c).map fun ch => Mat.ofFn h w fun i j => v (h * w * ch + w * i + j)) := by
    unfold toSignal
    rw [hs]
    simp only
    rw [if_neg (by simp [hw]), if_neg (by omega)]
    refine Outcome.mapM_ok fun ch hch => ?_
    exact fillMat_ok fun i hi j hj => hv _ (index_lt (List.mem_range.1 hch) hi hj)
  refine ⟨_, hrun, h, w, by simp [hs], fun ch m hm => ?_⟩
  obtain ⟨_, e⟩ := toSignal_inv hs hrun
  obtain ⟨e1, e2, e3⟩ := e ch m hm
  refine ⟨e1, e2, fun i hi j hj => ?_⟩
  unfold HasElement
  rw [elementPos3 a _ _ _ hst]
  have := has_of_floatAt (e3 i hi j hj)
  push_cast at this ⊢
  rw [show 4 * ((h : ℤ) * w) * ch + (4 * (w : ℤ) * i + 4 * j) = 4 * ((h : ℤ) * w * ch + w * i + j) by ring]
  exact this

theorem getElem_flatMap_data {n : ℕ} : ∀ (ms : List (Mat F32)), (∀ m ∈ ms, m.data.length = n) →
    ∀ (ch : ℕ) (m : Mat F32) (r : ℕ), ms[ch]? = some m → r < n → (ms.flatMap Mat.data)[ch * n + r]? = m.data[r]?
  | [], _, _, _, _, h, _ => by simp at h
  | m0 :: ms, hl, ch, m, r, h, hr => by
    have h0 := hl m0 (by simp)
    rw [List.flatMap_cons]
    cases ch with
    | zero =>
      rw [List.getElem?_cons_zero, Option.some.injEq] at h
      subst h
      rw [Nat.zero_mul, Nat.zero_add, List.getElem?_append_left (by omega)]
    | succ ch =>
      rw [List.getElem?_append_right (by rw [h0, Nat.succ_mul]; omega), h0,
        show (ch + 1) * n + r - n = ch * n + r by rw [Nat.succ_mul]; omega]
      exact getElem_flatMap_data ms (fun m hm => hl m (by simp [hm])) ch m r h hr

theorem get_data {m : Mat F32} {i j : ℕ} (hi : i < m.rows) (hj : j < m.cols) : m.data[i * m.cols + j]? = some (m.get i j) := by
  have h := Mat.idx_lt hi hj
  rw [← m.wf] at h
  unfold Mat.get
  simp [List.getD, h]

theorem length_flatMap_data {n : ℕ} (ms : List (Mat F32)) (hl : ∀ m ∈ ms, m.data.length = n) :
    (ms.flatMap Mat.data).length = ms.length * n := by
  induction ms with
  | nil => simp
  | cons m ms ih =>
    rw [List.flatMap_cons, List.length_append, ih fun m hm => hl m (by simp [hm]), hl m (by simp), List.length_cons]
    ring

theorem ofSignal_ok {ms : List (Mat F32)} {h w : ℕ} (hne : ms ≠ []) (hsz : ∀ m ∈ ms, m.rows = h ∧ m.cols = w) (h1 : ms.length < 2 ^ 31)
    (h2 : h < 2 ^ 31) (h3 : w < 2 ^ 31) :
    ∃ a, ofSignal ms = .ok a ∧ Contiguous3 a ms.length h w ∧ a.writable = true ∧ Represents a ms := by
  have hd : ∀ m ∈ ms, m.data.length = h * w := fun m hm => by rw [m.wf, (hsz m hm).1, (hsz m hm).2]
  obtain ⟨m0, rest, rfl⟩ := List.exists_cons_of_ne_nil hne
  obtain ⟨e1, e2⟩ := hsz m0 (by simp)
  have hfill : ((m0 :: rest).mapM fun m => fillMat h w fun i j => if i < m.rows ∧ j < m.cols then .ok (m.get i j) else .ub) =
      .ok (m0 :: rest) := by
    rw [Outcome.mapM_ok (g := id), List.map_id]
    intro m hm
    obtain ⟨f1, f2⟩ := hsz m hm
    rw [fillMat_ok (g := m.get) (fun i hi j hj => by rw [f1, f2, if_pos ⟨hi, hj⟩])]
    conv_rhs => rw [id, ← Mat.ofFn_get m, f1, f2]
  have hrun : ofSignal (m0 :: rest) = .ok ⟨floatBytes ((m0 :: rest).flatMap Mat.data), 0, [(m0 :: rest).length, h, w],
      [4 * (h * w), 4 * w, 4], 4, true⟩ := by
    unfold ofSignal
    simp only [e1, e2]
    rw [if_neg (by omega), hfill]
    rfl
  have hlen := length_flatMap_data _ hd
  refine ⟨_, hrun, ⟨rfl, by push_cast; rfl, le_refl _, ?_⟩, rfl, h, w, rfl, fun ch m hm => ?_⟩
  · rw [length_floatBytes, hlen]
    push_cast
    omega
  · have hmem := List.mem_of_getElem? hm
    obtain ⟨f1, f2⟩ := hsz m hmem
    refine ⟨f1, f2, fun i hi j hj => ?_⟩
    unfold HasElement
    rw [elementPos3 _ _ _ _ rfl]
    apply has_of_floatAt
    have hlt := Mat.idx_lt hi hj
    have hget := getElem_flatMap_data _ hd ch m (i * w + j) hm hlt
    have hgd := get_data (m := m) (i := i) (j := j) (by omega) (by omega)
    rw [f2] at hgd
    rw [hgd] at hget
    obtain ⟨hk, hk2⟩ := List.getElem?_eq_some_iff.1 hget
    rw [← hk2, ← floatAt_floatBytes _ _ hk]
    congr 1
    push_cast
    ring

theorem elementPos2 (a : NpArray) (s0 s1 : ℤ) (hs : a.strides = [s0, s1]) (i j : ℕ) :
    elementPos a [i, j] = a.start + (s0 * i + s1 * j) := by
  unfold elementPos
  rw [hs]
  simp

theorem ofSubband_ok {m : Mat F32} (h1 : m.rows < 2 ^ 31) (h2 : m.cols < 2 ^ 31) :
    ∃ a, ofSubband m = .ok a ∧ a.writable = true ∧ RepresentsMat a m ∧ toSubband a = .ok m := by
  have hget : ∀ i < m.rows, ∀ j < m.cols, floatAt (floatBytes m.data) (0 + 4 * ((m.cols * i + j : ℕ) : ℤ)) = .ok (m.get i j) := by
    intro i hi j hj
    have hgd := get_data hi hj
    obtain ⟨hk, hk2⟩ := List.getElem?_eq_some_iff.1 hgd
    rw [← hk2, ← floatAt_floatBytes _ _ hk, Nat.mul_comm m.cols i, Int.zero_add]
  refine ⟨⟨floatBytes m.data, 0, [m.rows, m.cols], [4 * m.cols, 4], 4, true⟩, if_neg (by omega), rfl, ⟨rfl, fun i hi j hj => ?_⟩, ?_⟩
  · unfold HasElement
    rw [elementPos2 _ _ _ rfl]
    apply has_of_floatAt
    rw [← hget i hi j hj]
    congr 1
    push_cast
    ring
  · unfold toSubband
    simp only
    rw [if_neg (by simp), if_neg (by omega)]
    exact (fillMat_ok (g := m.get) hget).trans (by rw [Mat.ofFn_get])

theorem mapM_mapM_ok {β γ δ : Type} {f : β → Outcome γ} {g : γ → Outcome δ} {t : β → δ} {l : List β}
    (h : ∀ x ∈ l, ∃ y, f x = .ok y ∧ g y = .ok (t x)) : ∃ ys, l.mapM f = .ok ys ∧ ys.mapM g = .ok (l.map t) ∧ ys.length = l.length := by
  induction l with
  | nil => exact ⟨[], rfl, rfl, rfl⟩
  | cons x l ih =>
    obtain ⟨y, h1, h2⟩ := h x (by simp)
    obtain ⟨ys, h3, h4, h5⟩ := ih fun z hz => h z (by simp [hz])
    refine ⟨y :: ys, ?_, ?_, by simp [h5]⟩
    · rw [List.mapM_cons, h1, Outcome.bind_ok, h3]
      rfl
    · rw [List.mapM_cons, h2, Outcome.bind_ok, h4]
      rfl

theorem ofDecs_ok {d : Decs F32} (h : ∀ c ∈ d, ∀ m ∈ c, m.rows < 2 ^ 31 ∧ m.cols < 2 ^ 31) :
    ∃ ds, ofDecs d = .ok ds ∧ (ds.mapM fun c => c.mapM toSubband) = .ok d ∧ ds.length = d.length := by
  unfold ofDecs
  have := mapM_mapM_ok (f := fun c : Channel F32 => c.mapM ofSubband) (g := fun c => c.mapM toSubband) (t := id) (l := d) fun c hc => by
    obtain ⟨ys, h1, h2, _⟩ := mapM_mapM_ok (f := ofSubband) (g := toSubband) (t := id) (l := c) fun m hm => by
      obtain ⟨a, e1, _, _, e2⟩ := ofSubband_ok (h c hc m hm).1 (h c hc m hm).2
      exact ⟨a, e1, e2⟩
    refine ⟨ys, h1, ?_⟩
    rw [h2, List.map_id]
    rfl
  rwa [List.map_id] at this

section Slices
variable {α : Type}

theorem getItem_eq (b : Buffer α) (start stop step : Option ℤ) (hs : step.getD 1 = 1) :
    ∃ lo hi : ℕ, lo ≤ b.params.signalNumber ∧ hi ≤ b.params.signalNumber ∧
      getItem b start stop step = (if lo = hi then .throw else .ok ⟨lo, (hi : ℤ) - lo, false⟩) ∧
      ∀ i, InSlice b.params.signalNumber start stop i ↔ lo ≤ i ∧ i < hi := by
  have hclamp : ∀ x : ℤ, ∃ y : ℕ, y ≤ b.params.signalNumber ∧
      (if x < 0 then (if x + b.params.signalNumber < 0 then 0 else x + b.params.signalNumber)
        else if (b.params.signalNumber : ℤ) ≤ x then (b.params.signalNumber : ℤ) else x) = y ∧
      ∀ i : ℕ, i < b.params.signalNumber → ((if x < 0 then x + b.params.signalNumber else x) ≤ i ↔ y ≤ i) := by
    intro x
    refine ⟨(if x < 0 then (if x + b.params.signalNumber < 0 then 0 else x + b.params.signalNumber)
        else if (b.params.signalNumber : ℤ) ≤ x then (b.params.signalNumber : ℤ) else x).toNat, ?_, ?_, fun i hi => ?_⟩ <;> split_ifs <;> omega
  have hlo : ∃ lo : ℕ, lo ≤ b.params.signalNumber ∧ start.elim (if (1 : ℤ) < 0 then (b.params.signalNumber : ℤ) - 1 else 0)
        (fun x => if x < 0 then (if x + b.params.signalNumber < 0 then (if (1 : ℤ) < 0 then -1 else 0) else x + b.params.signalNumber)
            else if (b.params.signalNumber : ℤ) ≤ x then (if (1 : ℤ) < 0 then (b.params.signalNumber : ℤ) - 1 else b.params.signalNumber) else x) = (lo : ℤ) ∧
      ∀ i : ℕ, i < b.params.signalNumber → ((∀ x, start = some x → (if x < 0 then x + (b.params.signalNumber : ℤ) else x) ≤ i) ↔ lo ≤ i) := by
    cases start with
    | none => exact ⟨0, Nat.zero_le _, by simp, by simp⟩
    | some x =>
      obtain ⟨y, h1, h2, h3⟩ := hclamp x
      exact ⟨y, h1, by simpa using h2, fun i hi => by simpa using h3 i hi⟩
  have hhi : ∃ hi : ℕ, hi ≤ b.params.signalNumber ∧ stop.elim (if (1 : ℤ) < 0 then -1 else (b.params.signalNumber : ℤ))
        (fun x => if x < 0 then (if x + b.params.signalNumber < 0 then (if (1 : ℤ) < 0 then -1 else 0) else x + b.params.signalNumber)
            else if (b.params.signalNumber : ℤ) ≤ x then (if (1 : ℤ) < 0 then (b.params.signalNumber : ℤ) - 1 else b.params.signalNumber) else x) = (hi : ℤ) ∧
      ∀ i : ℕ, i < b.params.signalNumber → ((∀ x, stop = some x → (i : ℤ) < if x < 0 then x + (b.params.signalNumber : ℤ) else x) ↔ i < hi) := by
    cases stop with
    | none => exact ⟨b.params.signalNumber, le_refl _, by simp, fun i hi => by simp [hi]⟩
    | some x =>
      obtain ⟨y, h1, h2, h3⟩ := hclamp x
      refine ⟨y, h1, by simpa using h2, fun i hi => ?_⟩
      have := h3 i hi
      constructor
      · intro h
        have := h x rfl
        omega
      · rintro h z ⟨⟩
        omega
  obtain ⟨lo, l1, l2, l3⟩ := hlo
  obtain ⟨hi, r1, r2, r3⟩ := hhi
  refine ⟨lo, hi, l1, r1, ?_, fun i => ?_⟩
  · unfold getItem resolve
    simp only [hs]
    rw [if_neg (by omega), Outcome.bind_ok]
    simp only
    rw [if_neg (by omega)]
    rw [l2, r2]
    by_cases h : lo = hi
    · rw [if_pos h, if_pos (by omega)]
    · rw [if_neg h, if_neg (by omega)]
      rfl
  · unfold InSlice
    constructor
    · rintro ⟨h1, h2, h3⟩
      exact ⟨(l3 i h1).1 h2, (r3 i h1).1 h3⟩
    · rintro ⟨h1, h2⟩
      have h0 : i < b.params.signalNumber := by omega
      exact ⟨h0, (l3 i h0).2 h1, (r3 i h0).2 h2⟩

end Slices

end WB.Py
