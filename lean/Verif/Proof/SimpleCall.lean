import Verif.Spec.SimpleCall
import Verif.Proof.FloatDenoise
import Verif.Proof.Callback
import Verif.Proof.AnyOrder

/-! The simple denoiser and NaN. -/

namespace WB.Props

open Spec

theorem isNaN_iff (x : F32) : isNaN x ↔ NotANumber x := by
  have := x.isLt
  unfold isNaN expBits NotANumber
  constructor
  · rintro ⟨h1, h2⟩; omega
  · intro h; constructor <;> omega

/-- `Sortable` in the words of the model. -/
theorem sortable_iff (data : List F32) : Sortable data ↔
    (∀ x ∈ data, ¬ isNaN x) ∨ ∀ x ∈ data, ∀ y ∈ data, ¬ isNaN x → ¬ isNaN y → |number x| = |number y| := by
  simp only [isNaN_iff]
  rfl

theorem isNaN_abs (x : F32) : isNaN (absBits x) ↔ isNaN x := by
  have := x.isLt
  unfold isNaN expBits absBits
  rw [BitVec.toNat_ofNat]
  constructor
  · rintro ⟨h1, h2⟩; constructor <;> omega
  · rintro ⟨h1, h2⟩; constructor <;> omega

theorem larger_iff {o : FloatOps} {δ : Type} (a b : F32 × δ) : largerFirst o a b ↔ ¬ isNaN b.1 ∧ ¬ isNaN a.1 ∧ number b.1 < number a.1 := Iff.rfl

/-- When "larger first" is an ordering. -/
theorem strictWeak_iff (o : FloatOps) {δ : Type} (v : List (F32 × δ)) : StrictWeakOn (largerFirst o) v ↔
    (∀ t ∈ v, ¬ isNaN t.1) ∨ ∀ s ∈ v, ∀ t ∈ v, ¬ isNaN s.1 → ¬ isNaN t.1 → number s.1 = number t.1 := by
  constructor
  · intro h
    by_cases hn : ∀ t ∈ v, ¬ isNaN t.1
    · exact Or.inl hn
    right
    push Not at hn
    obtain ⟨z, hz, hzn⟩ := hn
    intro s hs t ht hs1 ht1
    obtain ⟨h1, h2⟩ := h.tie s hs z hz t ht (fun g => g.1 hzn) (fun g => g.2.1 hzn) (fun g => g.2.1 hzn) (fun g => g.1 hzn)
    rw [larger_iff] at h1 h2
    rcases lt_trichotomy (number s.1) (number t.1) with g | g | g
    · exact absurd ⟨hs1, ht1, g⟩ h2
    · exact g
    · exact absurd ⟨ht1, hs1, g⟩ h1
  · rintro (h | h)
    · refine ⟨fun x _ g => lt_irrefl _ g.2.2, fun x hx y _ z hz g1 g2 => ⟨h z hz, h x hx, g2.2.2.trans g1.2.2⟩, ?_⟩
      intro x hx y hy z hz g1 g2 g3 g4
      have e1 : number x.1 = number y.1 := le_antisymm (not_lt.1 fun g => g1 ⟨h y hy, h x hx, g⟩) (not_lt.1 fun g => g2 ⟨h x hx, h y hy, g⟩)
      have e2 : number y.1 = number z.1 := le_antisymm (not_lt.1 fun g => g3 ⟨h z hz, h y hy, g⟩) (not_lt.1 fun g => g4 ⟨h y hy, h z hz, g⟩)
      constructor
      · intro g; have := g.2.2; rw [e1, e2] at this; exact lt_irrefl _ this
      · intro g; have := g.2.2; rw [e1, e2] at this; exact lt_irrefl _ this
    · have no : ∀ x ∈ v, ∀ y ∈ v, ¬ largerFirst o x y := by
        intro x hx y hy g
        have := g.2.2
        rw [h x hx y hy g.2.1 g.1] at this
        exact lt_irrefl _ this
      exact ⟨fun x hx => no x hx x hx, fun x hx y hy _ _ g => absurd g (no x hx y hy), fun x hx _ _ z hz _ _ _ _ => ⟨no x hx z hz, no z hz x hx⟩⟩

/-- A list of magnitudes of samples that can be sorted. -/
theorem strictWeak_of {o : FloatOps} {δ : Type} {data : List F32} (h : Sortable data) {v : List (F32 × δ)}
    (hv : ∀ t ∈ v, ∃ x ∈ data, t.1 = absBits x) : StrictWeakOn (largerFirst o) v := by
  rw [strictWeak_iff]
  rw [sortable_iff] at h
  rcases h with h | h
  · left
    intro t ht
    obtain ⟨x, hx, e⟩ := hv t ht
    rw [e, isNaN_abs]
    exact h x hx
  · right
    intro s hs t ht g1 g2
    obtain ⟨x, hx, e⟩ := hv s hs
    obtain ⟨y, hy, e'⟩ := hv t ht
    rw [e, isNaN_abs] at g1
    rw [e', isNaN_abs] at g2
    rw [e, e', number_abs, number_abs]
    exact h x hx y hy g1 g2

theorem sortable_of {o : FloatOps} {δ : Type} {data : List F32} {v : List (F32 × δ)} (h : StrictWeakOn (largerFirst o) v)
    (hv : ∀ x ∈ data, ∃ t ∈ v, t.1 = absBits x) : Sortable data := by
  rw [strictWeak_iff] at h
  rw [sortable_iff]
  rcases h with h | h
  · left
    intro x hx
    obtain ⟨t, ht, e⟩ := hv x hx
    have := h t ht
    rwa [e, isNaN_abs] at this
  · right
    intro x hx y hy g1 g2
    obtain ⟨s, hs, e⟩ := hv x hx
    obtain ⟨t, ht, e'⟩ := hv y hy
    have := h s hs t ht (by rwa [e, isNaN_abs]) (by rwa [e', isNaN_abs])
    rwa [e, e', number_abs, number_abs] at this

theorem values1_iff (o : FloatOps) (data : List F32) : StrictWeakOn (largerFirst o) (values1 data) ↔ Sortable data := by
  constructor
  · intro h
    refine sortable_of h fun x hx => ?_
    obtain ⟨i, hi, rfl⟩ := List.mem_iff_getElem.1 hx
    exact ⟨(absBits (data.getD i default), i), List.mem_map.2 ⟨i, List.mem_range.2 hi, rfl⟩, by simp [List.getD, hi]⟩
  · intro h
    refine strictWeak_of h fun t ht => ?_
    unfold values1 at ht
    rw [List.mem_map] at ht
    obtain ⟨i, hi, rfl⟩ := ht
    have hi := List.mem_range.1 hi
    exact ⟨data[i], List.getElem_mem hi, by simp [List.getD, hi]⟩

theorem mem_data_iff (m : Mat F32) (x : F32) : x ∈ m.data ↔ ∃ i < m.rows, ∃ j < m.cols, x = m.get i j := by
  constructor
  · intro hx
    obtain ⟨k, hk, rfl⟩ := List.mem_iff_getElem.1 hx
    have hk' : k < m.rows * m.cols := by rw [← m.wf]; exact hk
    have hc : 0 < m.cols := by
      rcases Nat.eq_zero_or_pos m.cols with h | h
      · rw [h] at hk'; omega
      · exact h
    refine ⟨k / m.cols, (Nat.div_lt_iff_lt_mul hc).2 hk', k % m.cols, Nat.mod_lt _ hc, ?_⟩
    unfold Mat.get
    rw [Nat.div_add_mod']
    simp [List.getD, hk]
  · rintro ⟨i, hi, j, hj, rfl⟩
    have hlt : i * m.cols + j < m.data.length := by rw [m.wf]; exact Mat.idx_lt hi hj
    unfold Mat.get
    rw [show m.data.getD (i * m.cols + j) default = m.data[i * m.cols + j] by simp [List.getD, hlt]]
    exact List.getElem_mem hlt

theorem values2_iff (o : FloatOps) (data : Mat F32) : StrictWeakOn (largerFirst o) (values2 data) ↔ Sortable data.data := by
  constructor
  · intro h
    refine sortable_of h fun x hx => ?_
    obtain ⟨i, hi, j, hj, rfl⟩ := (mem_data_iff _ _).1 hx
    exact ⟨_, List.mem_flatMap.2 ⟨i, List.mem_range.2 hi, List.mem_map.2 ⟨j, List.mem_range.2 hj, rfl⟩⟩, rfl⟩
  · intro h
    refine strictWeak_of h fun t ht => ?_
    unfold values2 at ht
    simp only [List.mem_flatMap, List.mem_map, List.mem_range] at ht
    obtain ⟨i, hi, j, hj, rfl⟩ := ht
    exact ⟨_, (mem_data_iff _ _).2 ⟨i, hi, j, hj, rfl⟩, rfl⟩

section
variable {r : Rounding} {o : FloatOps} {nth1 : List (F32 × ℕ) → ℕ → List (F32 × ℕ)} {nth2 : List (F32 × ℕ × ℕ) → ℕ → List (F32 × ℕ × ℕ)}

theorem checked1 (hr : r.IEEE) (ho : o.Correct r) (hn : NthPromise o nth1 nth2) {l : F32} (hl : finiteBits l) (h0 : (0 : ℝ) ≤ number l)
    (h1 : (number l : ℝ) ≤ 1) {data : List F32} (hsz : data.length < 2 ^ 32) (hs : Sortable data) :
    ∃ (out : List F32) (cut : ℕ), simple1Checked o nth1 nth2 l data = .ok out ∧ (cut : ℝ) ≤ data.length * (number l * (1 + 1 / 2 ^ 22)) ∧
      KeepsLargest (α := Bits o) absBits (data.length - min cut (data.length - 1)) (Mat.ofCol data) (Mat.ofCol out) := by
  obtain ⟨cut, c1, c2⟩ := cut_float hr ho hl h0 h1 hsz
  obtain ⟨out, r1, r2⟩ := simple1_of (bitsSimple o nth1 nth2) l data cut (fun x => ∃ y ∈ data, x = absBits y) (fun x hx => ⟨x, hx, rfl⟩) c1
    (fun v n hvn ht => hn.1 v n hvn (strictWeak_of hs ht))
  refine ⟨out, cut, ?_, c2, r2⟩
  exact (if_pos ((values1_iff o data).2 hs)).trans r1

theorem checked2 (hr : r.IEEE) (ho : o.Correct r) (hn : NthPromise o nth1 nth2) {l : F32} (hl : finiteBits l) (h0 : (0 : ℝ) ≤ number l)
    (h1 : (number l : ℝ) ≤ 1) {data : Mat F32} (hsz : data.rows * data.cols < 2 ^ 32) (hs : Sortable data.data) :
    ∃ (out : Mat F32) (cut : ℕ), simple2Checked o nth1 nth2 l data = .ok out ∧ (cut : ℝ) ≤ (data.rows * data.cols : ℕ) * (number l * (1 + 1 / 2 ^ 22)) ∧
      KeepsLargest (α := Bits o) absBits (data.rows * data.cols - min cut (data.rows * data.cols - 1)) data out := by
  obtain ⟨cut, c1, c2⟩ := cut_float hr ho hl h0 h1 hsz
  obtain ⟨out, r1, r2⟩ := simple2_of (bitsSimple o nth1 nth2) l data cut (fun x => ∃ y ∈ data.data, x = absBits y)
    (fun i hi j hj => ⟨_, (mem_data_iff data _).2 ⟨i, hi, j, hj, rfl⟩, rfl⟩) c1 (fun v n hvn ht => hn.2 v n hvn (strictWeak_of hs ht))
  refine ⟨out, cut, ?_, c2, r2⟩
  exact (if_pos ((values2_iff o data).2 hs)).trans r1

theorem checked1_ub (l : F32) {data : List F32} (hs : ¬ Sortable data) : simple1Checked o nth1 nth2 l data = .ub := by
  exact if_neg fun h => hs ((values1_iff o data).1 h)

theorem checked2_ub (l : F32) {data : Mat F32} (hs : ¬ Sortable data.data) : simple2Checked o nth1 nth2 l data = .ub := by
  exact if_neg fun h => hs ((values2_iff o data).1 h)

end

theorem ofCol_col {m : Mat F32} (h : m.cols = 1) : Mat.ofCol (m.col 0) = m ∧ m.col 0 = m.data := by
  have e : m.col 0 = m.data := by
    apply List.ext_getElem
    · rw [Mat.length_col, m.wf, h, Nat.mul_one]
    · intro i h1 h2
      simp [Mat.col, Mat.get, h, List.getD, h2]
  refine ⟨?_, e⟩
  rw [Mat.eq_iff]
  exact ⟨by simp [Mat.ofCol], by simp [Mat.ofCol, h], e⟩

section
variable {r : Rounding} {o : FloatOps} {nth1 : List (F32 × ℕ) → ℕ → List (F32 × ℕ)} {nth2 : List (F32 × ℕ × ℕ) → ℕ → List (F32 × ℕ × ℕ)}

/-- What the simple denoiser answers. -/
theorem answer_simple (hr : r.IEEE) (ho : o.Correct r) (hn : NthPromise o nth1 nth2) {l : F32} (hl : finiteBits l) (h0 : (0 : ℝ) ≤ number l)
    (h1 : (number l : ℝ) ≤ 1) (p : Params) {m : Mat F32} (hsz : m.rows * m.cols < 2 ^ 32) (hc : p.dimension = 1 → m.cols = 1) (s : ℕ) :
    (Sortable m.data → ∃ m' : Mat F32, answer (α := Bits o) p (simpleCallback o nth1 nth2 l) () m s = ((), .ok m') ∧ CutOff o l m m') ∧
    (¬ Sortable m.data → answer (α := Bits o) p (simpleCallback o nth1 nth2 l) () m s = ((), .ub)) := by
  by_cases hd : p.dimension = 1
  · obtain ⟨e1, e2⟩ := ofCol_col (hc hd)
    have hlen : (m.col 0).length = m.rows := Mat.length_col m 0
    have key : answer (α := Bits o) p (simpleCallback o nth1 nth2 l) () m s = (match simple1Checked o nth1 nth2 l (m.col 0) with
        | .ok v => ((), if v.length = m.rows then .ok (Mat.ofCol (α := F32) v) else .throw)
        | .throw => ((), .throw)
        | .ub => ((), .ub)) := by
      unfold answer
      rw [if_pos hd]
      have e : (simpleCallback o nth1 nth2 l).d1 () (Mat.col (α := Bits o) m 0) s = ((), simple1Checked o nth1 nth2 l (m.col 0)) := rfl
      rw [e]
      cases simple1Checked o nth1 nth2 l (m.col 0) <;> rfl
    constructor
    · intro hs
      have hlr : (m.col 0).length = m.rows * m.cols := by rw [hlen, hc hd, Nat.mul_one]
      obtain ⟨out, cut, r1, r2, r3⟩ := checked1 hr ho hn hl h0 h1 (data := m.col 0) (by rw [hlr]; exact hsz) (by rw [e2]; exact hs)
      have hrows : out.length = m.rows := by
        have := r3.rows
        have : out.length = (m.col 0).length := this
        omega
      refine ⟨Mat.ofCol out, ?_, cut, by rw [← hlr]; exact r2, ?_⟩
      · rw [key, r1]
        simp only [if_pos hrows]
      · rw [← hlr]
        have r3 : KeepsLargest (α := Bits o) absBits ((m.col 0).length - min cut ((m.col 0).length - 1)) (Mat.ofCol (m.col 0)) (Mat.ofCol out) := r3
        have e1 : (Mat.ofCol (m.col 0) : Mat (Bits o)) = m := e1
        rw [e1] at r3
        exact r3
    · intro hs
      rw [key, checked1_ub l (by rw [e2]; exact hs)]
  · have key : answer (α := Bits o) p (simpleCallback o nth1 nth2 l) () m s = ((), simple2Checked o nth1 nth2 l m) := by
      unfold answer
      rw [if_neg hd]
      rfl
    constructor
    · intro hs
      obtain ⟨out, cut, r1, r2, r3⟩ := checked2 hr ho hn hl h0 h1 hsz hs
      exact ⟨out, by rw [key, r1]; rfl, cut, r2, r3⟩
    · intro hs
      rw [key, checked2_ub l hs]
      rfl

end

/-- A conversation with a denoiser without a state. -/
theorem converse_all {α : Type} (ask : Unit → Mat α → ℕ → Unit × Outcome (Mat α)) (R : Mat α → Mat α → Prop) (a : List (Mat α × ℕ))
    (h : ∀ x ∈ a, ∃ m', ask () x.1 x.2 = ((), .ok m') ∧ R x.1 m') :
    ∃ out, converse ask () a = ((), out, .ok ()) ∧ List.Forall₂ (fun x m' => R x.1 m') a out := by
  induction a with
  | nil => exact ⟨[], rfl, .nil⟩
  | cons x a ih =>
    obtain ⟨m, k⟩ := x
    obtain ⟨m', e, hR⟩ := h (m, k) (by simp)
    obtain ⟨out, e2, h2⟩ := ih fun x hx => h x (by simp [hx])
    refine ⟨m' :: out, ?_, .cons hR h2⟩
    simp only at e
    simp only [converse, e, e2]

theorem converse_ub {α : Type} (ask : Unit → Mat α → ℕ → Unit × Outcome (Mat α)) (a : List (Mat α × ℕ))
    (h : ∀ x ∈ a, (∃ m', ask () x.1 x.2 = ((), .ok m')) ∨ ask () x.1 x.2 = ((), .ub)) (hx : ∃ x ∈ a, ask () x.1 x.2 = ((), .ub)) :
    (converse ask () a).2.2 = .ub := by
  induction a with
  | nil => obtain ⟨x, hx, _⟩ := hx; cases hx
  | cons x a ih =>
    obtain ⟨m, k⟩ := x
    rcases h (m, k) (by simp) with ⟨m', e⟩ | e
    · simp only at e
      simp only [converse, e]
      refine ih (fun x hx => h x (by simp [hx])) ?_
      obtain ⟨x, hx, g⟩ := hx
      rcases List.mem_cons.1 hx with rfl | hx
      · simp only at g
        rw [e] at g
        cases g
      · exact ⟨x, hx, g⟩
    · simp only at e
      simp only [converse, e]

/-- Sizes of the details that the denoiser is asked about. -/
theorem simple_calls {α : Type} [Zero α] [Add α] [Mul α] [Neg α] [Inhabited α] {p : Params} (hv : ValidParams p) (k : Kit α)
    {data : List (Mat α)} (hd : IsSignal p data)
    (hN : (p.shape.map (paddedSide p)).prod < 2 ^ 32) :
    ∀ x ∈ detailCalls p (data.map (chanP p (scaling k p) nullDenoiser)),
      x.1.rows * x.1.cols < 2 ^ 32 ∧ (p.dimension = 1 → x.1.cols = 1) := by
  intro x hx
  refine ⟨?_, fun h => ?_⟩
  · unfold detailCalls at hx
    simp only [List.mem_flatMap, List.mem_map, List.mem_range] at hx
    obtain ⟨c, ⟨m, hm, rfl⟩, t, ht, rfl⟩ := hx
    have sz := chanP_sized (k := k) hv nullDenoiser_sized (shaped_of (hd.2 m hm))
    rw [← padSize_eq hv] at hN
    refine lt_of_le_of_lt ?_ hN
    have hlt : t < (chanP p (scaling k p) nullDenoiser m).length := by
      rw [sz.1, decompositionSize, subbandsPerWT_eq]
      omega
    simp only
    rw [show (chanP p (scaling k p) nullDenoiser m).getD t default = (chanP p (scaling k p) nullDenoiser m)[t] by
      simp [List.getD, hlt]]
    obtain ⟨s, _, hf⟩ := mem_fits sz (List.getElem_mem hlt)
    exact size_le hf
  · rw [← calls_eq, List.mem_flatMap] at hx
    obtain ⟨m, -, hx⟩ := hx
    exact asks_cols h _ _ _ _ _ hx

theorem mem_calls {α : Type} [Inhabited α] {p : Params} {d : Decs α} {x : Mat α × ℕ} (hx : x ∈ detailCalls p d) :
    ∃ c ∈ d, x.1 ∈ c ∨ x.1 = default := by
  unfold detailCalls at hx
  simp only [List.mem_flatMap, List.mem_map, List.mem_range] at hx
  obtain ⟨c, hc, t, ht, rfl⟩ := hx
  refine ⟨c, hc, ?_⟩
  by_cases h : t < c.length
  · left
    rw [show c.getD t default = c[t] by simp [List.getD, h]]
    exact List.getElem_mem h
  · right
    simp [List.getD, Nat.le_of_not_lt h]

/-- What the answers to all questions make of the buffer. -/
theorem after_cut {α : Type} [Inhabited α] {R : Mat α → Mat α → Prop} {p : Params} {old plain d : Decs α} {out : List (Mat α)} {n : ℕ}
    (h : AfterAnswers p 0 old plain out d) (h2 : List.Forall₂ (fun x m' => R x.1 m') (detailCalls p plain) out) (hlen : plain.length = n) :
    ∀ ch < n, ∃ c n, d[ch]? = some c ∧ plain[ch]? = some n ∧
      (∀ t < p.steps * detailsPerStep p, R (n.getD t default) (c.getD t default)) ∧
      c[p.steps * detailsPerStep p]? = n[p.steps * detailsPerStep p]? := by
  intro ch hch
  obtain ⟨_, _, h3⟩ := h
  obtain ⟨c, w, m, a1, _, a3, _, a5, a6⟩ := h3 ch (by omega)
  rw [Nat.zero_add] at a1
  set K := p.steps * detailsPerStep p with hK
  have hcl : (detailCalls p plain).length = plain.length * K := by
    unfold detailCalls
    simp [List.length_flatMap, hK]
  have hol : out.length = plain.length * K := by rw [← hcl]; exact h2.length_eq.symm
  have hle : (ch + 1) * K ≤ plain.length * K := Nat.mul_le_mul_right _ (by omega)
  have hle2 : ch * K + K ≤ plain.length * K := by rw [← Nat.succ_mul]; exact hle
  refine ⟨c, m, a1, a3, ?_, ?_⟩
  · intro t ht
    have hlt : ch * K + t < out.length := by omega
    have e := a5 t ht
    rw [if_pos hlt] at e
    have hlt2 : ch * K + t < (detailCalls p plain).length := by omega
    have g := h2.get hlt2 hlt
    simp only [List.get_eq_getElem] at g
    have e3 : (detailCalls p plain)[ch * K + t]? = some (m.getD t default, t / detailsPerStep p) := by
      unfold detailCalls
      rw [getElem?_flatMap_const _ _ K (fun _ _ => by simp [hK]) _ _ ht, a3]
      simp [hK ▸ ht]
    rw [List.getElem?_eq_getElem hlt2] at e3
    rw [Option.some.inj e3] at g
    have e4 : c.getD t default = out[ch * K + t] := by
      simp [List.getD, e, hlt]
    rw [e4]
    exact g
  · rw [a6, if_pos (by omega)]

end WB.Props
