import Verif.Proof.Bridge
import Verif.Proof.Matrix1D
import Verif.Proof.Python
import Verif.Spec.WrongSizes

/-!
Composition of subbands that do not have the prescribed sizes.
-/

set_option linter.unusedSectionVars false

namespace WB

open Spec

variable {α : Type}

section Poly
variable [Zero α] [Add α] [Mul α] [Neg α] [Inhabited α]

/-! ### one dimension -/

theorem bind_ne_throw {β γ : Type} {x : Outcome β} {f : β → Outcome γ} (hx : x ≠ .throw) (hf : ∀ b, f b ≠ .throw) :
    (x >>= f) ≠ .throw := by
  cases x with
  | ok b => exact hf b
  | throw => exact absurd rfl hx
  | ub => intro h; cases h

theorem idwtAt_ne_throw (low high lo hi : List α) (i : ℕ) : idwtAt low high lo hi i ≠ .throw := by
  unfold idwtAt
  apply Outcome.foldlM_ne_throw
  intro jj _ acc
  dsimp only
  generalize (if low.length - (lo.length - 2) / 2 + i / 2 + 2 * jj / 2 ≥ low.length then
    low.length - (lo.length - 2) / 2 + i / 2 + 2 * jj / 2 - low.length
    else low.length - (lo.length - 2) / 2 + i / 2 + 2 * jj / 2) = kk
  generalize (if i % 2 = 0 then 1 else 0) + 2 * jj = q
  split
  · intro h; cases h
  · exact bind_ne_throw (rd_ne_throw _ _) fun _ => bind_ne_throw (rd_ne_throw _ _) fun _ =>
      bind_ne_throw (rd_ne_throw _ _) fun _ => bind_ne_throw (rd_ne_throw _ _) fun _ => by intro h; cases h

theorem idwt_ne_throw (low high lo hi : List α) : idwt low high lo hi ≠ .throw := by
  intro h
  unfold idwt at h
  by_cases hu : ∃ a ∈ List.range (low.length * 2), idwtAt low high lo hi a = .ub
  · rw [Outcome.mapM_ub (fun a _ => idwtAt_ne_throw _ _ _ _ a) hu] at h; cases h
  · push Not at hu
    have : ∀ a ∈ List.range (low.length * 2), ∃ b, idwtAt low high lo hi a = .ok b := by
      intro a ha
      cases hc : idwtAt low high lo hi a with
      | ok b => exact ⟨b, rfl⟩
      | throw => exact absurd hc (idwtAt_ne_throw _ _ _ _ a)
      | ub => exact absurd hc (hu a ha)
    rw [Outcome.mapM_ok (g := fun a => match idwtAt low high lo hi a with | .ok b => b | _ => 0)] at h
    · cases h
    · intro a ha
      obtain ⟨b, hb⟩ := this a ha
      rw [hb]

theorem idwt_length {low high lo hi r : List α} (h : idwt low high lo hi = .ok r) : r.length = low.length * 2 := by
  have := (Py.mapM_inv h).1
  simpa using this

/-- Surplus samples of the details are ignored. -/
theorem idwtAt_long {low high lo hi : List α} {i t : ℕ} (hi' : i < low.length * 2) (hl : lo.length = 2 * t) (ht : 0 < t)
    (hh : hi.length = lo.length) (hlh : low.length ≤ high.length) (hs : t ≤ low.length + 1) :
    idwtAt low high lo hi i = .ok (synP low high lo hi i) := by
  unfold idwtAt synP
  apply Outcome.foldlM_ok
  intro jj hj acc
  rw [List.mem_range] at hj
  have hn : 0 < low.length := by omega
  rw [if_neg (by omega)]
  simp only [Nat.mul_div_cancel_left jj (show 0 < 2 by omega)]
  rw [wrap_eq_mod hn (by omega)]
  have hb : (if i % 2 = 0 then 1 else 0) + 2 * jj < lo.length := by split_ifs <;> omega
  rw [rd_eq_getD 0 hb, Outcome.bind_ok, rd_eq_getD 0 (Nat.mod_lt _ hn), Outcome.bind_ok,
    rd_eq_getD 0 (by omega), Outcome.bind_ok, rd_eq_getD 0 (lt_of_lt_of_le (Nat.mod_lt _ hn) hlh), Outcome.bind_ok]
  rfl

theorem idwt_long {low high lo hi : List α} {t : ℕ} (hl : lo.length = 2 * t) (ht : 0 < t)
    (hh : hi.length = lo.length) (hlh : low.length ≤ high.length) (hs : t ≤ low.length + 1) :
    ∃ r, idwt low high lo hi = .ok r :=
  ⟨_, Outcome.mapM_ok (fun i hi' => idwtAt_long (List.mem_range.1 hi') hl ht hh hlh hs)⟩

/-- Details that are too short are read past their end. -/
theorem idwt_short {low high lo hi : List α} {t : ℕ} (hl : lo.length = 2 * t) (ht : 0 < t)
    (hlh : high.length < low.length) : idwt low high lo hi = .ub := by
  have hn : 0 < low.length := by omega
  unfold idwt
  apply Outcome.mapM_ub (fun a _ => idwtAt_ne_throw _ _ _ _ a)
  by_cases hs : t ≤ low.length + 1
  · have key : ∃ i, i < low.length * 2 ∧
        (if low.length - (lo.length - 2) / 2 + i / 2 ≥ low.length then low.length - (lo.length - 2) / 2 + i / 2 - low.length
          else low.length - (lo.length - 2) / 2 + i / 2) = high.length := by
      by_cases hc : high.length + (t - 1) < low.length
      · exact ⟨2 * (high.length + (t - 1)), by omega, by rw [if_pos (by omega)]; omega⟩
      · exact ⟨2 * (high.length + (t - 1) - low.length), by omega, by rw [if_neg (by omega)]; omega⟩
    obtain ⟨i, h1, h2⟩ := key
    refine ⟨i, List.mem_range.2 h1, ?_⟩
    cases hu : idwtAt low high lo hi i with
    | ub => rfl
    | throw => exact absurd hu (idwtAt_ne_throw _ _ _ _ _)
    | ok v =>
      exfalso
      unfold idwtAt at hu
      obtain ⟨n, hn'⟩ : ∃ n, (lo.length + 1) / 2 = n + 1 := ⟨(lo.length + 1) / 2 - 1, by omega⟩
      rw [hn', List.range_succ_eq_map, List.foldlM_cons] at hu
      dsimp only at hu
      rw [if_neg (by omega), Nat.mul_zero, Nat.zero_div, Nat.add_zero, Nat.add_zero, h2] at hu
      have hr : rd high high.length = .ub := by simp [rd]
      rw [hr] at hu
      revert hu
      cases rd lo (if i % 2 = 0 then 1 else 0) <;> cases rd low high.length <;>
        cases rd hi (if i % 2 = 0 then 1 else 0) <;> (intro h; cases h)
  · refine ⟨0, List.mem_range.2 (by omega), ?_⟩
    unfold idwtAt
    obtain ⟨n, hn'⟩ : ∃ n, (lo.length + 1) / 2 = n + 1 := ⟨(lo.length + 1) / 2 - 1, by omega⟩
    rw [hn', List.range_succ_eq_map, List.foldlM_cons]
    dsimp only
    rw [if_pos (by omega)]
    rfl

/-- One step in one dimension, all outcomes. -/
theorem composeStep_one {k : Kit α} {p : Params} (hf : FilterLen k p) (ht : p.wtype ≠ 0) (mats : List (SpMat α))
    {m d : Mat α} {c : Channel α} {i : ℕ} (hd : c[i]? = some d) :
    (m.cols = 0 ∨ d.cols = 0 → composeStep 1 (filters1D k p) mats m c (i + 1) = .throw) ∧
    (1 ≤ m.cols → 1 ≤ d.cols → composeStep 1 (filters1D k p) mats m c (i + 1) ≠ .throw ∧
      (d.rows < m.rows → composeStep 1 (filters1D k p) mats m c (i + 1) = .ub) ∧
      (m.rows ≤ d.rows → p.wtype ≤ m.rows + 1 → ∃ r, composeStep 1 (filters1D k p) mats m c (i + 1) = .ok r)) ∧
    (∀ r, composeStep 1 (filters1D k p) mats m c (i + 1) = .ok r → r.rows = m.rows * 2 ∧ r.cols = 1) := by
  have hrd : rd c i = .ok d := by simp [rd, hd]
  have hlen := length_scaling hf ht
  unfold composeStep
  rw [if_pos rfl, if_neg (by omega), Nat.add_sub_cancel, hrd, filters1D_eq ht]
  simp only [Outcome.bind_ok]
  refine ⟨?_, ?_, ?_⟩
  · intro h
    unfold column0
    by_cases hm : m.cols = 0
    · rw [if_pos hm]; rfl
    · rw [if_neg hm, Outcome.bind_ok, if_pos (by tauto)]; rfl
  · intro h1 h2
    unfold column0
    rw [if_neg (by omega), Outcome.bind_ok, if_neg (by omega), Outcome.bind_ok]
    refine ⟨?_, ?_, ?_⟩
    · exact bind_ne_throw (idwt_ne_throw _ _ _ _) fun _ => by intro h; cases h
    · intro h
      rw [idwt_short (t := p.wtype) (by simp [hlen]) (by omega) (by rw [Mat.length_col, Mat.length_col]; omega)]
      rfl
    · intro h3 h4
      obtain ⟨r, hr⟩ := idwt_long (low := m.col 0) (high := d.col 0) (lo := (scaling k p).reverse)
        (hi := (qmf (scaling k p)).reverse) (t := p.wtype) (by simp [hlen]) (by omega) (by simp)
        (by rw [Mat.length_col, Mat.length_col]; omega) (by rw [Mat.length_col]; omega)
      exact ⟨_, by rw [hr]; rfl⟩
  · intro r hr
    unfold column0 at hr
    split at hr
    · cases hr
    · rw [Outcome.bind_ok] at hr
      split at hr
      · cases hr
      · rw [Outcome.bind_ok] at hr
        cases hx : idwt (m.col 0) (d.col 0) (scaling k p).reverse (qmf (scaling k p)).reverse with
        | throw => rw [hx] at hr; cases hr
        | ub => rw [hx] at hr; cases hr
        | ok v =>
          rw [hx] at hr
          cases hr
          have := idwt_length hx
          rw [Mat.length_col] at this
          simp [this]

theorem composeSteps_one_succ {p : Params} (hd : p.dimension = 1) (st : Stack α) (f : Filters α) (c : Channel α) (n i : ℕ)
    (m : Mat α) : composeSteps p st f c (n + 1) (i + 1) m =
      composeStep 1 f [] m c (i + 1) >>= fun m => composeSteps p st f c n i m := by
  have hk : subbandsPerWT p = 1 := by simp [subbandsPerWT, hd]
  rw [composeSteps, stepMats, if_pos hd, Outcome.bind_ok, hk, Nat.mul_one, hd, Nat.add_sub_cancel]

/-- Long enough details: every step returns. -/
theorem composeSteps_one_ok {k : Kit α} {p : Params} (hf : FilterLen k p) (hd : p.dimension = 1) (ht : p.wtype ≠ 0) (st : Stack α)
    {c : Channel α} (n i : ℕ) (hn : n ≤ i) {m : Mat α} (hm : 1 ≤ m.cols) (hw : p.wtype ≤ m.rows + 1)
    (hc : ∀ s, i - n ≤ s → s < i → ∃ d, c[s]? = some d ∧ 1 ≤ d.cols ∧ m.rows * 2 ^ (i - 1 - s) ≤ d.rows) :
    ∃ r, composeSteps p st (filters1D k p) c n i m = .ok r ∧ r.rows = m.rows * 2 ^ n ∧ 1 ≤ r.cols := by
  induction n generalizing i m with
  | zero => exact ⟨m, rfl, by simp, hm⟩
  | succ n ih =>
    obtain ⟨j, rfl⟩ : ∃ j, i = j + 1 := ⟨i - 1, by omega⟩
    obtain ⟨d, h1, h2, h3⟩ := hc j (by omega) (by omega)
    have e : j + 1 - 1 - j = 0 := by omega
    rw [e, pow_zero, Nat.mul_one] at h3
    obtain ⟨_, g1, g2⟩ := composeStep_one hf ht [] (m := m) h1
    obtain ⟨r, hr⟩ := (g1 hm h2).2.2 h3 hw
    obtain ⟨r1, r2⟩ := g2 r hr
    rw [composeSteps_one_succ hd, hr, Outcome.bind_ok]
    obtain ⟨q, q1, q2, q3⟩ := ih j (by omega) (m := r) (by omega) (by omega) (by
      intro s hs1 hs2
      obtain ⟨d', k1, k2, k3⟩ := hc s (by omega) (by omega)
      refine ⟨d', k1, k2, ?_⟩
      have e : j + 1 - 1 - s = (j - 1 - s) + 1 := by omega
      rw [e, pow_succ] at k3
      calc r.rows * 2 ^ (j - 1 - s) = m.rows * (2 ^ (j - 1 - s) * 2) := by rw [r1]; ring
        _ ≤ d'.rows := k3)
    exact ⟨q, q1, by rw [q2, r1, pow_succ]; ring, q3⟩

/-- With columns everywhere no step throws; a detail that is too short is undefined behaviour. -/
theorem composeSteps_one_columns {k : Kit α} {p : Params} (hf : FilterLen k p) (hd : p.dimension = 1) (ht : p.wtype ≠ 0) (st : Stack α)
    {c : Channel α} (n i : ℕ) (hn : n ≤ i) {m : Mat α} (hm : 1 ≤ m.cols)
    (hc : ∀ s, i - n ≤ s → s < i → ∃ d, c[s]? = some d ∧ 1 ≤ d.cols) :
    composeSteps p st (filters1D k p) c n i m ≠ .throw ∧
    ((∃ s d, i - n ≤ s ∧ s < i ∧ c[s]? = some d ∧ d.rows < m.rows * 2 ^ (i - 1 - s)) →
      composeSteps p st (filters1D k p) c n i m = .ub) := by
  induction n generalizing i m with
  | zero =>
    refine ⟨(by intro h; cases h), ?_⟩
    rintro ⟨s, d, h1, h2, _⟩
    omega
  | succ n ih =>
    obtain ⟨j, rfl⟩ : ∃ j, i = j + 1 := ⟨i - 1, by omega⟩
    obtain ⟨d, h1, h2⟩ := hc j (by omega) (by omega)
    obtain ⟨_, g1, g2⟩ := composeStep_one hf ht [] (m := m) h1
    obtain ⟨u1, u2, _⟩ := g1 hm h2
    rw [composeSteps_one_succ hd]
    cases hx : composeStep 1 (filters1D k p) [] m c (j + 1) with
    | throw => exact absurd hx u1
    | ub => exact ⟨(by intro h; cases h), fun _ => rfl⟩
    | ok r =>
      obtain ⟨r1, r2⟩ := g2 r hx
      rw [Outcome.bind_ok]
      obtain ⟨v1, v2⟩ := ih j (by omega) (m := r) (by omega) (fun s hs1 hs2 => hc s (by omega) (by omega))
      refine ⟨v1, ?_⟩
      rintro ⟨s, d', k1, k2, k3, k4⟩
      by_cases hs : s = j
      · subst hs
        rw [h1] at k3
        cases k3
        have e : s + 1 - 1 - s = 0 := by omega
        rw [e, pow_zero, Nat.mul_one] at k4
        rw [u2 k4] at hx
        cases hx
      · refine v2 ⟨s, d', by omega, by omega, k3, ?_⟩
        have e : j + 1 - 1 - s = (j - 1 - s) + 1 := by omega
        rw [e, pow_succ] at k4
        calc d'.rows < m.rows * (2 ^ (j - 1 - s) * 2) := k4
          _ = r.rows * 2 ^ (j - 1 - s) := by rw [r1]; ring

/-- What a normal return says about the sizes. -/
theorem composeSteps_one_inv {k : Kit α} {p : Params} (hf : FilterLen k p) (hd : p.dimension = 1) (ht : p.wtype ≠ 0) (st : Stack α)
    {c : Channel α} (n i : ℕ) (hn : n ≤ i) (hi : i ≤ c.length) {m r : Mat α}
    (h : composeSteps p st (filters1D k p) c n i m = .ok r) :
    r.rows = m.rows * 2 ^ n ∧ (1 ≤ r.cols → 1 ≤ m.cols) ∧
    ∀ s, i - n ≤ s → s < i → ∃ d, c[s]? = some d ∧ 1 ≤ d.cols ∧ m.rows * 2 ^ (i - 1 - s) ≤ d.rows := by
  induction n generalizing i m with
  | zero => cases h; exact ⟨by simp, id, fun s h1 h2 => by omega⟩
  | succ n ih =>
    obtain ⟨j, rfl⟩ : ∃ j, i = j + 1 := ⟨i - 1, by omega⟩
    have h1 : c[j]? = some c[j] := List.getElem?_eq_getElem (by omega)
    generalize c[j] = d at h1
    obtain ⟨g0, g1, g2⟩ := composeStep_one hf ht [] (m := m) h1
    rw [composeSteps_one_succ hd] at h
    cases hx : composeStep 1 (filters1D k p) [] m c (j + 1) with
    | throw => rw [hx] at h; cases h
    | ub => rw [hx] at h; cases h
    | ok q =>
      rw [hx, Outcome.bind_ok] at h
      have hcol : 1 ≤ m.cols ∧ 1 ≤ d.cols := by
        by_contra hcon
        rw [g0 (by omega)] at hx
        cases hx
      obtain ⟨q1, q2⟩ := g2 q hx
      obtain ⟨v1, _, v2⟩ := ih j (by omega) (by omega) h
      refine ⟨by rw [v1, q1, pow_succ]; ring, fun _ => hcol.1, ?_⟩
      intro s hs1 hs2
      by_cases hs : s = j
      · subst hs
        have e : s + 1 - 1 - s = 0 := by omega
        rw [e, pow_zero, Nat.mul_one]
        refine ⟨d, h1, hcol.2, ?_⟩
        by_contra hcon
        rw [(g1 hcol.1 hcol.2).2.1 (by omega)] at hx
        cases hx
      · obtain ⟨d', k1, k2, k3⟩ := v2 s (by omega) (by omega)
        refine ⟨d', k1, k2, ?_⟩
        have e : j + 1 - 1 - s = (j - 1 - s) + 1 := by omega
        rw [e, pow_succ]
        calc m.rows * (2 ^ (j - 1 - s) * 2) = q.rows * 2 ^ (j - 1 - s) := by rw [q1]; ring
          _ ≤ d'.rows := k3

/-! ### two dimensions -/

/-- Subbands that do not fill their part of the matrix leave cells unwritten. -/
theorem idwt2_gap {q : Quad α} {w h : SpMat α} {sh sw : ℕ} (hw : w.rows = 2 * sw) (hh : h.rows = 2 * sh) (h1 : 1 ≤ sh) (h2 : 1 ≤ sw)
    (a1 : q.ll.rows ≤ sh) (a2 : q.ll.cols ≤ sw) (b1 : q.lh.rows ≤ sh) (b2 : q.lh.cols ≤ sw)
    (c1 : q.hl.rows ≤ sh) (c2 : q.hl.cols ≤ sw) (d1 : q.hh.rows ≤ sh) (d2 : q.hh.cols ≤ sw) (hn : ¬ q.Sized sh sw) :
    idwt2 q w h = .ub := by
  obtain ⟨ll, lh, hl, hh'⟩ := q
  simp only [Quad.Sized] at *
  unfold idwt2
  dsimp only
  rw [Raw.fill_ok (by simp [Raw.new]; omega) (by simp [Raw.new]; omega), Outcome.bind_ok,
    Raw.fill_ok (by simp [Raw.new, Raw.upd]; omega) (by simp [Raw.new, Raw.upd]; omega), Outcome.bind_ok,
    Raw.fill_ok (by simp [Raw.new, Raw.upd]; omega) (by simp [Raw.new, Raw.upd]; omega), Outcome.bind_ok,
    Raw.fill_ok (by simp [Raw.new, Raw.upd]; omega) (by simp [Raw.new, Raw.upd]; omega), Outcome.bind_ok]
  have key : ∀ r c, r < 2 * sh → c < 2 * sw → ¬ (r < ll.rows ∧ c < ll.cols) →
      ¬ (ll.rows ≤ r ∧ r < ll.rows + lh.rows ∧ c < lh.cols) →
      ¬ (r < hl.rows ∧ ll.cols ≤ c ∧ c < ll.cols + hl.cols) →
      ¬ (ll.rows ≤ r ∧ r < ll.rows + hh'.rows ∧ ll.cols ≤ c ∧ c < ll.cols + hh'.cols) →
      ∀ m : Raw α, m = ((((Raw.new h.rows w.rows).upd 0 0 ll.rows ll.cols ll.get).upd ll.rows 0 lh.rows lh.cols lh.get).upd
        0 ll.cols hl.rows hl.cols hl.get).upd ll.rows ll.cols hh'.rows hh'.cols hh'.get → m.done = .ub := by
    rintro r c hr hc n1 n2 n3 n4 m rfl
    unfold Raw.done
    rw [if_neg]
    intro hall
    have := hall r (by simpa [Raw.upd, Raw.new, hh] using hr) c (by simpa [Raw.upd, Raw.new, hw] using hc)
    simp only [Raw.upd, Raw.new] at this
    rw [if_neg (by omega), if_neg (by omega), if_neg (by omega), if_neg (by omega)] at this
    simp at this
  have fin : ∀ r c, r < 2 * sh → c < 2 * sw → ¬ (r < ll.rows ∧ c < ll.cols) →
      ¬ (ll.rows ≤ r ∧ r < ll.rows + lh.rows ∧ c < lh.cols) →
      ¬ (r < hl.rows ∧ ll.cols ≤ c ∧ c < ll.cols + hl.cols) →
      ¬ (ll.rows ≤ r ∧ r < ll.rows + hh'.rows ∧ ll.cols ≤ c ∧ c < ll.cols + hh'.cols) →
      ((((((Raw.new h.rows w.rows).upd 0 0 ll.rows ll.cols ll.get).upd ll.rows 0 lh.rows lh.cols lh.get).upd
        0 ll.cols hl.rows hl.cols hl.get).upd ll.rows ll.cols hh'.rows hh'.cols hh'.get).done >>= fun m => dwt2s m w h) = .ub := by
    intro r c e1 e2 e3 e4 e5 e6
    rw [key r c e1 e2 e3 e4 e5 e6 _ rfl]
    rfl
  by_cases x1 : ll.rows < sh
  · exact fin (2 * sh - 1) 0 (by omega) (by omega) (by omega) (by omega) (by omega) (by omega)
  by_cases x2 : ll.cols < sw
  · exact fin 0 (2 * sw - 1) (by omega) (by omega) (by omega) (by omega) (by omega) (by omega)
  by_cases x3 : lh.rows < sh ∨ lh.cols < sw
  · exact fin (2 * sh - 1) (sw - 1) (by omega) (by omega) (by omega) (by omega) (by omega) (by omega)
  by_cases x4 : hl.rows < sh ∨ hl.cols < sw
  · exact fin (sh - 1) (2 * sw - 1) (by omega) (by omega) (by omega) (by omega) (by omega) (by omega)
  exact fin (2 * sh - 1) (2 * sw - 1) (by omega) (by omega) (by omega) (by omega) (by omega) (by
    intro hcon; apply hn; refine ⟨⟨?_, ?_⟩, ⟨?_, ?_⟩, ⟨?_, ?_⟩, ⟨?_, ?_⟩⟩ <;> omega)

/-- No larger than the size at level `s`. -/
def FitsIn (p : Params) (s : ℕ) (m : Mat α) : Prop :=
  m.rows ≤ matRows (paddedShape p) / 2 ^ s ∧ m.cols ≤ if p.dimension = 1 then 1 else matCols (paddedShape p) / 2 ^ s

/-- One step in two dimensions with subbands that are not larger than prescribed. -/
theorem composeStep_two {k : Kit α} {p : Params} (hv : ValidParams p) (hf : FilterLen k p) (hd : p.dimension = 2) {s : ℕ}
    (hs : s < p.steps) {m a b d : Mat α} (hm : FitsIn p (s + 1) m) {c : Channel α} (ha : c[s * 3]? = some a)
    (hb : c[s * 3 + 1]? = some b) (hc : c[s * 3 + 2]? = some d) (fa : FitsIn p (s + 1) a) (fb : FitsIn p (s + 1) b)
    (fd : FitsIn p (s + 1) d) :
    ((¬ (Fits p (s + 1) m ∧ Fits p (s + 1) a ∧ Fits p (s + 1) b ∧ Fits p (s + 1) d)) →
      (stepMats p (transStack (stackP p (scaling k p))) s >>= fun mats =>
        composeStep p.dimension (filters1D k p) mats m c ((s + 1) * subbandsPerWT p)) = .ub) ∧
    (Fits p (s + 1) m ∧ Fits p (s + 1) a ∧ Fits p (s + 1) b ∧ Fits p (s + 1) d →
      ∃ r, Fits p s r ∧ (stepMats p (transStack (stackP p (scaling k p))) s >>= fun mats =>
        composeStep p.dimension (filters1D k p) mats m c ((s + 1) * subbandsPerWT p)) = .ok r) := by
  have ht := wavelet_of_steps hv hs
  -- the sizes at the level, taken from a matrix that has them
  let q : Mat α := Mat.ofFn (matRows (paddedShape p) / 2 ^ (s + 1)) (matCols (paddedShape p) / 2 ^ (s + 1)) (fun _ _ => default)
  have hq : Fits p (s + 1) q := ⟨rfl, by rw [if_neg (by omega)]; rfl⟩
  rcases fits_up hv hs hq with ⟨hd', _⟩ | ⟨_, h1, h2, h3, h4, h5⟩
  · omega
  have hqr : q.rows = matRows (paddedShape p) / 2 ^ (s + 1) := rfl
  have hqc : q.cols = matCols (paddedShape p) / 2 ^ (s + 1) := rfl
  generalize q.rows = sh at *
  generalize q.cols = sw at *
  have hk : subbandsPerWT p = 3 := by simp [subbandsPerWT, hd]
  have hst : rd (transStack (stackP p (scaling k p))) s =
      .ok [(daubP (scaling k p) (qmf (scaling k p)) (2 * sw)).transpose,
           (daubP (scaling k p) (qmf (scaling k p)) (2 * sh)).transpose] := by
    unfold transStack stackP
    rw [rd_ok (by simpa using hs)]
    congr 1
    simp only [List.getElem_map, List.getElem_range]
    have : (paddedShape p).map (fun n => daubP (scaling k p) (qmf (scaling k p)) (n / 2 ^ s)) =
        ((paddedShape p).map (fun n => n / 2 ^ s)).map (fun n => daubP (scaling k p) (qmf (scaling k p)) n) := by
      rw [List.map_map]; rfl
    rw [this, h5]; rfl
  have heq : (stepMats p (transStack (stackP p (scaling k p))) s >>= fun mats =>
        composeStep p.dimension (filters1D k p) mats m c ((s + 1) * subbandsPerWT p)) =
      idwt2 ⟨m, a, b, d⟩ (daubP (scaling k p) (qmf (scaling k p)) (2 * sw)).transpose
        (daubP (scaling k p) (qmf (scaling k p)) (2 * sh)).transpose := by
    unfold stepMats
    rw [if_neg (by omega), hst, Outcome.bind_ok]
    unfold composeStep
    rw [if_neg (by omega), hk, if_neg (by omega)]
    have i0 : (s + 1) * 3 - 3 = s * 3 := by omega
    have i1 : (s + 1) * 3 - 2 = s * 3 + 1 := by omega
    have i2 : (s + 1) * 3 - 1 = s * 3 + 2 := by omega
    rw [i0, i1, i2]
    simp [rd, ha, hb, hc]
  rw [heq]
  obtain ⟨g1, r1, cc1⟩ := daubP_facts hf ht h2
  obtain ⟨g2, r2, cc2⟩ := daubP_facts hf ht h1
  have hfit : ∀ x : Mat α, Fits p (s + 1) x ↔ x.rows = sh ∧ x.cols = sw := by
    intro x; unfold Fits; rw [if_neg (by omega), hqr, hqc]
  have hin : ∀ x : Mat α, FitsIn p (s + 1) x ↔ x.rows ≤ sh ∧ x.cols ≤ sw := by
    intro x; unfold FitsIn; rw [if_neg (by omega), hqr, hqc]
  rw [hin] at hm fa fb fd
  simp only [hfit]
  refine ⟨?_, ?_⟩
  · intro hno
    exact idwt2_gap (by rw [SpMat.rows_transpose, cc1]) (by rw [SpMat.rows_transpose, cc2]) (by omega) (by omega)
      hm.1 hm.2 fa.1 fa.2 fb.1 fb.2 fd.1 fd.2 (fun hcon => hno hcon)
  · intro hyes
    refine ⟨_, ?_, idwt2_ok (sh := sh) (sw := sw) (SpMat.good_transpose _) (SpMat.good_transpose _) (by rw [SpMat.cols_transpose, r1])
      (by rw [SpMat.rows_transpose, cc1]) (by rw [SpMat.cols_transpose, r2]) (by rw [SpMat.rows_transpose, cc2]) hyes⟩
    unfold Fits
    rw [if_neg (by omega)]
    exact ⟨h3.symm, h4.symm⟩

/-- All steps in two dimensions. -/
theorem composeSteps_two {k : Kit α} {p : Params} (hv : ValidParams p) (hf : FilterLen k p) (hd : p.dimension = 2)
    {c : Channel α} (hc : ∀ s < p.steps, ∀ j < 3, ∃ d, c[s * 3 + j]? = some d ∧ FitsIn p (s + 1) d) (n i : ℕ) (hi : i ≤ p.steps) (hn : n ≤ i)
    {m : Mat α} (hm : Fits p i m) :
    ((∃ s d, ∃ j < 3, i - n ≤ s ∧ s < i ∧ c[s * 3 + j]? = some d ∧ ¬ Fits p (s + 1) d) →
      composeSteps p (transStack (stackP p (scaling k p))) (filters1D k p) c n i m = .ub) ∧
    ((∀ s, i - n ≤ s → s < i → ∀ j < 3, ∀ d, c[s * 3 + j]? = some d → Fits p (s + 1) d) →
      ∃ r, Fits p (i - n) r ∧ composeSteps p (transStack (stackP p (scaling k p))) (filters1D k p) c n i m = .ok r) := by
  induction n generalizing i m with
  | zero =>
    refine ⟨?_, fun _ => ⟨m, hm, rfl⟩⟩
    rintro ⟨s, d, j, _, h1, h2, _⟩
    omega
  | succ n ih =>
    obtain ⟨j, rfl⟩ : ∃ j, i = j + 1 := ⟨i - 1, by omega⟩
    obtain ⟨d0, a0, b0⟩ := hc j (by omega) 0 (by omega)
    obtain ⟨d1, a1, b1⟩ := hc j (by omega) 1 (by omega)
    obtain ⟨d2, a2, b2⟩ := hc j (by omega) 2 (by omega)
    rw [Nat.add_zero] at a0
    have hm' : FitsIn p (j + 1) m := ⟨hm.1.le, hm.2.le⟩
    obtain ⟨s1, s2⟩ := composeStep_two hv hf hd (by omega) hm' a0 a1 a2 b0 b1 b2
    have hun : composeSteps p (transStack (stackP p (scaling k p))) (filters1D k p) c (n + 1) (j + 1) m =
        (stepMats p (transStack (stackP p (scaling k p))) j >>= fun mats =>
          composeStep p.dimension (filters1D k p) mats m c ((j + 1) * subbandsPerWT p)) >>= fun r =>
            composeSteps p (transStack (stackP p (scaling k p))) (filters1D k p) c n j r := by
      rw [composeSteps, Nat.add_sub_cancel, bind_assoc]
    rw [hun]
    by_cases hall : Fits p (j + 1) m ∧ Fits p (j + 1) d0 ∧ Fits p (j + 1) d1 ∧ Fits p (j + 1) d2
    · obtain ⟨r, fr, hr⟩ := s2 hall
      rw [hr, Outcome.bind_ok]
      obtain ⟨v1, v2⟩ := ih j (by omega) (by omega) fr
      refine ⟨?_, ?_⟩
      · rintro ⟨s, d, q, hq, k1, k2, k3, k4⟩
        by_cases hs : s = j
        · subst hs
          exfalso
          apply k4
          obtain rfl | rfl | rfl : q = 0 ∨ q = 1 ∨ q = 2 := by omega
          · rw [Nat.add_zero, a0] at k3; cases k3; exact hall.2.1
          · rw [a1] at k3; cases k3; exact hall.2.2.1
          · rw [a2] at k3; cases k3; exact hall.2.2.2
        · exact v1 ⟨s, d, q, hq, by omega, by omega, k3, k4⟩
      · intro hgood
        have e : j + 1 - (n + 1) = j - n := by omega
        rw [e]
        exact v2 fun s k1 k2 => hgood s (by omega) (by omega)
    · rw [s1 hall]
      refine ⟨fun _ => rfl, ?_⟩
      intro hgood
      exfalso
      apply hall
      exact ⟨hm, hgood j (by omega) (by omega) 0 (by omega) _ (by rw [Nat.add_zero]; exact a0),
        hgood j (by omega) (by omega) 1 (by omega) _ a1, hgood j (by omega) (by omega) 2 (by omega) _ a2⟩

/-- A wrong approximation is noticed by no one in the first step either. -/
theorem composeSteps_two_approx {k : Kit α} {p : Params} (hv : ValidParams p) (hf : FilterLen k p) (hd : p.dimension = 2)
    {c : Channel α} (hc : ∀ s < p.steps, ∀ j < 3, ∃ d, c[s * 3 + j]? = some d ∧ FitsIn p (s + 1) d) (n i : ℕ) (hi : i < p.steps)
    {m : Mat α} (hm : FitsIn p (i + 1) m) (hno : ¬ Fits p (i + 1) m) :
    composeSteps p (transStack (stackP p (scaling k p))) (filters1D k p) c (n + 1) (i + 1) m = .ub := by
  obtain ⟨d0, a0, b0⟩ := hc i (by omega) 0 (by omega)
  obtain ⟨d1, a1, b1⟩ := hc i (by omega) 1 (by omega)
  obtain ⟨d2, a2, b2⟩ := hc i (by omega) 2 (by omega)
  rw [Nat.add_zero] at a0
  obtain ⟨s1, _⟩ := composeStep_two hv hf hd hi hm a0 a1 a2 b0 b1 b2
  rw [composeSteps, Nat.add_sub_cancel, ← bind_assoc, s1 (fun h => hno h.1)]
  rfl

/-! ### the whole call -/

/-- The matrices do not depend on the dimension of the call for what the steps see. -/
theorem compose_unfold {k : Kit α} {b : Buffer α} (hv : ValidParams b.params) (hf : FilterLen k b.params) (s : ℕ) :
    b.compose k s = (List.range b.params.signalNumber).mapM
      (composeChannel b.params (transStack (stackP b.params (scaling k b.params))) (filters1D k b.params) b.decs s) >>=
        fun ms => ms.mapM (finishChannel k b.params s) := by
  unfold Buffer.compose composeImpl
  rw [if_neg (by omega)]
  have hst : ∃ st, (if b.params.dimension = 2 then freshTrans k b.params else pure []) = .ok st ∧
      ∀ ch, composeChannel b.params st (filters1D k b.params) b.decs s ch =
        composeChannel b.params (transStack (stackP b.params (scaling k b.params))) (filters1D k b.params) b.decs s ch := by
    rcases shape_cases hv with ⟨n, hsh, hd⟩ | ⟨w, hh, hsh, hd⟩
    · exact ⟨[], by rw [if_neg (by omega)]; rfl, fun ch => composeChannel_stack hd _ _ _ _ _ _⟩
    · refine ⟨_, by rw [if_pos hd]; unfold freshTrans; rw [freshStack_ok hv hf]; rfl, fun ch => rfl⟩
  obtain ⟨st, h1, h2⟩ := hst
  rw [h1, Outcome.bind_ok, if_neg (by omega), if_neg (by omega)]
  have hl : loopChannels 0 (b.params.signalNumber : ℤ) = List.range b.params.signalNumber := by
    have := loopChannels_nat 0 b.params.signalNumber
    rw [Nat.cast_zero] at this
    rw [this, List.range_eq_range']
  rw [hl, Int.toNat_natCast, funext h2]

theorem finish_inv {k : Kit α} {p : Params} {s : ℕ} {m r : Mat α} (h : finishChannel k p s m = .ok r)
    (h0 : 0 < matRows (p.shape.map (· / 2 ^ s)) * matCols (p.shape.map (· / 2 ^ s))) :
    r.rows = matRows (p.shape.map (· / 2 ^ s)) ∧ r.cols = matCols (p.shape.map (· / 2 ^ s)) ∧ r.rows ≤ m.rows ∧ r.cols ≤ m.cols := by
  unfold finishChannel cropPadding crop at h
  rw [if_neg (by omega)] at h
  split at h
  · cases h
  · rename_i hle
    push Not at hle
    cases h
    split <;> simp [Mat.map, hle.1, hle.2]

theorem finish_of_le {k : Kit α} {p : Params} {s : ℕ} {m : Mat α} (h1 : matRows (p.shape.map (· / 2 ^ s)) ≤ m.rows)
    (h2 : matCols (p.shape.map (· / 2 ^ s)) ≤ m.cols) : ∃ r, finishChannel k p s m = .ok r := by
  unfold finishChannel cropPadding crop
  split
  · exact ⟨_, rfl⟩
  · rw [if_neg (by omega)]
    exact ⟨_, rfl⟩

theorem mapM_exists {β γ : Type} {f : β → Outcome γ} {l : List β} (h : ∀ x ∈ l, ∃ y, f x = .ok y) :
    ∃ r, l.mapM f = .ok r := by
  induction l with
  | nil => exact ⟨[], rfl⟩
  | cons a l ih =>
    obtain ⟨y, hy⟩ := h a (by simp)
    obtain ⟨r, hr⟩ := ih fun x hx => h x (by simp [hx])
    exact ⟨y :: r, by rw [List.mapM_cons, hy, Outcome.bind_ok, hr]; rfl⟩

/-- A normal return of the whole call, channel by channel. -/
theorem compose_iff {k : Kit α} {b : Buffer α} (hb : WellFormed b) (hf : FilterLen k b.params) (s : ℕ) :
    (∃ out, b.compose k s = .ok out) ↔ ∀ c ∈ b.decs, ∃ a m r, c[b.params.steps * subbandsPerWT b.params]? = some a ∧
      composeSteps b.params (transStack (stackP b.params (scaling k b.params))) (filters1D k b.params) c (b.params.steps - s)
        b.params.steps a = .ok m ∧ finishChannel k b.params s m = .ok r := by
  obtain ⟨hv, hl, hc⟩ := hb
  rw [compose_unfold hv hf]
  constructor
  · rintro ⟨out, h⟩ c hcm
    obtain ⟨i, hi, rfl⟩ := List.mem_iff_getElem.1 hcm
    cases hx : (List.range b.params.signalNumber).mapM
      (composeChannel b.params (transStack (stackP b.params (scaling k b.params))) (filters1D k b.params) b.decs s) with
    | throw => rw [hx] at h; cases h
    | ub => rw [hx] at h; cases h
    | ok ms =>
      rw [hx, Outcome.bind_ok] at h
      obtain ⟨_, g⟩ := Py.mapM_inv hx
      obtain ⟨m, hm, hch⟩ := g i i (by rw [List.getElem?_range (by omega)])
      obtain ⟨_, g'⟩ := Py.mapM_inv h
      obtain ⟨r, _, hr⟩ := g' i m hm
      have hlen := hc _ hcm
      rw [subbandCount, ← subbandsPerWT_eq] at hlen
      unfold composeChannel at hch
      rw [rd_ok hi, Outcome.bind_ok, rd_ok (by omega), Outcome.bind_ok] at hch
      exact ⟨_, m, r, List.getElem?_eq_getElem (by omega), hch, hr⟩
  · intro h
    have hx : ∀ ch ∈ List.range b.params.signalNumber, ∃ m, composeChannel b.params (transStack (stackP b.params (scaling k b.params)))
        (filters1D k b.params) b.decs s ch = .ok m ∧ ∃ r, finishChannel k b.params s m = .ok r := by
      intro ch hch
      rw [List.mem_range, ← hl] at hch
      obtain ⟨a, m, r, h1, h2, h3⟩ := h _ (List.getElem_mem hch)
      refine ⟨m, ?_, r, h3⟩
      unfold composeChannel
      rw [rd_ok hch, Outcome.bind_ok]
      rw [show rd b.decs[ch] (b.params.steps * subbandsPerWT b.params) = .ok a by simp [rd, h1], Outcome.bind_ok, h2]
    obtain ⟨ms, hms⟩ := mapM_exists fun ch hch => (hx ch hch).imp fun _ h => h.1
    rw [hms, Outcome.bind_ok]
    obtain ⟨l1, l2⟩ := Py.mapM_inv hms
    apply mapM_exists
    intro m hm
    obtain ⟨i, hi, rfl⟩ := List.mem_iff_getElem.1 hm
    have hi' : i < b.params.signalNumber := by simpa [l1] using hi
    obtain ⟨m', e1, e2⟩ := l2 i i (by rw [List.getElem?_range hi'])
    rw [List.getElem?_eq_getElem hi, Option.some.injEq] at e1
    obtain ⟨m'', e3, e4⟩ := hx i (by simpa using hi')
    rw [e2] at e3
    cases e3
    rw [e1]; exact e4

/-- Undefined behaviour of one channel when no channel throws. -/
theorem compose_ub {k : Kit α} {b : Buffer α} (hb : WellFormed b) (hf : FilterLen k b.params) (s : ℕ)
    (h1 : ∀ c ∈ b.decs, ∀ a, c[b.params.steps * subbandsPerWT b.params]? = some a →
      composeSteps b.params (transStack (stackP b.params (scaling k b.params))) (filters1D k b.params) c (b.params.steps - s)
        b.params.steps a ≠ .throw)
    (h2 : ∃ c ∈ b.decs, ∀ a, c[b.params.steps * subbandsPerWT b.params]? = some a →
      composeSteps b.params (transStack (stackP b.params (scaling k b.params))) (filters1D k b.params) c (b.params.steps - s)
        b.params.steps a = .ub) : b.compose k s = .ub := by
  obtain ⟨hv, hl, hc⟩ := hb
  rw [compose_unfold hv hf, Outcome.mapM_ub]
  · rfl
  · intro ch hch
    rw [List.mem_range, ← hl] at hch
    have hlen := hc _ (List.getElem_mem hch)
    rw [subbandCount, ← subbandsPerWT_eq] at hlen
    unfold composeChannel
    rw [rd_ok hch, Outcome.bind_ok, rd_ok (by omega), Outcome.bind_ok]
    exact h1 _ (List.getElem_mem hch) _ (List.getElem?_eq_getElem (by omega))
  · obtain ⟨c, hcm, h⟩ := h2
    obtain ⟨i, hi, rfl⟩ := List.mem_iff_getElem.1 hcm
    refine ⟨i, by rw [List.mem_range]; omega, ?_⟩
    have hlen := hc _ hcm
    rw [subbandCount, ← subbandsPerWT_eq] at hlen
    unfold composeChannel
    rw [rd_ok hi, Outcome.bind_ok, rd_ok (by omega), Outcome.bind_ok]
    exact h _ (List.getElem?_eq_getElem (by omega))

end Poly

end WB
