import Verif.Proof.Cache

/-!
A channel that was decomposed successfully holds samples, whatever the data and the denoiser.
-/

set_option linter.unusedSectionVars false

namespace WB

open Spec

variable {α : Type}

section
variable [Zero α] [Add α] [Mul α] [Neg α] [Inhabited α]

theorem extend_size {rows cols : ℕ} {loc : PadLoc} {m r : Mat α} (h : extend rows cols loc m = .ok r)
    (hne : rows * cols ≠ 0) : r.rows = rows ∧ r.cols = cols := by
  by_cases h1 : rows < m.rows ∨ cols < m.cols
  · unfold extend at h; rw [if_neg hne, if_pos h1] at h; cases h
  by_cases h2 : m.cols = 0
  · unfold extend at h; rw [if_neg hne, if_neg h1, if_pos h2] at h; cases h
  by_cases h3 : m.rows = 0
  · unfold extend at h; rw [if_neg hne, if_neg h1, if_neg h2, if_pos h3] at h; cases h
  rw [extend_ok _ _ _ _ (by omega) (by omega) (by omega) (by omega)] at h
  cases h
  exact ⟨rfl, rfl⟩

theorem stepO_null {p : Params} {stack : Stack α} {f : Filters α} {den : Denoiser α} {s : ℕ} {m : Mat α}
    {r : List (Mat α) × Mat α} (h : stepO p stack f den s m = .ok r) :
    ∃ ds, stepO p stack f nullDenoiser s m = .ok (ds, r.2) := by
  unfold stepO at h ⊢
  split_ifs at h ⊢ with hd
  · cases hx : column0 m with
    | throw => rw [hx] at h; cases h
    | ub => rw [hx] at h; cases h
    | ok x =>
      rw [hx, Outcome.bind_ok] at h
      rw [Outcome.bind_ok]
      cases hy : dwt x f.loD.reverse f.hiD.reverse with
      | throw => rw [hy] at h; cases h
      | ub => rw [hy] at h; cases h
      | ok y =>
        rw [hy, Outcome.bind_ok] at h
        rw [Outcome.bind_ok]
        split_ifs at h with hl
        cases h
        exact ⟨_, by simp [nullDenoiser]; rfl⟩
  · cases hx : rd stack s with
    | throw => rw [hx] at h; cases h
    | ub => rw [hx] at h; cases h
    | ok x =>
      rw [hx, Outcome.bind_ok] at h
      rw [Outcome.bind_ok]
      cases hw : rd x 0 with
      | throw => rw [hw] at h; cases h
      | ub => rw [hw] at h; cases h
      | ok w =>
        rw [hw, Outcome.bind_ok] at h
        rw [Outcome.bind_ok]
        cases hv : rd x 1 with
        | throw => rw [hv] at h; cases h
        | ub => rw [hv] at h; cases h
        | ok v =>
          rw [hv, Outcome.bind_ok] at h
          rw [Outcome.bind_ok]
          cases hq : dwt2 m w v with
          | throw => rw [hq] at h; cases h
          | ub => rw [hq] at h; cases h
          | ok q =>
            rw [hq, Outcome.bind_ok] at h
            rw [Outcome.bind_ok]
            cases h
            exact ⟨_, rfl⟩

theorem stepsO_null {p : Params} {stack : Stack α} {f : Filters α} {den : Denoiser α} {rem : ℕ} {m : Mat α}
    {r : List (Mat α) × Mat α} (h : stepsO p stack f den rem m = .ok r) :
    ∃ ds, stepsO p stack f nullDenoiser rem m = .ok (ds, r.2) := by
  induction rem generalizing m r with
  | zero => cases h; exact ⟨[], rfl⟩
  | succ rem ih =>
    simp only [stepsO] at h ⊢
    cases hs : stepO p stack f den (p.steps - (rem + 1)) m with
    | throw => rw [hs] at h; cases h
    | ub => rw [hs] at h; cases h
    | ok x =>
      rw [hs, Outcome.bind_ok] at h
      obtain ⟨ds, hds⟩ := stepO_null hs
      rw [hds, Outcome.bind_ok]
      cases hr : stepsO p stack f den rem x.2 with
      | throw => rw [hr] at h; cases h
      | ub => rw [hr] at h; cases h
      | ok y =>
        rw [hr, Outcome.bind_ok] at h
        cases h
        obtain ⟨es, hes⟩ := ih hr
        simp only
        rw [hes, Outcome.bind_ok]
        exact ⟨_, rfl⟩

theorem padded_pos {p : Params} (hv : ValidParams p) (hpos : ∀ n ∈ p.shape, 0 < n) :
    0 < matRows (paddedShape p) / 2 ^ p.steps ∧ 0 < matCols (paddedShape p) ∧
      (p.dimension ≠ 1 → 0 < matCols (paddedShape p) / 2 ^ p.steps) := by
  by_cases ht : p.wtype = 0
  · have hst : p.steps = 0 := by have := hv.2.2; rw [if_pos ht] at this; exact this
    have : paddedShape p = p.shape := by simp [paddedShape, ht]
    rw [this, hst]
    rcases shape_cases hv with ⟨n, hsh, hd⟩ | ⟨w, hh, hsh, hd⟩
    · rw [hsh] at hpos ⊢; simp [matRows, matCols] at hpos ⊢; exact hpos
    · rw [hsh] at hpos ⊢; simp [matRows, matCols] at hpos ⊢; omega
  · have key : ∀ n ∈ p.shape, 0 < paddedDim p.steps n / 2 ^ p.steps := by
      intro n hn
      obtain ⟨hdv, hle, _⟩ := paddedDim_spec p.steps n (hpos n hn)
      have := hpos n hn
      exact Nat.div_pos (Nat.le_of_dvd (by omega) hdv) (by positivity)
    have key2 : ∀ n ∈ p.shape, 0 < paddedDim p.steps n := by
      intro n hn
      have := key n hn
      by_contra hc
      rw [Nat.eq_zero_of_not_pos hc] at this
      simp at this
    rw [paddedShape_of_wavelet ht]
    rcases shape_cases hv with ⟨n, hsh, hd⟩ | ⟨w, hh, hsh, hd⟩
    · rw [hsh] at key ⊢; simp [matRows, matCols, hd] at key ⊢; exact key
    · rw [hsh] at key key2 ⊢
      simp only [List.mem_cons, List.not_mem_nil, or_false, forall_eq_or_imp, forall_eq] at key key2
      simp only [List.map_cons, List.map_nil, matRows, matCols]
      exact ⟨key.2, key2.1, fun _ => key.1⟩

/-- The last subband of a channel that was computed holds samples. -/
theorem chanO_nonempty {k : Kit α} {p : Params} (hv : ValidParams p) (hf : FilterLen k p) (hpos : ∀ n ∈ p.shape, 0 < n)
    {stack : Stack α} (hst : (if p.dimension = 2 then freshStack k p else pure []) = .ok stack)
    {den : Denoiser α} {m : Mat α} {c : Channel α} (h : chanO p stack (filters1D k p) den m = .ok c) :
    ∃ l ∈ c, l.rows * l.cols ≠ 0 := by
  obtain ⟨stack', h1, h2⟩ := getStack_eq hv hf den
  rw [hst] at h1
  cases h1
  rw [h2] at h
  unfold chanO at h
  cases hp : addPadding m (paddedShape p) with
  | throw => rw [hp] at h; cases h
  | ub => rw [hp] at h; cases h
  | ok m0 =>
    rw [hp, Outcome.bind_ok] at h
    obtain ⟨q1, q2, q3⟩ := padded_pos hv hpos
    have hr0 : 0 < matRows (paddedShape p) := by
      by_contra hc; rw [Nat.eq_zero_of_not_pos hc] at q1; simp at q1
    have hsz := extend_size hp (by positivity)
    have hfit : Fits p 0 m0 := by
      refine ⟨by simpa using hsz.1, ?_⟩
      rcases shape_cases hv with ⟨n, hsh, hd⟩ | ⟨w, hh, hsh, hd⟩
      · rw [if_pos hd, hsz.2]
        unfold paddedShape
        split_ifs <;> simp [hsh, matCols]
      · rw [if_neg (by omega), hsz.2]; simp
    cases hq : stepsO p (stackP p (scaling k p)) (filters1D k p) den p.steps m0 with
    | throw => rw [hq] at h; cases h
    | ub => rw [hq] at h; cases h
    | ok r =>
      rw [hq, Outcome.bind_ok] at h
      cases h
      obtain ⟨ds, hds⟩ := stepsO_null hq
      have hn := stepsO_ok (den := nullDenoiser) hv hf (fun _ => nullDenoiser_sized) hfit p.steps le_rfl
      rw [Nat.sub_self] at hn
      have h0 : sig p (scaling k p) m0 0 = m0 := rfl
      rw [h0, hds] at hn
      simp only [Outcome.ok.injEq, Prod.mk.injEq] at hn
      refine ⟨r.2, by simp, ?_⟩
      rw [hn.2]
      obtain ⟨f1, f2⟩ := fits_sig (k := k) hv hfit le_rfl
      rw [f1, f2]
      split_ifs with hd
      · have := q1; positivity
      · have := q3 hd; positivity

/-- A successful decomposition of at least one channel stores samples. -/
theorem decO_nonempty {k : Kit α} {p : Params} (hv : ValidParams p) (hf : FilterLen k p) (hpos : ∀ n ∈ p.shape, 0 < n)
    {data : List (Mat α)} {den : Denoiser α} {n : ℕ} {cs : Decs α} (hn : 0 < n)
    (h : decO k p data den n = .ok (some cs)) : ∃ c ∈ cs, ∃ l ∈ c, l.rows * l.cols ≠ 0 := by
  unfold decO at h
  cases hs : shapeCheck p data (n : ℤ) with
  | throw => rw [hs] at h; cases h
  | ub => rw [hs] at h; cases h
  | ok good =>
    rw [hs, Outcome.bind_ok] at h
    cases good with
    | false => cases h
    | true =>
      rw [if_pos rfl] at h
      cases hst : (if p.dimension = 2 then freshStack k p else pure []) with
      | throw => rw [hst] at h; cases h
      | ub => rw [hst] at h; cases h
      | ok stack =>
        rw [hst, Outcome.bind_ok] at h
        obtain ⟨n', rfl⟩ := Nat.exists_eq_succ_of_ne_zero (by omega : n ≠ 0)
        rw [List.range'_succ, List.mapM_cons] at h
        cases hr : (rd data 0 >>= chanO p stack (filters1D k p) den) with
        | throw => rw [hr] at h; cases h
        | ub => rw [hr] at h; cases h
        | ok c =>
          rw [hr, Outcome.bind_ok] at h
          cases hm : (List.range' (0 + 1) n').mapM (fun j => rd data j >>= chanO p stack (filters1D k p) den) with
          | throw => rw [hm] at h; cases h
          | ub => rw [hm] at h; cases h
          | ok cs' =>
            rw [hm] at h
            cases h
            refine ⟨c, by simp, ?_⟩
            cases hd : rd data 0 with
            | throw => rw [hd] at hr; cases hr
            | ub => rw [hd] at hr; cases hr
            | ok m =>
              rw [hd, Outcome.bind_ok] at hr
              exact chanO_nonempty hv hf hpos hst hr

end

end WB
