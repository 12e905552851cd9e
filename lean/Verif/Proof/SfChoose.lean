import Verif.Proof.SfAssign
import Verif.Proof.SfCompressor
import Verif.Spec.Code

/-!
The choice of code lengths gives a complete prefix code, if the largest number is not too large.
-/

namespace WB.Sf

open Finset Spec

theorem table_facts : ∀ exp : Bool, ∀ t < baseCount exp, codeQty exp t = 2 ^ Nat.log2 (codeQty exp t) ∧
    codeQty exp t + before (srcLast exp) t = before (srcLast exp) (t + 1) ∧ before (srcLast exp) t ≤ 4 * codeQty exp t ∧
    (t + 1 < baseCount exp → codeQty exp t ≤ codeQty exp (t + 1)) := by
  decide +kernel

theorem upTo_countUp (q : ℕ → ℕ) (p : ℕ) : upTo (countUp q) p = ∑ t ∈ range p, q t := by
  have h : ∀ p, countUp q p = ∑ t ∈ range (p + 1), q t := by
    intro p
    induction p with
    | zero => simp [countUp]
    | succ p ih => rw [countUp, ih, ← sum_range_succ]
  unfold upTo
  rcases p with _ | p
  · simp
  · rw [if_neg (by omega), Nat.add_sub_cancel, h]

theorem topUsed_top (q : ℕ → ℕ) (c : ℕ) (h : 0 < topUsed q c) : 0 < q (topUsed q c - 1) := by
  induction c with
  | zero => simp [topUsed] at h
  | succ c ih =>
    unfold topUsed at h ⊢
    split
    · simpa
    · rename_i h'
      rw [if_neg h'] at h
      exact ih h

theorem codeChoose_complete {r : Rounding} (hr : RoundsToNearest (FloatNumbers 53 (-1074)) r.toDouble) (old : Bool → ℕ → ℕ) (exp : Bool)
    {q : ℕ → ℕ} {n : ℕ} (hn : 0 < n) (hq : ∑ t ∈ range (baseCount exp), q t = n) {T : ℕ}
    (hT : before (srcLast exp) (topUsed q (baseCount exp)) ≤ T) (h1 : T * (n + 1) ≤ 2 ^ 32) (h2 : T * T + 2 * T ≤ 2 ^ 33) :
    ∃ lens, codeChoose r old exp n q = .ok lens ∧ CompleteCode (codeQty exp) (topUsed q (baseCount exp)) lens := by
  obtain ⟨hu, hu'⟩ := topUsed_spec q (baseCount exp)
  have htop := topUsed_top q (baseCount exp)
  have hcc : codeChoose r old exp n q = fill (codeQty exp) (topUsed q (baseCount exp)) 2048
      (assign r (srcLast exp) (countUp q) n (topUsed q (baseCount exp)) 33 0 ⟨old exp, 0, 0, 0⟩)
      (1 - ((List.range (topUsed q (baseCount exp))).map fun t => (codeQty exp t : ℚ) /
        2 ^ assign r (srcLast exp) (countUp q) n (topUsed q (baseCount exp)) 33 0 ⟨old exp, 0, 0, 0⟩ t).sum) := rfl
  rw [hcc]
  generalize topUsed q (baseCount exp) = used at *
  have hsum : ∑ t ∈ range used, q t = n := by
    rw [← hq]
    refine sum_subset (range_subset_range.2 hu) fun t ht hnt => ?_
    rw [mem_range] at ht hnt
    by_contra h
    exact hnt (hu' t ht (by omega))
  have hpos : 0 < used := by
    rcases Nat.eq_zero_or_pos used with h | h
    · rw [h] at hsum; simp at hsum; omega
    · exact h
  have hstep : ∀ t < used, codeQty exp t + before (srcLast exp) t = before (srcLast exp) (t + 1) := fun t ht => (table_facts exp t (by omega)).2.1
  have hpow : ∀ t < used, ∃ ν, codeQty exp t = 2 ^ ν := fun t ht => ⟨_, (table_facts exp t (by omega)).1⟩
  have hszpos : ∀ t < used, 0 < codeQty exp t := by
    intro t ht
    obtain ⟨ν, h⟩ := hpow t ht
    rw [h]; positivity
  have htab : TableOk (srcLast exp) (countUp q) n used := by
    refine ⟨hpos, ?_, ?_, ?_, ?_, ?_⟩
    · intro p p' h
      induction p', (h : p + 1 ≤ p') using Nat.le_induction with
      | base =>
        intro h'
        show before (srcLast exp) p < before (srcLast exp) (p + 1)
        have := hstep p (by omega)
        have := hszpos p (by omega)
        omega
      | succ p' hp ih =>
        intro h'
        have := ih (by omega)
        have := hstep p' (by omega)
        have := hszpos p' (by omega)
        omega
    · have : before (srcLast exp) used * (n + 1) ≤ 2 ^ 32 := (Nat.mul_le_mul_right _ hT).trans h1
      exact_mod_cast this
    · intro p p' h _
      rw [upTo_countUp, upTo_countUp]
      exact sum_le_sum_of_subset (range_subset_range.2 h)
    · rw [upTo_countUp, hsum]
    · intro p hp
      rw [upTo_countUp, ← hsum]
      have hlt := htop hpos
      exact sum_lt_sum_of_subset (range_subset_range.2 hp.le) (i := used - 1) (by rw [mem_range]; omega) (by rw [mem_range]; omega) hlt
        fun _ _ _ => Nat.zero_le _
  obtain ⟨gs, -, hg⟩ := assign_groups hr htab 33 0 ⟨old exp, 0, 0, 0⟩ (by norm_num) (by norm_num) hpos rfl rfl
  generalize assign r (srcLast exp) (countUp q) n used 33 0 ⟨old exp, 0, 0, 0⟩ = lens at *
  have hsp := hg.space_le htab hstep hpow (fun t ht => (table_facts exp t (by omega)).2.2.1) (by
    have h3 : before (srcLast exp) used * before (srcLast exp) used + 2 * before (srcLast exp) used ≤ 2 ^ 33 :=
      le_trans (Nat.add_le_add (Nat.mul_le_mul hT hT) (Nat.mul_le_mul_left _ hT)) h2
    have h4 : (before (srcLast exp) used : ℝ) * before (srcLast exp) used + 2 * before (srcLast exp) used ≤ 2 ^ 33 := by exact_mod_cast h3
    nlinarith)
  have hl := hg.lens_ge
  have hfree : (1 : ℚ) - ((List.range used).map fun t => (codeQty exp t : ℚ) / 2 ^ lens t).sum =
      1 - ∑ t ∈ range used, (codeQty exp t : ℚ) / 2 ^ lens t := by
    congr 1
  have hs := sum_space (size := codeQty exp) (lens := lens) (used := used) fun t ht => by have := (hl t (Nat.zero_le _) ht).2; omega
  obtain ⟨lens', e1, e2, e3, e4⟩ := fill_spec hpos hpow (fun t ht => (table_facts exp t (by omega)).2.2.2 (by omega)) 2048 lens _
    ⟨hfree, by
      rw [hfree, hs, sub_nonneg, div_le_one (by norm_num)]
      exact_mod_cast hsp, fun t ht => hg.mono t (Nat.zero_le _) ht, fun t ht => by have := (hl t (Nat.zero_le _) ht).2; omega⟩ (by
      have : ∑ t ∈ range used, lens t ≤ ∑ t ∈ range used, 31 := sum_le_sum fun t ht => (hl t (Nat.zero_le _) (mem_range.1 ht)).2
      rw [sum_const, card_range, smul_eq_mul] at this
      have hb : baseCount exp ≤ 63 := by cases exp <;> decide
      omega)
  exact ⟨lens', e1, e2, fun t ht => (e3 t).trans (hl t (Nat.zero_le _) ht).2, e4⟩

/-! ### the tables of an input -/

theorem dsQty_sum (exp : Bool) (slots : List Slot) : ∑ t ∈ range (baseCount exp), dsQty exp slots t = slots.length := by
  induction slots with
  | nil => simp [dsQty]
  | cons s slots ih =>
    have h : ∀ t, dsQty exp (s :: slots) t = dsQty exp slots t + if findSrc exp (s.sym exp) = t then 1 else 0 := by
      intro t
      unfold dsQty
      rw [List.filter_cons]
      by_cases h : findSrc exp (s.sym exp) = t <;> simp [h]
    simp only [h, sum_add_distrib, ih, List.length_cons, Nat.add_left_cancel_iff]
    rw [sum_ite_eq, if_pos (mem_range.2 (findSrc_spec exp _).1)]

theorem gap_facts : ∀ exp : Bool, ∀ t < baseCount exp, 2 * srcLast exp t ≤ 3 * (if t = 0 then 0 else srcLast exp (t - 1) + 1) := by
  decide +kernel

/-- The codes in use for symbols up to `G`. -/
theorem before_used {exp : Bool} {slots : List Slot} {G : ℕ} (hG : ∀ s ∈ slots, s.sym exp ≤ G) :
    2 * before (srcLast exp) (poolsUsed exp slots) ≤ 3 * G + 2 := by
  unfold poolsUsed
  rcases Nat.eq_zero_or_pos (topUsed (dsQty exp slots) (baseCount exp)) with h0 | h0
  · rw [h0]; simp [before]
  · have h1 := topUsed_top _ _ h0
    have h2 := (topUsed_spec (dsQty exp slots) (baseCount exp)).1
    generalize topUsed (dsQty exp slots) (baseCount exp) = used at *
    unfold dsQty at h1
    obtain ⟨s, hs⟩ := List.exists_mem_of_length_pos h1
    rw [List.mem_filter] at hs
    have h3 := of_decide_eq_true hs.2
    obtain ⟨-, h4, -⟩ := findSrc_spec exp (s.sym exp)
    have h5 := hG s hs.1
    unfold before
    rw [if_neg (by omega)]
    have h6 := gap_facts exp (used - 1) (by omega)
    by_cases h : used - 1 = 0
    · rw [if_pos h] at h6
      omega
    · rw [if_neg h] at h6
      have := h4 (used - 1 - 1) (by omega)
      omega

theorem before_used_small {slots : List Slot} (hG : ∀ s ∈ slots, s.zeros ≤ 65536) : before (srcLast false) (poolsUsed false slots) ≤ 65537 := by
  unfold poolsUsed
  have h1 := topUsed_top (dsQty false slots) (baseCount false)
  have h2 := (topUsed_spec (dsQty false slots) (baseCount false)).1
  generalize topUsed (dsQty false slots) (baseCount false) = used at *
  have h33 : srcLast false 32 = 65536 := by decide +kernel
  have hle : used ≤ 33 := by
    by_contra hc
    have h1 := h1 (by omega)
    unfold dsQty at h1
    obtain ⟨s, hs⟩ := List.exists_mem_of_length_pos h1
    rw [List.mem_filter] at hs
    have h3 := of_decide_eq_true hs.2
    obtain ⟨-, h4, -⟩ := findSrc_spec false (s.sym false)
    have h5 : s.sym false ≤ 65536 := hG s hs.1
    have := h4 32 (by omega)
    omega
  unfold before
  split
  · omega
  · have := srcLast_le false (i := used - 1) (j := 32) (by omega) (by decide)
    omega

theorem timeline_runs {frag : ℕ} : ∀ (l : List (ℕ × F32)) (prev : Option ℕ) (last next : ℕ) (slots : List Slot),
    timeline frag prev last l = .ok slots → next = (prev.elim 0 fun p => p + 1) → (∀ a ∈ l, next ≤ a.1 ∧ a.1 < 2147483648) →
    (l.map Prod.fst).Pairwise (· < ·) → slots.map Slot.zeros = zeroRuns next (l.map Prod.fst)
  | [], _, _, _, _, h, _, _, _ => by cases h; rfl
  | (i, x) :: rest, prev, last, next, slots, h, hn, hr, hp => by
    unfold timeline at h
    cases hb : toBF frag x with
    | ub => rw [hb] at h; cases h
    | throw => rw [hb] at h; cases h
    | ok b =>
      rw [hb, Outcome.bind_ok] at h
      cases hs : timeline frag (some i) b.exp rest with
      | ub => rw [hs] at h; cases h
      | throw => rw [hs] at h; cases h
      | ok ss =>
        rw [hs, Outcome.bind_ok] at h
        cases h
        rw [List.map_cons, List.pairwise_cons] at hp
        have ih := timeline_runs rest (some i) b.exp (i + 1) ss hs rfl (fun a ha =>
          ⟨hp.1 a.1 (List.mem_map_of_mem ha), (hr a (List.mem_cons_of_mem _ ha)).2⟩) hp.2
        have hi := hr (i, x) (List.mem_cons_self ..)
        simp only [List.map_cons, zeroRuns, ih]
        congr 1
        subst hn
        cases prev with
        | none =>
          show sub32 i 0 = i - 0
          simp only at hi
          exact sub32_eq (by omega) (by omega)
        | some p =>
          simp only [Option.elim] at hi ⊢
          rw [u32_eq (by omega), Nat.add_comm 1 p]
          exact sub32_eq (by omega) (by omega)

theorem timeline_jumps {frag : ℕ} : ∀ (l : List (ℕ × F32)) (prev : Option ℕ) (last : ℕ) (slots : List Slot),
    timeline frag prev last l = .ok slots → slots.length = l.length
  | [], _, _, _, h => by cases h; rfl
  | (i, x) :: rest, prev, last, slots, h => by
    unfold timeline at h
    cases hb : toBF frag x with
    | ub => rw [hb] at h; cases h
    | throw => rw [hb] at h; cases h
    | ok b =>
      rw [hb, Outcome.bind_ok] at h
      cases hs : timeline frag (some i) b.exp rest with
      | ub => rw [hs] at h; cases h
      | throw => rw [hs] at h; cases h
      | ok ss =>
        rw [hs, Outcome.bind_ok] at h
        cases h
        simp [timeline_jumps rest (some i) b.exp ss hs]

/-- The exponent table has at most 257 codes. -/
theorem before_jumps (slots : List Slot) : before (srcLast true) (poolsUsed true slots) ≤ 257 := by
  unfold poolsUsed
  have h2 := (topUsed_spec (dsQty true slots) (baseCount true)).1
  generalize topUsed (dsQty true slots) (baseCount true) = used at *
  have h16 : srcLast true 15 = 256 := by decide +kernel
  have hb : baseCount true = 16 := rfl
  unfold before
  split
  · omega
  · have := srcLast_le true (i := used - 1) (j := 15) (by omega) (by decide)
    omega

theorem zeroRuns_le {N : ℕ} : ∀ (is : List ℕ) (next : ℕ), is.Pairwise (· < ·) → (∀ i ∈ is, next ≤ i ∧ i < N) →
    ∀ z ∈ zeroRuns next is, z + is.length + next ≤ N
  | [], _, _, _ => by simp [zeroRuns]
  | i :: is, next, hp, hi => by
    have hle : (i :: is).length + i ≤ N := by
      have : ∀ (l : List ℕ) (m : ℕ), l.Pairwise (· < ·) → (∀ i ∈ l, m ≤ i ∧ i < N) → m ≤ N → l.length + m ≤ N := by
        intro l
        induction l with
        | nil => intro m _ _ h; simpa using h
        | cons a l ih =>
          intro m hp hi hm
          rw [List.pairwise_cons] at hp
          have := ih (a + 1) hp.2 (fun j hj => ⟨hp.1 j hj, (hi j (List.mem_cons_of_mem _ hj)).2⟩) (hi a (List.mem_cons_self ..)).2
          have := (hi a (List.mem_cons_self ..)).1
          simp only [List.length_cons]
          omega
      refine this _ _ hp (fun j hj => ⟨?_, (hi j hj).2⟩) (hi i (List.mem_cons_self ..)).2.le
      rcases List.mem_cons.1 hj with rfl | hj
      · exact le_rfl
      · exact (List.pairwise_cons.1 hp).1 j hj |>.le
    have h0 := hi i (List.mem_cons_self ..)
    intro z hz
    rw [zeroRuns, List.mem_cons] at hz
    rcases hz with rfl | hz
    · omega
    · rw [List.pairwise_cons] at hp
      have := zeroRuns_le is (i + 1) hp.2 (fun j hj => ⟨hp.1 j hj, (hi j (List.mem_cons_of_mem _ hj)).2⟩) z hz
      simp only [List.length_cons]
      omega

/-- The choice works for an input whose runs of zeros are not too long. -/
theorem codeChoose_works {r : Rounding} (hr : RoundsToNearest (FloatNumbers 53 (-1074)) r.toDouble) (old : Bool → ℕ → ℕ) {o : Origin}
    (hlen : o.indexes.length = o.values.length) (hne : o.indexes ≠ []) (hinc : o.indexes.Pairwise (· < ·)) (hlt : ∀ i ∈ o.indexes, i < 2 ^ 31)
    {G : ℕ} (hG : ∀ z ∈ zeroRuns 0 o.indexes, z ≤ G) (hG1 : G ≤ 65536) (hn1 : o.indexes.length ≤ 16000000)
    (hn2 : (3 * G + 2) * (o.indexes.length + 1) ≤ 2 ^ 33 ∨ o.indexes.length ≤ 65534) (slots : List Slot)
    (hs : timeline o.frag none 127 (o.indexes.zip o.values) = .ok slots) (exp : Bool) :
    ∃ lens, codeChoose r old exp o.indexes.length (dsQty exp slots) = .ok lens ∧ CompleteCode (codeQty exp) (poolsUsed exp slots) lens := by
  norm_num at hlt
  have hmap : (o.indexes.zip o.values).map Prod.fst = o.indexes := List.map_fst_zip hlen.le
  have hl : slots.length = o.indexes.length := by rw [timeline_jumps _ _ _ _ hs, List.length_zip, hlen]; simp
  have hpos : 0 < o.indexes.length := List.length_pos_iff.2 hne
  have hz : slots.map Slot.zeros = zeroRuns 0 o.indexes := by
    rw [← hmap]
    refine timeline_runs _ none 127 0 slots hs rfl (fun a ha => ⟨Nat.zero_le _, hlt _ ?_⟩) (by rw [hmap]; exact hinc)
    rw [← hmap]
    exact List.mem_map_of_mem ha
  have hzG : ∀ s ∈ slots, s.zeros ≤ G := fun s hs => hG _ (by rw [← hz]; exact List.mem_map_of_mem hs)
  have hsum := (dsQty_sum exp slots).trans hl
  cases exp with
  | true =>
    refine codeChoose_complete hr old true hpos hsum (T := 257) (before_jumps slots) ?_ (by norm_num)
    norm_num
    omega
  | false =>
    have h1 := before_used_small fun s hs => (hzG s hs).trans hG1
    have h2 := before_used (exp := false) (slots := slots) (G := G) hzG
    refine codeChoose_complete hr old false hpos hsum (T := before (srcLast false) (poolsUsed false slots)) le_rfl ?_ ?_
    · norm_num at hn2 ⊢
      rcases hn2 with hn2 | hn2
      · have := (Nat.mul_le_mul_right (o.indexes.length + 1) h2).trans hn2
        rw [Nat.mul_assoc] at this
        omega
      · exact (Nat.mul_le_mul h1 (by omega : o.indexes.length + 1 ≤ 65535)).trans (by norm_num)
    · exact (Nat.add_le_add (Nat.mul_le_mul h1 h1) (Nat.mul_le_mul_left 2 h1)).trans (by norm_num)

end WB.Sf
