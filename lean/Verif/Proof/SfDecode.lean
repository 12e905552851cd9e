import Verif.Proof.SfValue

/-! Reading the values and the header of the version-2 compressor. -/

namespace WB.Sf

open WB.Spec

/-- Sign and fraction are read back. -/
theorem fragment_reads {γ : Type} {L sgnU sg f : ℕ} (hL : FragOk L) (hf : f < 2 ^ L) (hsg : sg ≤ 1) (h3 : sgnU = 3 ∨ sg + 1 = sgnU)
    {k : Bool → ℕ → Get γ} {bits : List Bool} {y : γ} (h : Reads (k (decide (sg = 1)) f) bits y) :
    Reads (Get.bind (if sgnU = 3 then Get.bind (fromBits 1) fun b => Get.pure (decide (b = 1)) else Get.pure (decide (sgnU ≠ 1)))
        fun neg => Get.bind (fromBits L) fun f => k neg f)
      (selBits ((f + sg * 2 ^ L) % 2 ^ (if sgnU = 3 then L + 1 else L)) (2 ^ (if sgnU = 3 then L + 1 else L)) ++ bits) y := by
  obtain ⟨h7, h23⟩ := hL
  by_cases hs : sgnU = 3
  · simp only [if_pos hs]
    rw [selBits_pow (by omega), bitsOf_mod, Nat.add_comm L 1, bitsOf_append]
    have e1 : (f + sg * 2 ^ L) / 2 ^ L = sg := by
      rw [Nat.add_mul_div_right _ _ (by positivity), Nat.div_eq_of_lt hf, Nat.zero_add]
    have e2 : bitsOf L (f + sg * 2 ^ L) = bitsOf L f := by
      rw [← bitsOf_mod, Nat.add_mul_mod_self_right, Nat.mod_eq_of_lt hf]
    rw [e1, e2, List.append_assoc]
    refine Reads.bind (x := decide (sg = 1)) ?_ ?_
    · have := Reads.bind (fromBits_reads (k := 1) (v := sg) (by omega) (by omega))
        (f := fun b => Get.pure (decide (b = 1))) (Reads.pure (decide (sg = 1)))
      simpa using this
    · exact Reads.bind (fromBits_reads (by omega) hf) h
  · simp only [if_neg hs]
    rw [selBits_pow (by omega), bitsOf_mod]
    have e2 : bitsOf L (f + sg * 2 ^ L) = bitsOf L f := by
      rw [← bitsOf_mod, Nat.add_mul_mod_self_right, Nat.mod_eq_of_lt hf]
    rw [e2, ← List.nil_append (bitsOf L f ++ bits)]
    refine Reads.bind (Reads.pure _) ?_
    have : decide (sgnU ≠ 1) = decide (sg = 1) := by
      rcases h3 with h3 | h3
      · exact absurd h3 hs
      · exact decide_eq_decide.2 (by omega)
    rw [this]
    exact Reads.bind (fromBits_reads (by omega) hf) h

theorem slots_read {zeros jumps : List Entry} {Z J : Table} {L sgnU cap : ℕ} (hL : FragOk L) (l : List (ℕ × F32)) :
    ∀ (prev : Option ℕ) (last idx pos : ℕ), Rising prev l → last < 256 → (prev = none ∧ idx = 4294967295 ∨ prev = some idx) →
      (∀ a ∈ l, RoundsFinite L a.2) → (∀ s ∈ slotsOf L prev last l, SlotReads zeros jumps Z J s) →
      (sgnU = 3 ∨ ∀ s ∈ slotsOf L prev last l, s.sgn + 1 = sgnU) → pos + l.length ≤ cap →
      ∃ fs, slotsFields zeros jumps true (2 ^ (if sgnU = 3 then L + 1 else L)) (slotsOf L prev last l) = .ok fs ∧
        fs.length ≤ 3 * l.length ∧ (∀ f ∈ fs, f.1 < f.2 ∧ f.2 ≤ 2 ^ 31) ∧
        Reads (readValues cap J Z sgnU L true l.length pos idx last) (bitsOfFields fs) (l.map Prod.fst, l.map fun a => roundTo L a.2) := by
  induction l with
  | nil =>
    intro prev last idx pos _ _ _ _ _ _ _
    exact ⟨[], rfl, by simp, by simp, Reads.pure _⟩
  | cons a l ih =>
    obtain ⟨i, x⟩ := a
    intro prev last idx pos hr hlast hidx hfin hslots hsgn hcap
    obtain ⟨r1, r2, r3⟩ := hr
    simp only [List.length_cons] at hcap
    have hx : RoundsFinite L x := hfin (i, x) (by simp)
    have hm := mant_lt hL hx
    obtain ⟨fz, fj, s1, s2, s3, s4, s5, s6⟩ := slot_syms (hslots (slotOf L prev last i x) (by simp [slotsOf]))
      (2 ^ (if sgnU = 3 then L + 1 else L))
    obtain ⟨fs, i1, i2, i3, i4⟩ := ih (some i) (mant L x.toNat / 2 ^ L) i (pos + 1) r3 (by omega) (Or.inr rfl)
      (fun a ha => hfin a (by simp [ha])) (fun s hs => hslots s (by simp [slotsOf, hs]))
      (hsgn.imp id fun h s hs => h s (by simp [slotsOf, hs])) (by omega)
    have hs1 : x.toNat / 2147483648 ≤ 1 := by have := x.isLt; omega
    have hpow : 2 ^ (if sgnU = 3 then L + 1 else L) ≤ 2 ^ 31 := by
      apply Nat.pow_le_pow_right (by norm_num)
      have := hL.2
      split <;> omega
    refine ⟨fz ++ fj ++ [((slotOf L prev last i x).frag % 2 ^ (if sgnU = 3 then L + 1 else L), 2 ^ (if sgnU = 3 then L + 1 else L))] ++ fs,
      ?_, ?_, ?_, ?_⟩
    · unfold slotsOf slotsFields
      rw [s1, i1]; rfl
    · simp only [List.length_append, List.length_cons, List.length_nil]; omega
    · intro f hf
      rw [List.mem_append, List.mem_append] at hf
      rcases hf with (hf | hf) | hf
      · exact s4 f hf
      · rw [List.mem_singleton] at hf
        subst hf
        exact ⟨Nat.mod_lt _ (by positivity), hpow⟩
      · exact i3 f hf
    · rw [List.length_cons]
      unfold readValues
      rw [if_neg (by omega), if_pos rfl, bitsOfFields_append, bitsOfFields_append, bitsOfFields_append, List.append_assoc,
        List.append_assoc]
      refine Reads.bind s5 ?_
      refine Reads.bind s6 ?_
      have hj : u8 (slotOf L prev last i x).jump = expJump last (mant L x.toNat / 2 ^ L) := u8_eq expJump_lt
      simp only [hj, expOfJump_expJump hlast (show mant L x.toNat / 2 ^ L < 256 by omega)]
      rw [bitsOfFields_cons, bitsOfFields_nil, List.append_nil]
      refine fragment_reads (sg := x.toNat / 2147483648) (f := mant L x.toNat % 2 ^ L) hL (Nat.mod_lt _ (by positivity)) hs1
        (hsgn.imp id fun h => h _ (List.mem_cons_self ..))
        (k := fun neg f => Get.bind (Get.lift (toFloat neg L (mant L x.toNat / 2 ^ L) f)) fun x' =>
          Get.bind (readValues cap J Z sgnU L true l.length (pos + 1) (u32 (idx + 1 + (slotOf L prev last i x).zeros)) (mant L x.toNat / 2 ^ L))
            fun r => Get.pure (if true = true then (u32 (idx + 1 + (slotOf L prev last i x).zeros) :: r.1, x' :: r.2) else (r.1, x' :: r.2))) ?_
      simp only
      rw [toFloat_eq hL hx, ← List.nil_append (bitsOfFields fs)]
      refine Reads.bind (Reads.lift _) ?_
      have hi : u32 (idx + 1 + (slotOf L prev last i x).zeros) = i := by
        rw [slotOf_zeros r1 r2]
        rcases hidx with ⟨rfl, rfl⟩ | rfl
        · show u32 (4294967295 + 1 + (i - 0)) = i
          unfold u32; omega
        · have := r1 idx rfl
          show u32 (idx + 1 + (i - (1 + idx))) = i
          unfold u32; omega
      rw [hi, ← List.append_nil (bitsOfFields fs)]
      refine Reads.bind i4 ?_
      exact Reads.pure _

/-! ### The pools -/

theorem Good.zero_first {exp : Bool} {es : List Entry} (h : Good exp 1 0 (-1) (-1) es) (h0 : (es.headD ⟨0, 0, 0, 0⟩).len = 0) (hne : es ≠ []) :
    ∃ e : Entry, es = [e] ∧ e.len = 0 ∧ e.last = 0 ∧ e.offset = 0 := by
  obtain ⟨e, es, rfl⟩ := List.exists_cons_of_ne_nil hne
  have h0' : e.len = 0 := h0
  obtain ⟨-, -, -, -, -, h6, h7, h8⟩ := h
  rw [h0'] at h7 h8
  have hn := h8.nonneg
  have hl : e.last = 0 := by
    have : (e.last : ℚ) ≤ 0 := by push_cast at hn; linarith
    have : e.last ≤ 0 := by exact_mod_cast this
    omega
  have ho : e.offset = 0 := by
    have : (e.offset : ℚ) = 0 := by rw [h7]; push_cast; ring
    exact_mod_cast this
  refine ⟨e, ?_, h0', hl, ho⟩
  cases es with
  | nil => rfl
  | cons e2 es =>
    have := h8.pos
    rw [hl] at this
    push_cast at this
    linarith

/-- Everything about one pool: its fields are read back to a table with which every symbol is read back. -/
theorem pool_ready {exp : Bool} {es : List Entry} {len0 : ℕ} (hg : Good exp 1 len0 (-1) (-1) es) (hne : es ≠ [])
    (hh : (es.headD ⟨0, 0, 0, 0⟩).len = len0) {last : ℕ} (hlast : ∃ e, es.getLast? = some e ∧ e.last = last) :
    ∃ fs tab, poolFields es = .ok fs ∧ fs.length ≤ 32 ∧ (∀ f ∈ fs, f.1 < f.2 ∧ f.2 ≤ 64) ∧
      Reads (readPool exp len0 Table.fresh) (bitsOfFields fs) tab ∧
      ∀ x ≤ last, (∃ v m, symField es x = .ok (v, 2 ^ m) ∧ m < 32 ∧ v < 2 ^ m ∧ Reads (readSym tab) (selBits v (2 ^ m)) x) ∧
        (len0 = 0 → Reads (readSym tab) [] x) := by
  obtain ⟨el, hel, hll⟩ := hlast
  by_cases h0 : len0 = 0
  · subst h0
    obtain ⟨e, rfl, e1, e2, e3⟩ := hg.zero_first hh hne
    have : el = e := by simpa using hel.symm
    subst this
    have hr : Reads (readSym Table.fresh) [] 0 := by
      unfold readSym
      rw [show Table.fresh.len 0 = 0 from rfl]
      have := Reads.bind (fromBits_reads (k := 0) (v := 0) (by omega) (by omega))
        (f := fun v => if v ≤ Table.fresh.last 0 then Get.pure v else symLoop Table.fresh (Table.fresh.count - 1) 1 v)
        (b := []) (y := 0) (by rw [if_pos (Nat.zero_le _)]; exact Reads.pure 0)
      simpa using this
    refine ⟨[], Table.fresh, ?_, by simp, by simp, ?_, ?_⟩
    · unfold poolFields; simp only; rw [if_pos e1]
    · unfold readPool; rw [if_pos rfl]; exact Reads.pure _
    · intro x hx
      have hx0 : x = 0 := by omega
      subst hx0
      refine ⟨⟨0, 0, ?_, by omega, by omega, ?_⟩, fun _ => hr⟩
      · unfold symField
        have : rd [el] (findPool [el].length (fun t => ([el].getD t ⟨0, 0, 0, 0⟩).last) 0) = .ok el := rfl
        rw [this]
        show (pow2 el.len >>= fun n => pure (u32 (0 + el.offset), n)) = _
        rw [e1, e3]; rfl
      · rw [selBits_pow (by omega)]; exact hr
  · have hlen := hg.length es (by have := baseCount_pos exp; omega)
    have h64 : es.length ≤ 64 := by have := baseCount_le exp; omega
    obtain ⟨fs, t1, t2, t3, tab, t4, t5, t6, -⟩ := table_read exp es (baseCount exp) 0 len0 1 (-1) (-1) { Table.fresh with count := 0 } hne hg
      (Or.inl ⟨rfl, rfl⟩) (le_refl _) (by omega) (by omega)
    refine ⟨fs, tab, ?_, by omega, t3, ?_, ?_⟩
    · obtain ⟨e, es', rfl⟩ := List.exists_cons_of_ne_nil hne
      have hh' : e.len = len0 := hh
      unfold poolFields
      simp only
      rw [hh', if_neg h0]
      exact t1
    · unfold readPool
      rw [if_neg h0]
      exact t4
    · intro x hx
      refine ⟨symField_reads hg hne h64 t6 (by rw [t5]; simp) ?_, fun h => absurd h h0⟩
      have : entryAt es (es.length - 1) = el := by
        unfold entryAt
        rw [List.getD_eq_getElem?_getD, ← List.getLast?_eq_getElem?, hel]
        rfl
      rw [this, hll]
      exact hx

/-! ### Bounds on the code lengths -/

theorem taken_le (exp : Bool) (lens : ℕ → ℕ) (m k : ℕ) : ∀ t, t + k ≤ baseCount exp → (∀ s, t ≤ s → s < t + k → m ≤ lens s) →
    taken exp lens k t ≤ ((border exp (t + k) : ℚ) - border exp t) / 2 ^ m := by
  induction k with
  | zero => intro t _ _; simp [taken]
  | succ k ih =>
    intro t ht hl
    have i := ih (t + 1) (by omega) (fun s h1 h2 => hl s (by omega) (by omega))
    have hb : (border exp t : ℚ) < border exp (t + 1) := by exact_mod_cast border_lt exp (t := t) (by omega)
    have hd : ((border exp (t + 1) : ℚ) - border exp t) / 2 ^ lens t ≤ ((border exp (t + 1) : ℚ) - border exp t) / 2 ^ m :=
      div_le_div_of_nonneg_left (by linarith) (by positivity) (pow_le_pow_right₀ (by norm_num) (hl t (le_refl _) (by omega)))
    rw [show t + 1 + k = t + (k + 1) by omega] at i
    simp only [taken]
    calc _ ≤ ((border exp (t + 1) : ℚ) - border exp t) / 2 ^ m + ((border exp (t + (k + 1)) : ℚ) - border exp (t + 1)) / 2 ^ m := by linarith
      _ = _ := by ring

theorem taken_ge (exp : Bool) (lens : ℕ → ℕ) (m k : ℕ) : ∀ t, t + k ≤ baseCount exp → (∀ s, t ≤ s → s < t + k → lens s ≤ m) →
    ((border exp (t + k) : ℚ) - border exp t) / 2 ^ m ≤ taken exp lens k t := by
  induction k with
  | zero => intro t _ _; simp [taken]
  | succ k ih =>
    intro t ht hl
    have i := ih (t + 1) (by omega) (fun s h1 h2 => hl s (by omega) (by omega))
    have hb : (border exp t : ℚ) < border exp (t + 1) := by exact_mod_cast border_lt exp (t := t) (by omega)
    have hd : ((border exp (t + 1) : ℚ) - border exp t) / 2 ^ m ≤ ((border exp (t + 1) : ℚ) - border exp t) / 2 ^ lens t :=
      div_le_div_of_nonneg_left (by linarith) (by positivity) (pow_le_pow_right₀ (by norm_num) (hl t (le_refl _) (by omega)))
    rw [show t + 1 + k = t + (k + 1) by omega] at i
    simp only [taken]
    calc _ = ((border exp (t + 1) : ℚ) - border exp t) / 2 ^ m + ((border exp (t + (k + 1)) : ℚ) - border exp (t + 1)) / 2 ^ m := by ring
      _ ≤ _ := by linarith

theorem taken_last (exp : Bool) (lens : ℕ → ℕ) (k : ℕ) : ∀ t, taken exp lens (k + 1) t =
    taken exp lens k t + ((border exp (t + k + 1) : ℚ) - border exp (t + k)) / 2 ^ lens (t + k) := by
  induction k with
  | zero => intro t; simp [taken]
  | succ k ih =>
    intro t
    rw [taken, ih (t + 1), taken, show t + 1 + k = t + (k + 1) by omega]
    ring

theorem lens_mono {lens : ℕ → ℕ} {used : ℕ} (hm : ∀ t, t + 1 < used → lens t ≤ lens (t + 1)) {i j : ℕ} (hij : i ≤ j) (hj : j < used) :
    lens i ≤ lens j := by
  induction j with
  | zero => rw [Nat.le_zero.1 hij]
  | succ j ih =>
    rcases Nat.lt_or_ge i (j + 1) with h1 | h1
    · exact (ih (by omega) (by omega)).trans (hm j hj)
    · rw [show i = j + 1 by omega]

/-- The first code length of a complete code for the jumps fits into 3 bits. -/
theorem first_jump_len {lens : ℕ → ℕ} {used : ℕ} (hu : 1 ≤ used) (hused : used ≤ 16) (hm : ∀ t, t + 1 < used → lens t ≤ lens (t + 1))
    (hk : taken true lens used 0 = 1) : lens 0 < 8 := by
  by_contra h8
  push Not at h8
  have hall : ∀ s < used, 8 ≤ lens s := fun s hs => h8.trans (lens_mono hm (Nat.zero_le s) hs)
  have hb0 : border true 0 = -1 := rfl
  have hb15 : border true 15 = 192 := by decide +kernel
  have hb16 : border true 16 = 256 := by decide +kernel
  rcases Nat.lt_or_ge used 16 with h | h
  · have h1 := taken_le true lens 8 used 0 (by show 0 + used ≤ 16; omega) (fun s _ hs => hall s (by omega))
    have h2 : border true (0 + used) ≤ border true 15 := border_mono true (by omega) (by decide)
    rw [hb15] at h2
    have h2' : (border true (0 + used) : ℚ) ≤ 192 := by exact_mod_cast h2
    rw [hk, hb0] at h1
    rw [le_div_iff₀ (by positivity)] at h1
    push_cast at h1
    linarith
  · have : used = 16 := by omega
    subst this
    rw [taken_last, show 0 + 15 = 15 by omega, show 15 + 1 = 16 by omega, hb15, hb16] at hk
    have h1 := taken_le true lens 8 15 0 (by decide) (fun s _ hs => hall s (by omega))
    rw [show 0 + 15 = 15 by omega, hb15, hb0] at h1
    rcases (hall 15 (by omega)).lt_or_eq with h9 | h9
    · have h2 : ((256 : ℤ) - (192 : ℤ) : ℚ) / 2 ^ lens 15 ≤ ((256 : ℤ) - (192 : ℤ) : ℚ) / 2 ^ 9 :=
        div_le_div_of_nonneg_left (by norm_num) (by positivity) (pow_le_pow_right₀ (by norm_num) h9)
      norm_num at h1 h2 hk
      linarith
    · have h2 := taken_ge true lens 8 15 0 (by decide) (fun s _ hs => by rw [h9]; exact lens_mono hm (by omega) (by omega))
      rw [show 0 + 15 = 15 by omega, hb15, hb0] at h2
      rw [← h9] at hk
      norm_num at h2 hk
      linarith

end WB.Sf
