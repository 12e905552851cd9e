import Verif.Model.AnyOrder
import Verif.Proof.FloatBits
import Verif.Proof.FloatMetrics

/-!
Sums of products in any order and with fused multiply-add: the bound is that of the sum computed from the left, one operation at a time.
-/

namespace WB

open Finset Spec Props

/-- What the operations promise about finite numbers. -/
structure FusedLaws (o : FusedOps) (fin : F32 → Prop) (v : F32 → ℝ) (u ω Ω : ℝ) : Prop where
  zero : fin 0#32 ∧ v 0#32 = 0
  add : ∀ x y, fin x → fin y → |v x + v y| ≤ Ω → fin (o.add x y) ∧ |v (o.add x y) - (v x + v y)| ≤ u * |v x + v y| + ω
  addLeft : ∀ x y, fin x → fin y → v x = 0 → |v y| ≤ Ω → v (o.add x y) = v y
  addRight : ∀ x y, fin x → fin y → v y = 0 → |v x| ≤ Ω → v (o.add x y) = v x
  mul : ∀ x y, fin x → fin y → |v x * v y| ≤ Ω → fin (o.mul x y) ∧ |v (o.mul x y) - v x * v y| ≤ u * |v x * v y| + ω
  fma : ∀ x y z, fin x → fin y → fin z → |v x * v y + v z| ≤ Ω → fin (o.fma x y z) ∧
    |v (o.fma x y z) - (v x * v y + v z)| ≤ u * |v x * v y + v z| + ω

/-- The bound for a sum of `n` terms whose products are bounded by `B` in total. -/
def cap (u ω : ℝ) (n : ℕ) (B : ℝ) : ℝ := (1 + u) ^ (n - 1) * (B + (n - 1 : ℕ) * ω)

theorem cap_join {u ω : ℝ} (hu : 0 ≤ u) (hω : 0 ≤ ω) {m n : ℕ} (hm : m ≠ 0) (hn : n ≠ 0) {B C : ℝ} (hB : 0 ≤ B) (hC : 0 ≤ C) :
    (1 + u) * (cap u ω m B + cap u ω n C) + ω ≤ cap u ω (m + n) (B + C) := by
  obtain ⟨m, rfl⟩ := Nat.exists_eq_succ_of_ne_zero hm
  obtain ⟨n, rfl⟩ := Nat.exists_eq_succ_of_ne_zero hn
  unfold cap
  simp only [Nat.succ_sub_one, show m.succ + n.succ - 1 = m + n + 1 by omega]
  have hu1 : 1 ≤ 1 + u := by linarith
  have e1 : (1 + u) ^ m ≤ (1 + u) ^ (m + n) := pow_le_pow_right₀ hu1 (by omega)
  have e2 : (1 + u) ^ n ≤ (1 + u) ^ (m + n) := pow_le_pow_right₀ hu1 (by omega)
  have e3 : 1 ≤ (1 + u) ^ (m + n + 1) := one_le_pow₀ hu1
  have f1 : (1 + u) ^ m * (B + m * ω) ≤ (1 + u) ^ (m + n) * (B + m * ω) := mul_le_mul_of_nonneg_right e1 (by positivity)
  have f2 : (1 + u) ^ n * (C + n * ω) ≤ (1 + u) ^ (m + n) * (C + n * ω) := mul_le_mul_of_nonneg_right e2 (by positivity)
  have f3 : ω ≤ (1 + u) ^ (m + n + 1) * ω := by nlinarith
  calc (1 + u) * ((1 + u) ^ m * (B + m * ω) + (1 + u) ^ n * (C + n * ω)) + ω
      ≤ (1 + u) * ((1 + u) ^ (m + n) * (B + m * ω) + (1 + u) ^ (m + n) * (C + n * ω)) + (1 + u) ^ (m + n + 1) * ω :=
        add_le_add (mul_le_mul_of_nonneg_left (add_le_add f1 f2) (by linarith)) f3
    _ = _ := by push_cast; ring

theorem cap_nonneg {u ω : ℝ} (hu : 0 ≤ u) (hω : 0 ≤ ω) (n : ℕ) {B : ℝ} (hB : 0 ≤ B) : 0 ≤ cap u ω n B := by unfold cap; positivity

theorem plan_eval {o : FusedOps} {fin : F32 → Prop} {v : F32 → ℝ} {u ω Ω : ℝ} (hu : 0 ≤ u) (hω : 0 ≤ ω) (L : FusedLaws o fin v u ω Ω)
    (x y : ℕ → F32) (w : ℕ → Origin) (P : ℕ → ℝ) (ts : List Term) (t : Plan)
    (hts : ∀ j ∈ t.uses, ts.getD j (.val 0#32 .fixed) = .prod (x j) (y j) (w j) ∧ fin (x j) ∧ fin (y j) ∧ |v (x j) * v (y j)| ≤ P j)
    (hΩ : cap u ω t.uses.length ((t.uses.map fun j => (1 + u) * P j + ω).sum) ≤ Ω) :
    fin (t.eval o ts) ∧ |v (t.eval o ts) - (t.uses.map fun j => v (x j) * v (y j)).sum| ≤
      cap u ω t.uses.length ((t.uses.map fun j => (1 + u) * P j + ω).sum) - (t.uses.map P).sum ∧
      |(t.uses.map fun j => v (x j) * v (y j)).sum| ≤ (t.uses.map P).sum ∧ 0 ≤ (t.uses.map fun j => (1 + u) * P j + ω).sum := by
  have absle : ∀ {a b c d : ℝ}, |a - b| ≤ c - d → |b| ≤ d → |a| ≤ c := by
    intro a b c d h1 h2
    have := abs_add_le (a - b) b
    rw [sub_add_cancel] at this
    linarith
  induction t with
  | zero =>
    simp only [Plan.uses, Plan.eval, List.map_nil, List.sum_nil, List.length_nil, cap] at *
    refine ⟨L.zero.1, ?_, by simp, le_rfl⟩
    rw [L.zero.2]
    simp
  | term j =>
    obtain ⟨h1, h2, h3, h4⟩ := hts j (by simp [Plan.uses])
    have hP := (abs_nonneg _).trans h4
    simp only [Plan.uses, Plan.eval, h1, List.map_cons, List.map_nil, List.sum_cons, List.sum_nil, List.length_cons, List.length_nil, cap, add_zero,
      Nat.reduceAdd, Nat.sub_self, pow_zero, one_mul, Nat.cast_zero, zero_mul] at *
    obtain ⟨f, e⟩ := L.mul _ _ h2 h3 (by nlinarith)
    refine ⟨f, ?_, h4, by positivity⟩
    have : u * |v (x j) * v (y j)| ≤ u * P j := mul_le_mul_of_nonneg_left h4 hu
    linarith
  | add l r ihl ihr =>
    simp only [Plan.uses, Plan.eval, List.map_append, List.sum_append, List.length_append] at *
    have gl := fun h => ihl (fun j hj => hts j (by simp [hj])) h
    have gr := fun h => ihr (fun j hj => hts j (by simp [hj])) h
    by_cases hl : l.uses = []
    · rw [hl] at hΩ gl ⊢
      simp only [List.map_nil, List.sum_nil, List.length_nil, zero_add] at *
      obtain ⟨r1, r2, r3, r4⟩ := gr hΩ
      have hΩ0 : 0 ≤ Ω := (cap_nonneg hu hω _ r4).trans hΩ
      obtain ⟨l1, l2, -, -⟩ := gl (by simpa [cap] using hΩ0)
      have l0 : v (l.eval o ts) = 0 := by simpa [cap] using l2
      have hb := (absle r2 r3).trans hΩ
      refine ⟨(L.add _ _ l1 r1 (by rw [l0, zero_add]; exact hb)).1, ?_, r3, r4⟩
      rw [L.addLeft _ _ l1 r1 l0 hb]
      exact r2
    by_cases hr : r.uses = []
    · rw [hr] at hΩ gr ⊢
      simp only [List.map_nil, List.sum_nil, List.length_nil, add_zero] at *
      obtain ⟨l1, l2, l3, l4⟩ := gl hΩ
      have hΩ0 : 0 ≤ Ω := (cap_nonneg hu hω _ l4).trans hΩ
      obtain ⟨r1, r2, -, -⟩ := gr (by simpa [cap] using hΩ0)
      have r0 : v (r.eval o ts) = 0 := by simpa [cap] using r2
      have hb := (absle l2 l3).trans hΩ
      refine ⟨(L.add _ _ l1 r1 (by rw [r0, add_zero]; exact hb)).1, ?_, l3, l4⟩
      rw [L.addRight _ _ l1 r1 r0 hb]
      exact l2
    have pos : ∀ q : Plan, (∀ j ∈ q.uses, 0 ≤ P j) → 0 ≤ (q.uses.map fun j => (1 + u) * P j + ω).sum := by
      intro q hq
      refine List.sum_nonneg fun a ha => ?_
      obtain ⟨j, hj, rfl⟩ := List.mem_map.1 ha
      have := hq j hj
      positivity
    have p1 := pos l fun j hj => (abs_nonneg _).trans (hts j (by simp [hj])).2.2.2
    have p2 := pos r fun j hj => (abs_nonneg _).trans (hts j (by simp [hj])).2.2.2
    have join := cap_join hu hω (m := l.uses.length) (n := r.uses.length) (by simpa using hl) (by simpa using hr) p1 p2
    have c1 := cap_nonneg hu hω l.uses.length p1
    have c2 := cap_nonneg hu hω r.uses.length p2
    obtain ⟨l1, l2, l3, -⟩ := gl (by nlinarith)
    obtain ⟨r1, r2, r3, -⟩ := gr (by nlinarith)
    have al := absle l2 l3
    have ar := absle r2 r3
    have hs : |v (l.eval o ts) + v (r.eval o ts)| ≤ _ := (abs_add_le _ _).trans (add_le_add al ar)
    obtain ⟨f, e⟩ := L.add _ _ l1 r1 (by nlinarith)
    refine ⟨f, ?_, (abs_add_le _ _).trans (add_le_add l3 r3), add_nonneg p1 p2⟩
    have e4 := mul_le_mul_of_nonneg_left hs hu
    generalize v (o.add _ _) = z at *
    generalize v (l.eval o ts) = a at *
    generalize v (r.eval o ts) = b at *
    generalize (l.uses.map fun j => v (x j) * v (y j)).sum = A at *
    generalize (r.uses.map fun j => v (x j) * v (y j)).sum = B at *
    have t1 : |z - (A + B)| ≤ |z - (a + b)| + (|a - A| + |b - B|) := by
      have i1 := abs_add_le (z - (a + b)) ((a - A) + (b - B))
      have i2 := abs_add_le (a - A) (b - B)
      rw [show z - (a + b) + (a - A + (b - B)) = z - (A + B) by ring] at i1
      linarith
    linarith
  | fma j t ih =>
    obtain ⟨h1, h2, h3, h4⟩ := hts j (by simp [Plan.uses])
    have hP := (abs_nonneg _).trans h4
    simp only [Plan.uses, Plan.eval, h1, List.map_cons, List.sum_cons, List.length_cons] at *
    have g := fun h => ih (fun j hj => hts j (by simp [hj])) h
    have key : ∀ {A : ℝ}, fin (t.eval o ts) → |v (t.eval o ts)| ≤ A → (1 + u) * (P j + A) + ω ≤ Ω →
        fin (o.fma (x j) (y j) (t.eval o ts)) ∧
        |v (o.fma (x j) (y j) (t.eval o ts)) - (v (x j) * v (y j) + v (t.eval o ts))| ≤ u * (P j + A) + ω := by
      intro A hf hA hle
      have hs : |v (x j) * v (y j) + v (t.eval o ts)| ≤ P j + A := (abs_add_le _ _).trans (add_le_add h4 hA)
      have hA0 := (abs_nonneg _).trans hA
      obtain ⟨f, e⟩ := L.fma _ _ _ h2 h3 hf (by nlinarith)
      exact ⟨f, e.trans (by have := mul_le_mul_of_nonneg_left hs hu; linarith)⟩
    by_cases ht : t.uses = []
    · rw [ht] at hΩ g ⊢
      simp only [List.map_nil, List.sum_nil, List.length_nil, add_zero, zero_add, cap, Nat.sub_self, pow_zero, one_mul, Nat.cast_zero, zero_mul] at *
      have hΩ0 : 0 ≤ Ω := le_trans (by positivity) hΩ
      obtain ⟨t1, t2, -, -⟩ := g (by simpa using hΩ0)
      have t0 : v (t.eval o ts) = 0 := by simpa using t2
      obtain ⟨f, e⟩ := key (A := 0) t1 (by rw [t0]; simp) (by simpa using hΩ)
      refine ⟨f, ?_, h4, by positivity⟩
      rw [t0, add_zero] at e
      linarith
    · have p1 : 0 ≤ (t.uses.map fun j => (1 + u) * P j + ω).sum := by
        refine List.sum_nonneg fun a ha => ?_
        obtain ⟨k, hk, rfl⟩ := List.mem_map.1 ha
        have := (abs_nonneg _).trans (hts k (by simp [hk])).2.2.2
        positivity
      have join := cap_join hu hω (m := 1) (n := t.uses.length) one_ne_zero (by simpa using ht) (B := (1 + u) * P j + ω) (by positivity) p1
      have e1 : cap u ω 1 ((1 + u) * P j + ω) = (1 + u) * P j + ω := by simp [cap]
      rw [e1, add_comm 1 t.uses.length] at join
      have c1 := cap_nonneg hu hω t.uses.length p1
      have m1 : 0 ≤ u * P j := by positivity
      have m2 : (1 + u) * (P j + cap u ω t.uses.length ((t.uses.map fun j => (1 + u) * P j + ω).sum)) + ω ≤
          cap u ω (t.uses.length + 1) ((1 + u) * P j + ω + (t.uses.map fun j => (1 + u) * P j + ω).sum) := by
        refine le_trans ?_ join
        nlinarith
      have m3 : 0 ≤ u * cap u ω t.uses.length ((t.uses.map fun j => (1 + u) * P j + ω).sum) := mul_nonneg hu c1
      obtain ⟨t1, t2, t3, -⟩ := g (by nlinarith)
      have at1 := absle t2 t3
      obtain ⟨f, e⟩ := key t1 at1 (m2.trans hΩ)
      refine ⟨f, ?_, (abs_add_le _ _).trans (add_le_add h4 t3), by positivity⟩
      generalize v (o.fma _ _ _) = z at *
      generalize v (t.eval o ts) = a at *
      generalize (t.uses.map fun j => v (x j) * v (y j)).sum = A at *
      have i1 := abs_add_le (z - (v (x j) * v (y j) + a)) (a - A)
      rw [show z - (v (x j) * v (y j) + a) + (a - A) = z - (v (x j) * v (y j) + A) by ring] at i1
      linarith

theorem perm_sum {l : List ℕ} {n : ℕ} (h : l.Perm (List.range n)) (f : ℕ → ℝ) : (l.map f).sum = ∑ j ∈ range n, f j := by
  rw [(h.map f).sum_eq]
  induction n generalizing l with
  | zero => rfl
  | succ n ih => rw [List.range_succ, List.map_append, List.sum_append, ih (List.Perm.refl _), sum_range_succ]; simp

/-! ### bit patterns -/

theorem number_mem (x : F32) : ((number x : ℚ) : ℝ) ∈ FloatNumbers 24 (-149) := by
  have key : ∀ n < 2 ^ 31, ∃ k e : ℤ, |k| < 2 ^ 24 ∧ -149 ≤ e ∧ ((magnitude n : ℚ) : ℝ) = k * (2 : ℝ) ^ e := by
    intro n hn
    unfold magnitude
    split_ifs with h
    · exact ⟨n, -149, by rw [abs_of_nonneg (by positivity)]; norm_cast; omega, le_rfl, by push_cast; ring⟩
    · have hq : n % 2 ^ 23 + 2 ^ 23 < 2 ^ 24 := by omega
      generalize n % 2 ^ 23 + 2 ^ 23 = q at hq ⊢
      refine ⟨q, ((n / 2 ^ 23 : ℕ) : ℤ) - 150, by rw [abs_of_nonneg (by positivity)]; norm_cast, by omega, ?_⟩
      generalize ((n / 2 ^ 23 : ℕ) : ℤ) - 150 = e
      push_cast
      ring
  obtain ⟨k, e, h1, h2, h3⟩ := key (x.toNat % 2 ^ 31) (Nat.mod_lt _ (by norm_num))
  unfold number
  rw [Rat.cast_mul, h3]
  split_ifs
  · exact ⟨k, e, h1, h2, by push_cast; ring⟩
  · exact ⟨-k, e, by rwa [abs_neg], h2, by push_cast; ring⟩

theorem fused_laws {r : Rounding} (hr : r.IEEE) {o : FusedOps} (ho : o.Correct r) :
    FusedLaws o finiteBits (fun x => ((number x : ℚ) : ℝ)) (1 / 2 ^ 24) (1 / 2 ^ 150) maxFloat where
  zero := (bitsScalars hr ho.toCorrect).zero
  add x y hx hy h := (bitsStepwise hr ho.toCorrect).add x y hx hy h
  mul x y hx hy h := (bitsStepwise hr ho.toCorrect).mul x y hx hy h
  addLeft x y hx hy h0 h := by
    have e : r.toFloat ((number x : ℝ) + number y) = number y := by
      rw [h0, zero_add]
      exact nearest_self hr.1 (number_mem y)
    rw [(ho.add x y hx hy (by rw [e]; exact h)).2, e]
  addRight x y hx hy h0 h := by
    have e : r.toFloat ((number x : ℝ) + number y) = number x := by
      rw [h0, add_zero]
      exact nearest_self hr.1 (number_mem x)
    rw [(ho.add x y hx hy (by rw [e]; exact h)).2, e]
  fma x y z hx hy hz h := by
    obtain ⟨h1, h2⟩ := ho.fma x y z hx hy hz (toFloat_le hr h)
    refine ⟨h1, ?_⟩
    rw [h2]
    exact std_float hr _

section
variable {o : FusedOps} {s : SumPlan}

@[simp] theorem Sums.value_of (x : F32) (w : Origin) : (Sums.of x w : Sums o s).value = x := rfl

theorem Sums.fold_eq (x y : ℕ → Sums o s) (n : ℕ) :
    (List.range n).foldl (fun acc j => acc + x j * y j) (0 : Sums o s) = (List.range n).map fun j => Term.prod (x j).value (y j).value (.both (x j).origin (y j).origin) := by
  induction n with
  | zero => rfl
  | succ n ih =>
    rw [List.range_succ, List.foldl_append, ih, List.map_append]
    rfl

theorem Sums.value_fold (x y : ℕ → Sums o s) {n : ℕ} (hn : n ≠ 0) :
    ((List.range n).foldl (fun acc j => acc + x j * y j) (0 : Sums o s)).value =
      (s.plan ((List.range n).map fun j => Term.prod (x j).value (y j).value (.both (x j).origin (y j).origin))).eval o ((List.range n).map fun j => Term.prod (x j).value (y j).value (.both (x j).origin (y j).origin)) := by
  rw [Sums.fold_eq]
  obtain ⟨n, rfl⟩ := Nat.exists_eq_succ_of_ne_zero hn
  rw [List.range_succ_eq_map, List.map_cons]
  rfl

/-- Sums on bit patterns, in any order. -/
noncomputable def sumsScalars {r : Rounding} (hr : r.IEEE) (ho : o.Correct r) (s : SumPlan) : Scalars (Sums o s) (1 / 2 ^ 24) (1 / 2 ^ 150) maxFloat where
  val x := ((number x.value : ℚ) : ℝ)
  fin x := finiteBits x.value
  zero := (bitsScalars hr ho.toCorrect).zero
  neg x hx := (bitsScalars hr ho.toCorrect).neg x.value hx
  dot n x y P h hΩ := by
    rcases Nat.eq_zero_or_pos n with rfl | hn
    · obtain ⟨z1, z2⟩ := (bitsScalars hr ho.toCorrect).zero
      refine ⟨z1, ?_⟩
      simp only [range_zero, sum_empty, sub_zero, pow_zero, Nat.cast_zero, zero_mul, add_zero, mul_zero]
      exact le_of_eq ((congrArg abs z2).trans abs_zero)
    rw [Sums.value_fold x y (by omega)]
    set ts := (List.range n).map fun j => Term.prod (x j).value (y j).value (.both (x j).origin (y j).origin) with hts
    have hperm := s.once ts
    have hlen : ts.length = n := by rw [hts]; simp
    rw [hlen] at hperm
    have hl : (s.plan ts).uses.length = n := by rw [hperm.length_eq]; simp
    have hB : 0 ≤ ∑ j ∈ range n, ((1 + 1 / 2 ^ 24 : ℝ) * P j + 1 / 2 ^ 150) := sum_nonneg fun j hj => by
      have := (abs_nonneg _).trans (h j (mem_range.1 hj)).2.2
      positivity
    have hcap : cap (1 / 2 ^ 24) (1 / 2 ^ 150) n (∑ j ∈ range n, ((1 + 1 / 2 ^ 24 : ℝ) * P j + 1 / 2 ^ 150)) ≤
        (1 + 1 / 2 ^ 24) ^ n * (∑ j ∈ range n, ((1 + 1 / 2 ^ 24 : ℝ) * P j + 1 / 2 ^ 150) + n * (1 / 2 ^ 150)) := by
      unfold cap
      refine mul_le_mul (pow_le_pow_right₀ (by norm_num) (by omega)) ?_ (by positivity) (by positivity)
      have : ((n - 1 : ℕ) : ℝ) ≤ n := by exact_mod_cast Nat.sub_le n 1
      nlinarith
    obtain ⟨k1, k2, -, -⟩ := plan_eval (by norm_num) (by norm_num) (fused_laws hr ho) (fun j => (x j).value) (fun j => (y j).value) (fun j => .both (x j).origin (y j).origin) P ts (s.plan ts)
      (fun j hj => by
        have hj' : j < n := List.mem_range.1 (hperm.mem_iff.1 hj)
        refine ⟨?_, h j hj'⟩
        rw [hts, List.getD, List.getElem?_map, List.getElem?_range hj']
        rfl) (by rw [hl, perm_sum hperm]; exact hcap.trans hΩ)
    rw [hl, perm_sum hperm, perm_sum hperm, perm_sum hperm] at k2
    exact ⟨k1, k2.trans (sub_le_sub_right hcap _)⟩

theorem sumsKit_present {r : Rounding} {p : Params} (h : p.wtype ≤ 10) : FilterPresent (sumsKit r o s) p := by
  intro h0
  exact (List.length_map _).trans (length_dbCoeffs (by omega) h)

theorem sums_filter {r : Rounding} {p : Params} (j : ℕ) :
    ((scalingFilter (sumsKit r o s) p).getD j 0).value = (scalingFilter (bitsKit r o.toFloatOps) p).getD j 0 := by
  have e0 : (scalingFilter (bitsKit r o.toFloatOps) p) = (dbCoeffs p.wtype).map
      (fun q => (bitsKit r o.toFloatOps).mulSqrt2 (o.store (r.toDouble ((q : ℚ) : ℝ)))) := List.map_map
  have e1 : (scalingFilter (sumsKit r o s) p) = (dbCoeffs p.wtype).map
      (fun q => (sumsKit r o s).mulSqrt2 (Sums.of (o.store (r.toDouble ((q : ℚ) : ℝ))) .fixed)) := List.map_map
  rw [e0, e1, List.getD, List.getD, List.getElem?_map, List.getElem?_map]
  cases (dbCoeffs p.wtype)[j]? <;> rfl

theorem sums_apF {r : Rounding} (hr : r.IEEE) (ho : o.Correct r) {p : Params} (h : p.wtype ≤ 5) (h0 : p.wtype ≠ 0) :
    ApF (sumsScalars hr ho s) ((1 + 1 / 2 ^ 24) ^ 3 - 1) (scaling (sumsKit r o s) p) (scaling codeKit p) := by
  have hkR := codeKit_present (p := p) (by omega)
  have hkF := sumsKit_present (r := r) (o := o) (s := s) (p := p) (by omega)
  obtain ⟨-, b2⟩ := bits_apF hr ho.toCorrect h h0
  refine ⟨by rw [length_scaling hkF h0, length_scaling hkR h0], fun j => ?_⟩
  obtain ⟨c1, c2⟩ := b2 j
  have e : ((scaling (sumsKit r o s) p).getD j 0).value = (scaling (bitsKit r o.toFloatOps) p).getD j 0 := sums_filter j
  refine ⟨?_, ?_⟩
  · show finiteBits ((scaling (sumsKit r o s) p).getD j 0).value
    rw [e]; exact c1
  · show Ap ((number ((scaling (sumsKit r o s) p).getD j 0).value : ℚ) : ℝ) _ _ _
    rw [e]; exact c2

theorem sums_coef {r : Rounding} (hr : r.IEEE) (ho : o.Correct r) {p : Params} (hv : ValidParams p) (hw : p.wtype ≤ 5)
    (h0 : p.steps ≠ 0) :
    Coef (sumsScalars hr ho s) ((1 + 1 / 2 ^ 24) ^ 3 - 1) (201 / 100) p.wtype (scaling (sumsKit r o s) p) (scaling codeKit p) := by
  have hkR := codeKit_present (p := p) (by omega)
  have ht := wavelet_of_steps hv (show 0 < p.steps by omega)
  exact ⟨by norm_num, by norm_num, by norm_num, by omega, sums_apF hr ho hw ht, length_scaling hkR ht, by
    rw [← length_scaling hkR ht, sum_getD_abs]
    exact sum_code hw⟩

theorem sums_gain {r : Rounding} (hr : r.IEEE) (ho : o.Correct r) :
    GainOk (sumsScalars hr ho s) (sumsKit r o s) (1 / 2 ^ 22) (1 / 2 ^ 149) := fun b k x hx _ => ho.div b k x.value hx

end

end WB
