import Verif.Spec.Denoise
import Verif.Spec.Signal
import Mathlib.Data.List.Nodup

/-!
Lemmas about the denoisers.
-/

namespace WB

open Spec

variable {α : Type}

/-- A loop over positions that reads a vector is a loop over the vector. -/
theorem foldlM_rd {β γ : Type} (l : List β) (f : γ → β → Outcome γ) (k : ℕ) (hk : k ≤ l.length) (r : γ) :
    (List.range k).foldlM (fun r c => rd l c >>= fun t => f r t) r = (l.take k).foldlM f r := by
  induction k with
  | zero => rfl
  | succ k ih =>
    rw [List.range_succ, List.foldlM_append, ih (by omega), List.take_succ_eq_append_getElem (by omega), List.foldlM_append]
    congr 1
    funext r'
    simp [rd_ok (show k < l.length by omega)]

theorem foldlM_nested {β γ δ : Type} (l : List β) (g : β → List δ) (f : γ → β → δ → Outcome γ) (r : γ) :
    l.foldlM (fun v i => (g i).foldlM (fun v j => f v i j) v) r =
      (l.flatMap fun i => (g i).map fun j => (i, j)).foldlM (fun v ij => f v ij.1 ij.2) r := by
  induction l generalizing r with
  | nil => rfl
  | cons a l ih =>
    rw [List.foldlM_cons, List.flatMap_cons, List.foldlM_append, List.foldlM_map]
    congr 1
    funext r'
    exact ih r'

/-- Writing every cell: each write puts the value `g` of its position, and every position is written. -/
theorem fill_cells {β δ : Type} (n : ℕ) (g : ℕ → β) (L : List δ) (pos : δ → ℕ) (val : δ → Outcome β)
    (hL : ∀ x ∈ L, pos x < n ∧ val x = .ok (g (pos x))) (hall : ∀ k < n, ∃ x ∈ L, pos x = k) :
    (L.foldlM (fun v x => val x >>= fun y => putCell v (pos x) y) (List.replicate n none) >>= fun raw => cells raw) =
      .ok ((List.range n).map g) := by
  have inv : ∀ (L : List δ) (v : List (Option β)) (D : ℕ → Prop), v.length = n →
      (∀ x ∈ L, pos x < n ∧ val x = .ok (g (pos x))) → (∀ k, D k → v[k]? = some (some (g k))) →
      ∃ v', L.foldlM (fun v x => val x >>= fun y => putCell v (pos x) y) v = .ok v' ∧ v'.length = n ∧
        (∀ k, D k → v'[k]? = some (some (g k))) ∧ ∀ x ∈ L, v'[pos x]? = some (some (g (pos x))) := by
    intro L
    induction L with
    | nil => intro v D hv _ hD; exact ⟨v, rfl, hv, hD, by simp⟩
    | cons x L ih =>
      intro v D hv hL hD
      obtain ⟨hx, hval⟩ := hL x (by simp)
      obtain ⟨v', h1, h2, h3, h4⟩ := ih (v.set (pos x) (some (g (pos x)))) (fun k => D k ∨ k = pos x) (by simp [hv])
        (fun y hy => hL y (by simp [hy])) (by
          intro k hk
          rw [List.getElem?_set]
          split_ifs with h5 h6
          · rw [h5]
          · exfalso; omega
          · rcases hk with hk | hk
            · exact hD k hk
            · exact absurd hk.symm h5)
      refine ⟨v', ?_, h2, fun k hk => h3 k (Or.inl hk), ?_⟩
      · rw [List.foldlM_cons, hval, Outcome.bind_ok]
        unfold putCell
        rw [if_pos (by omega), Outcome.bind_ok]
        exact h1
      · intro y hy
        rcases List.mem_cons.1 hy with rfl | hy
        · exact h3 _ (Or.inr rfl)
        · exact h4 y hy
  obtain ⟨v', h1, h2, _, h4⟩ := inv L (List.replicate n none) (fun _ => False) (by simp) hL (by simp)
  rw [h1, Outcome.bind_ok]
  have hv' : v' = (List.range n).map (fun k => some (g k)) := by
    apply List.ext_getElem?
    intro k
    by_cases hk : k < n
    · obtain ⟨x, hx, rfl⟩ := hall k hk
      rw [h4 x hx]
      simp [hk]
    · rw [List.getElem?_eq_none (by omega), List.getElem?_eq_none (by simp; omega)]
  rw [hv']
  unfold cells
  rw [List.mapM_map]
  exact Outcome.mapM_ok (g := g) (fun a _ => rfl)

variable [Zero α] [Inhabited α]

/-- Copying the entries at a list of positions into a zero matrix. -/
theorem copy_positions (data : Mat α) {δ : Type} (P : List δ) (pr pc : δ → ℕ)
    (hP : ∀ x ∈ P, pr x < data.rows ∧ pc x < data.cols) :
    ∃ r, P.foldlM (fun r t => matAt data (pr t) (pc t) >>= fun x => matPut r (pr t) (pc t) x)
        (Mat.ofFn data.rows data.cols fun _ _ => 0) = .ok r ∧ r.rows = data.rows ∧ r.cols = data.cols ∧
      ∀ i < data.rows, ∀ j < data.cols, ((∃ x ∈ P, pr x = i ∧ pc x = j) → r.get i j = data.get i j) ∧
        ((¬ ∃ x ∈ P, pr x = i ∧ pc x = j) → r.get i j = 0) := by
  have inv : ∀ (P : List δ) (m : Mat α) (D : ℕ → ℕ → Prop), (∀ x ∈ P, pr x < data.rows ∧ pc x < data.cols) →
      m.rows = data.rows → m.cols = data.cols →
      (∀ i < data.rows, ∀ j < data.cols, (D i j → m.get i j = data.get i j) ∧ (¬ D i j → m.get i j = 0)) →
      ∃ r, P.foldlM (fun r t => matAt data (pr t) (pc t) >>= fun x => matPut r (pr t) (pc t) x) m = .ok r ∧
        r.rows = data.rows ∧ r.cols = data.cols ∧
        ∀ i < data.rows, ∀ j < data.cols, ((D i j ∨ ∃ x ∈ P, pr x = i ∧ pc x = j) → r.get i j = data.get i j) ∧
          ((¬ (D i j ∨ ∃ x ∈ P, pr x = i ∧ pc x = j)) → r.get i j = 0) := by
    intro P
    induction P with
    | nil => intro m D _ h1 h2 h3; exact ⟨m, rfl, h1, h2, by simpa using h3⟩
    | cons t P ih =>
      intro m D hP h1 h2 h3
      have ht := hP t (by simp)
      obtain ⟨r, g1, g2, g3, g4⟩ := ih
        (Mat.ofFn m.rows m.cols fun a b => if a = pr t ∧ b = pc t then data.get (pr t) (pc t) else m.get a b)
        (fun i j => D i j ∨ (pr t = i ∧ pc t = j)) (fun x hx => hP x (by simp [hx])) h1 h2 (by
          intro i hi j hj
          rw [Mat.get_ofFn (by omega) (by omega)]
          by_cases h : i = pr t ∧ j = pc t
          · rw [if_pos h]
            obtain ⟨rfl, rfl⟩ := h
            exact ⟨fun _ => rfl, fun hn => absurd (Or.inr ⟨rfl, rfl⟩) hn⟩
          · rw [if_neg h]
            constructor
            · rintro (hd | hd)
              · exact (h3 i hi j hj).1 hd
              · exact absurd ⟨hd.1.symm, hd.2.symm⟩ h
            · intro hn
              exact (h3 i hi j hj).2 (fun hd => hn (Or.inl hd)))
      refine ⟨r, ?_, g2, g3, ?_⟩
      · rw [List.foldlM_cons]
        unfold matAt matPut
        rw [if_pos ht, Outcome.bind_ok, if_pos (by omega), Outcome.bind_ok]
        exact g1
      · intro i hi j hj
        have := g4 i hi j hj
        simp only [List.mem_cons, exists_eq_or_imp]
        constructor
        · rintro (h | h | h)
          · exact this.1 (Or.inl (Or.inl h))
          · exact this.1 (Or.inl (Or.inr h))
          · exact this.1 (Or.inr h)
        · intro h
          apply this.2
          rintro ((h' | h') | h')
          · exact h (Or.inl h')
          · exact h (Or.inr (Or.inl h'))
          · exact h (Or.inr (Or.inr h'))
  obtain ⟨r, h1, h2, h3, h4⟩ := inv P (Mat.ofFn data.rows data.cols fun _ _ => 0) (fun _ _ => False) hP rfl rfl (by
    intro i hi j hj
    rw [Mat.get_ofFn hi hj]; simp)
  exact ⟨r, h1, h2, h3, by simpa using h4⟩

omit [Inhabited α] in
/-- The same for vectors. -/
theorem copy_positions1 (data : List α) {δ : Type} (P : List δ) (pr : δ → ℕ) (hP : ∀ x ∈ P, pr x < data.length) :
    ∃ r : List α, P.foldlM (fun (r : List α) t => rd data (pr t) >>= fun x =>
        if pr t < r.length then .ok (r.set (pr t) x) else .ub) (List.replicate data.length 0) = .ok r ∧
      r.length = data.length ∧
      ∀ i < data.length, ((∃ x ∈ P, pr x = i) → r[i]? = data[i]?) ∧ ((¬ ∃ x ∈ P, pr x = i) → r[i]? = some 0) := by
  have inv : ∀ (P : List δ) (m : List α) (D : ℕ → Prop), (∀ x ∈ P, pr x < data.length) → m.length = data.length →
      (∀ i < data.length, (D i → m[i]? = data[i]?) ∧ (¬ D i → m[i]? = some 0)) →
      ∃ r : List α, P.foldlM (fun (r : List α) t => rd data (pr t) >>= fun x =>
          if pr t < r.length then .ok (r.set (pr t) x) else .ub) m = .ok r ∧ r.length = data.length ∧
        ∀ i < data.length, ((D i ∨ ∃ x ∈ P, pr x = i) → r[i]? = data[i]?) ∧
          ((¬ (D i ∨ ∃ x ∈ P, pr x = i)) → r[i]? = some 0) := by
    intro P
    induction P with
    | nil => intro m D _ h1 h3; exact ⟨m, rfl, h1, by simpa using h3⟩
    | cons t P ih =>
      intro m D hP h1 h3
      have ht := hP t (by simp)
      obtain ⟨r, g1, g2, g4⟩ := ih (m.set (pr t) data[pr t])
        (fun i => D i ∨ pr t = i) (fun x hx => hP x (by simp [hx])) (by simp [h1]) (by
          intro i hi
          rw [List.getElem?_set]
          by_cases h : pr t = i
          · subst h
            rw [if_pos rfl, if_pos (by omega)]
            exact ⟨fun _ => by simp [ht], fun hn => absurd (Or.inr rfl) hn⟩
          · rw [if_neg h]
            constructor
            · rintro (hd | hd)
              · exact (h3 i hi).1 hd
              · exact absurd hd h
            · intro hn
              exact (h3 i hi).2 (fun hd => hn (Or.inl hd)))
      refine ⟨r, ?_, g2, ?_⟩
      · rw [List.foldlM_cons, rd_ok ht, Outcome.bind_ok, if_pos (by omega), Outcome.bind_ok]
        exact g1
      · intro i hi
        have := g4 i hi
        simp only [List.mem_cons, exists_eq_or_imp]
        constructor
        · rintro (h | h | h)
          · exact this.1 (Or.inl (Or.inl h))
          · exact this.1 (Or.inl (Or.inr h))
          · exact this.1 (Or.inr h)
        · intro h
          apply this.2
          rintro ((h' | h') | h')
          · exact h (Or.inl h')
          · exact h (Or.inr (Or.inl h'))
          · exact h (Or.inr (Or.inr h'))
  obtain ⟨r, h1, h2, h4⟩ := inv P (List.replicate data.length 0) (fun _ => False) hP (by simp) (by
    intro i hi
    simp [hi])
  exact ⟨r, h1, h2, by simpa using h4⟩

omit [Zero α] [Inhabited α] in
/-- The positions kept: the first `n` elements of the partitioned list. -/
theorem kept_of_nth [LT α] {δ : Type} [DecidableEq δ] (values out : List (α × δ)) (n : ℕ) (key : δ → α)
    (hn : n ≤ values.length) (hkey : ∀ x ∈ values, x.1 = key x.2) (hnd : (values.map Prod.snd).Nodup)
    (h : NthContract Prod.fst values n out) :
    ∃ kept : Finset δ, kept.card = n ∧ (∀ p, p ∈ kept ↔ ∃ x ∈ out.take n, x.2 = p) ∧
      (∀ p ∈ kept, p ∈ values.map Prod.snd) ∧
      ∀ p ∈ kept, ∀ q ∈ values.map Prod.snd, q ∉ kept → ¬ key p < key q := by
  obtain ⟨hp, ho⟩ := h
  have hnd' : (out.map Prod.snd).Nodup := (hp.map Prod.snd).nodup_iff.2 hnd
  refine ⟨((out.take n).map Prod.snd).toFinset, ?_, ?_, ?_, ?_⟩
  · rw [List.toFinset_card_of_nodup]
    · simp [hp.length_eq, hn]
    · rw [List.map_take]; exact hnd'.sublist (List.take_sublist _ _)
  · intro p; rw [List.mem_toFinset, List.mem_map]
  · intro p hp'
    simp only [List.mem_toFinset, List.mem_map] at hp'
    obtain ⟨x, hx, rfl⟩ := hp'
    exact List.mem_map_of_mem (hp.mem_iff.1 (List.mem_of_mem_take hx))
  · intro p hp' q hq hq'
    simp only [List.mem_toFinset, List.mem_map] at hp' hq hq'
    obtain ⟨x, hx, rfl⟩ := hp'
    obtain ⟨y, hy, rfl⟩ := hq
    have hxv := hp.mem_iff.1 (List.mem_of_mem_take hx)
    rw [← hkey x hxv, ← hkey y hy]
    obtain ⟨i, hi, hi'⟩ := List.getElem_of_mem hx
    obtain ⟨j, hj, hj'⟩ := List.getElem_of_mem (hp.mem_iff.2 hy)
    rw [List.length_take] at hi
    refine ho i j x y (by omega) ?_ ?_ ?_
    · by_contra hlt
      apply hq'
      exact ⟨y, List.mem_take_iff_getElem.2 ⟨j, by omega, hj'⟩, rfl⟩
    · rw [List.getElem_take] at hi'
      rw [← hi']; simp
    · rw [← hj']; simp

theorem slice_le (n cut : ℕ) : n - min cut (if n = 0 then 2 ^ 64 - 1 else n - 1) = n - min cut (n - 1) := by
  by_cases h : n = 0
  · simp [h]
  · rw [if_neg h]

/-- `P` holds for the magnitudes of all entries; `std::nth_element` need only work for such keys. -/
theorem simple2_of [Mul α] [NatCast α] [LT α] (ext : SimpleExt α) (level : α) (data : Mat α) (cut : ℕ) (P : α → Prop)
    (hP : ∀ i < data.rows, ∀ j < data.cols, P (ext.abs (data.get i j)))
    (hcut : ext.toSize (((data.rows * data.cols : ℕ) : α) * level) = .ok cut)
    (hnth : ∀ v n, n ≤ v.length → (∀ t ∈ v, P t.1) → NthContract Prod.fst v n (ext.nth2 v n)) :
    ∃ r, simple2 ext level data = .ok r ∧
      KeepsLargest ext.abs (data.rows * data.cols - min cut (data.rows * data.cols - 1)) data r := by
  set n := data.rows * data.cols with hn
  let g : ℕ → α × ℕ × ℕ := fun k => (ext.abs (data.get (k % data.rows) (k / data.rows)), k % data.rows, k / data.rows)
  have hbr : ∀ k < n, k % data.rows < data.rows ∧ k / data.rows < data.cols := by
    intro k hk
    have hr : 0 < data.rows := by
      rcases Nat.eq_zero_or_pos data.rows with h | h
      · rw [hn, h] at hk; omega
      · exact h
    exact ⟨Nat.mod_lt _ hr, Nat.div_lt_of_lt_mul hk⟩
  have hfill := fill_cells n g ((List.range data.rows).flatMap fun i => (List.range data.cols).map fun j => (i, j))
    (fun ij => ij.1 + ij.2 * data.rows) (fun ij => matAt data ij.1 ij.2 >>= fun x => .ok (ext.abs x, ij.1, ij.2)) (by
      rintro ⟨i, j⟩ hx
      simp only [List.mem_flatMap, List.mem_map, List.mem_range, Prod.mk.injEq] at hx
      obtain ⟨i', hi, j', hj, rfl, rfl⟩ := hx
      have h1 : (i' + j' * data.rows) % data.rows = i' := by rw [Nat.add_mul_mod_self_right, Nat.mod_eq_of_lt hi]
      have h2 : (i' + j' * data.rows) / data.rows = j' := by
        rw [Nat.add_mul_div_right _ _ (by omega), Nat.div_eq_of_lt hi, Nat.zero_add]
      refine ⟨?_, ?_⟩
      · have := Mat.idx_lt hj hi
        show i' + j' * data.rows < n
        rw [hn, Nat.mul_comm data.rows]; omega
      · unfold matAt
        simp only [g]
        rw [if_pos ⟨hi, hj⟩, Outcome.bind_ok, h1, h2]) (by
      intro k hk
      obtain ⟨h1, h2⟩ := hbr k hk
      refine ⟨(k % data.rows, k / data.rows), ?_, ?_⟩
      · simp only [List.mem_flatMap, List.mem_map, List.mem_range, Prod.mk.injEq]
        exact ⟨_, h1, _, h2, rfl, rfl⟩
      · simp only
        rw [Nat.mul_comm]; exact Nat.mod_add_div k data.rows)
  have hslice : sliceIndex ext level n = .ok (n - min cut (n - 1)) := by
    unfold sliceIndex
    rw [hcut, Outcome.bind_ok, slice_le]
    rfl
  set values := (List.range n).map g with hvalues
  set s := n - min cut (n - 1) with hs
  have hlen : values.length = n := by simp [hvalues]
  have hsn : s ≤ values.length := by rw [hlen, hs]; exact Nat.sub_le _ _
  have hkeys : ∀ t ∈ values, P t.1 := by
    intro t ht
    rw [hvalues, List.mem_map] at ht
    obtain ⟨k, hk, rfl⟩ := ht
    obtain ⟨h1, h2⟩ := hbr k (List.mem_range.1 hk)
    exact hP _ h1 _ h2
  have hnd : (values.map Prod.snd).Nodup := by
    rw [hvalues, List.map_map]
    refine List.Nodup.map_on ?_ List.nodup_range
    intro a ha b hb hab
    simp only [Function.comp, g, Prod.mk.injEq] at hab
    rw [← Nat.mod_add_div a data.rows, ← Nat.mod_add_div b data.rows, hab.1, hab.2]
  obtain ⟨kept, k1, k2, k3, k4⟩ := kept_of_nth values (ext.nth2 values s) s (fun p => ext.abs (data.get p.1 p.2)) hsn
    (by
      intro x hx
      rw [hvalues, List.mem_map] at hx
      obtain ⟨k, _, rfl⟩ := hx
      rfl) hnd (hnth values s hsn hkeys)
  have hpos : ∀ i j, (i, j) ∈ values.map Prod.snd ↔ i < data.rows ∧ j < data.cols := by
    intro i j
    rw [hvalues]
    simp only [List.map_map, List.mem_map, List.mem_range, Function.comp, g, Prod.mk.injEq]
    constructor
    · rintro ⟨k, hk, rfl, rfl⟩; exact hbr k hk
    · rintro ⟨hi, hj⟩
      refine ⟨i + j * data.rows, ?_, ?_, ?_⟩
      · have := Mat.idx_lt hj hi
        rw [hn, Nat.mul_comm data.rows]; omega
      · rw [Nat.add_mul_mod_self_right, Nat.mod_eq_of_lt hi]
      · rw [Nat.add_mul_div_right _ _ (by omega), Nat.div_eq_of_lt hi, Nat.zero_add]
  obtain ⟨r, r1, r2, r3, r4⟩ := copy_positions data ((ext.nth2 values s).take s) (fun t => t.2.1) (fun t => t.2.2) (by
    intro x hx
    rw [← hpos x.2.1 x.2.2]
    exact k3 x.2 ((k2 x.2).2 ⟨x, hx, rfl⟩))
  refine ⟨r, ?_, ⟨r2, r3, kept, ?_, k1, ?_, ?_⟩⟩
  · unfold simple2
    have hlen2 : s ≤ (ext.nth2 values s).length := by rw [(hnth values s hsn hkeys).1.length_eq]; exact hsn
    have e1 := foldlM_nested (List.range data.rows) (fun _ => List.range data.cols)
      (fun v i j => matAt data i j >>= fun x => putCell v (i + j * data.rows) (ext.abs x, i, j))
      (List.replicate (data.rows * data.cols) none)
    have e2 : (fun (v : List (Option (α × ℕ × ℕ))) (ij : ℕ × ℕ) =>
        matAt data ij.1 ij.2 >>= fun x => putCell v (ij.1 + ij.2 * data.rows) (ext.abs x, ij.1, ij.2)) =
        fun v ij => (matAt data ij.1 ij.2 >>= fun x => Outcome.ok (ext.abs x, ij.1, ij.2)) >>= fun y =>
          putCell v (ij.1 + ij.2 * data.rows) y := by
      funext v ij
      rw [bind_assoc]
      rfl
    rw [e1, e2, ← bind_assoc, ← hn]
    rw [hfill, Outcome.bind_ok, hlen, hslice, Outcome.bind_ok]
    rw [← r1]
    exact foldlM_rd (ext.nth2 values s) (fun r t => matAt data t.2.1 t.2.2 >>= fun x => matPut r t.2.1 t.2.2 x) s hlen2 _
  · intro p hp
    rw [← hpos p.1 p.2]
    exact k3 p hp
  · intro i hi j hj
    by_cases h : (i, j) ∈ kept
    · rw [if_pos h]
      obtain ⟨x, hx, hx'⟩ := (k2 _).1 h
      exact (r4 i hi j hj).1 ⟨x, hx, by rw [hx'], by rw [hx']⟩
    · rw [if_neg h]
      refine (r4 i hi j hj).2 ?_
      rintro ⟨x, hx, rfl, rfl⟩
      exact h ((k2 _).2 ⟨x, hx, rfl⟩)
  · intro p hp i hi j hj hq
    exact k4 p hp (i, j) ((hpos i j).2 ⟨hi, hj⟩) hq

theorem simple2_ok [Mul α] [NatCast α] [LT α] (ext : SimpleExt α) (level : α) (data : Mat α) (cut : ℕ)
    (hcut : ext.toSize (((data.rows * data.cols : ℕ) : α) * level) = .ok cut)
    (hnth : ∀ v n, n ≤ v.length → NthContract Prod.fst v n (ext.nth2 v n)) :
    ∃ r, simple2 ext level data = .ok r ∧
      KeepsLargest ext.abs (data.rows * data.cols - min cut (data.rows * data.cols - 1)) data r :=
  simple2_of ext level data cut (fun _ => True) (fun _ _ _ _ => trivial) hcut fun v n h _ => hnth v n h

theorem simple1_of [Mul α] [NatCast α] [LT α] (ext : SimpleExt α) (level : α) (data : List α) (cut : ℕ) (P : α → Prop)
    (hP : ∀ x ∈ data, P (ext.abs x)) (hcut : ext.toSize ((data.length : α) * level) = .ok cut)
    (hnth : ∀ v n, n ≤ v.length → (∀ t ∈ v, P t.1) → NthContract Prod.fst v n (ext.nth1 v n)) :
    ∃ r, simple1 ext level data = .ok r ∧
      KeepsLargest ext.abs (data.length - min cut (data.length - 1)) (Mat.ofCol data) (Mat.ofCol r) := by
  set n := data.length with hn
  let g : ℕ → α × ℕ := fun k => (ext.abs (data.getD k default), k)
  have hfill := fill_cells n g (List.range n) (fun i => i) (fun i => rd data i >>= fun x => .ok (ext.abs x, i)) (by
      intro i hi
      rw [List.mem_range] at hi
      refine ⟨hi, ?_⟩
      rw [rd_eq_getD default hi, Outcome.bind_ok]) (by
      intro k hk
      exact ⟨k, by simpa using hk, rfl⟩)
  have hslice : sliceIndex ext level n = .ok (n - min cut (n - 1)) := by
    unfold sliceIndex
    rw [hcut, Outcome.bind_ok, slice_le]
    rfl
  set values := (List.range n).map g with hvalues
  set s := n - min cut (n - 1) with hs
  have hlen : values.length = n := by simp [hvalues]
  have hsn : s ≤ values.length := by rw [hlen, hs]; exact Nat.sub_le _ _
  have hkeys : ∀ t ∈ values, P t.1 := by
    intro t ht
    rw [hvalues, List.mem_map] at ht
    obtain ⟨k, hk, rfl⟩ := ht
    have hk' : k < data.length := List.mem_range.1 hk
    simp only [g]
    rw [show data.getD k default = data[k] by simp [List.getD, hk']]
    exact hP _ (List.getElem_mem hk')
  have hvs : values.map Prod.snd = List.range n := by
    rw [hvalues, List.map_map]
    exact List.map_id _
  obtain ⟨kept, k1, k2, k3, k4⟩ := kept_of_nth values (ext.nth1 values s) s (fun p => ext.abs (data.getD p default)) hsn
    (by
      intro x hx
      rw [hvalues, List.mem_map] at hx
      obtain ⟨k, _, rfl⟩ := hx
      rfl) (by rw [hvs]; exact List.nodup_range) (hnth values s hsn hkeys)
  rw [hvs] at k3 k4
  obtain ⟨r, r1, r2, r4⟩ := copy_positions1 data ((ext.nth1 values s).take s) (fun t => t.2) (by
    intro x hx
    simpa using k3 x.2 ((k2 x.2).2 ⟨x, hx, rfl⟩))
  refine ⟨r, ?_, ⟨by simpa using r2, rfl, kept.image (fun i => (i, 0)), ?_, ?_, ?_, ?_⟩⟩
  · unfold simple1
    have hlen2 : s ≤ (ext.nth1 values s).length := by rw [(hnth values s hsn hkeys).1.length_eq]; exact hsn
    have e2 : (fun (v : List (Option (α × ℕ))) (i : ℕ) =>
        rd data i >>= fun x => putCell v i (ext.abs x, i)) =
        fun v i => (rd data i >>= fun x => Outcome.ok (ext.abs x, i)) >>= fun y => putCell v i y := by
      funext v i
      rw [bind_assoc]
      rfl
    rw [e2, ← bind_assoc, ← hn]
    rw [hfill, Outcome.bind_ok, hlen, hslice, Outcome.bind_ok]
    rw [← r1]
    exact foldlM_rd (ext.nth1 values s) (fun (r : List α) t => rd data t.2 >>= fun x =>
      if t.2 < r.length then .ok (r.set t.2 x) else .ub) s hlen2 _
  · intro p hp
    rw [Finset.mem_image] at hp
    obtain ⟨i, hi, rfl⟩ := hp
    have := k3 i hi
    simpa using this
  · rw [Finset.card_image_of_injective _ (fun a b h => by simpa using h), k1]
  · intro i hi j hj
    have hj0 : j = 0 := by simpa using hj
    have hi' : i < data.length := hi
    subst hj0
    have hmem : (i, 0) ∈ kept.image (fun i => (i, 0)) ↔ i ∈ kept := by simp
    rw [Mat.get_ofCol, Mat.get_ofCol]
    by_cases h : i ∈ kept
    · rw [if_pos (hmem.2 h)]
      obtain ⟨x, hx, hx'⟩ := (k2 _).1 h
      have := (r4 i hi').1 ⟨x, hx, hx'⟩
      simp [List.getD, this]
    · rw [if_neg (fun h' => h (hmem.1 h'))]
      have := (r4 i hi').2 (by
        rintro ⟨x, hx, rfl⟩
        exact h ((k2 _).2 ⟨x, hx, rfl⟩))
      simp [List.getD, this]
  · intro p hp i hi j hj hq
    have hj0 : j = 0 := by simpa using hj
    subst hj0
    rw [Finset.mem_image] at hp
    obtain ⟨q, hq1, rfl⟩ := hp
    rw [Mat.get_ofCol, Mat.get_ofCol]
    refine k4 q hq1 i (by simpa using hi) (fun h => hq ?_)
    simp [h]

theorem simple1_ok [Mul α] [NatCast α] [LT α] (ext : SimpleExt α) (level : α) (data : List α) (cut : ℕ)
    (hcut : ext.toSize ((data.length : α) * level) = .ok cut)
    (hnth : ∀ v n, n ≤ v.length → NthContract Prod.fst v n (ext.nth1 v n)) :
    ∃ r, simple1 ext level data = .ok r ∧
      KeepsLargest ext.abs (data.length - min cut (data.length - 1)) (Mat.ofCol data) (Mat.ofCol r) :=
  simple1_of ext level data cut (fun _ => True) (fun _ _ => trivial) hcut fun v n h _ => hnth v n h

end WB
