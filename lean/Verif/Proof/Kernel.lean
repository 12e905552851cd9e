import Verif.Proof.Dwt
import Mathlib.Algebra.BigOperators.Ring.Finset

/-!
Kernel (matrix entries) of the periodic analysis operator, its transpose, and orthogonality.
-/

namespace WB

open Finset

section Ring
variable {R : Type} [CommRing R]

/-- Entry of the analysis operator: how much sample `k` contributes to output `i` of filter `f`. -/
def kern (n : ℕ) (f : ℕ → R) (L : ℕ) (i k : ℕ) : R :=
  ∑ j ∈ range L, if (2 * i + j) % n = k then f j else 0

theorem ana_kern (x f : List R) (i : ℕ) (hx : 0 < x.length) :
    anaP x f i = ∑ k ∈ range x.length, kern x.length (fl f) f.length i k * x.getD k 0 := by
  rw [anaP_eq]
  unfold kern
  simp_rw [sum_mul]
  rw [sum_comm]
  refine sum_congr rfl (fun j _ => ?_)
  have : (2 * (i : ℤ) + j) = ((2 * i + j : ℕ) : ℤ) := by push_cast; ring
  rw [this, per_natCast]
  rw [sum_eq_single ((2 * i + j) % x.length)]
  · rw [if_pos rfl, mul_comm]
  · intro b _ hb
    rw [if_neg (fun h => hb h.symm), zero_mul]
  · intro h
    exact absurd (mem_range.2 (Nat.mod_lt _ hx)) h

/-- For one parity class of filter taps, summing over the outputs picks exactly one output. -/
theorem sum_tap (v : List R) (n2 : ℕ) (hv : v.length = n2) (hn : 0 < n2) (k p e : ℕ) (hk : k < 2 * n2) (he : e < 2) :
    ∑ i ∈ range n2, (if (2 * i + (2 * p + e)) % (2 * n2) = k then v.getD i 0 else 0) =
      if k % 2 = e then per v (((k / 2 : ℕ) : ℤ) - p) else 0 := by
  have hmod : ∀ i, (2 * i + (2 * p + e)) % (2 * n2) = 2 * ((i + p) % n2) + e := by
    intro i
    have h1 : 2 * i + (2 * p + e) = e + 2 * (i + p) := by ring
    have h2 := Nat.mod_lt (i + p) hn
    have h3 := Nat.div_add_mod (i + p) n2
    have h4 : e + 2 * (i + p) = (2 * ((i + p) % n2) + e) + (2 * n2) * ((i + p) / n2) := by
      rw [Nat.mul_assoc]; omega
    rw [h1, h4, Nat.add_mul_mod_self_left, Nat.mod_eq_of_lt (by omega)]
  simp_rw [hmod]
  by_cases hpar : k % 2 = e
  · rw [if_pos hpar]
    have hpos : (0 : ℤ) < n2 := by exact_mod_cast hn
    set z : ℤ := ((k / 2 : ℕ) : ℤ) - p with hz
    have hr0 := Int.emod_nonneg z (ne_of_gt hpos)
    have hr1 := Int.emod_lt_of_pos z hpos
    rw [sum_eq_single (z % n2).toNat]
    · rw [if_pos]
      · unfold per; rw [hv]
      · have : ((z % n2).toNat + p) % n2 = k / 2 := by
          have h5 : (((z % n2).toNat + p : ℕ) : ℤ) % (n2 : ℤ) = ((k / 2 : ℕ) : ℤ) := by
            push_cast
            rw [Int.toNat_of_nonneg hr0, Int.emod_add_emod, hz, sub_add_cancel]
            exact Int.emod_eq_of_lt (by positivity) (by omega)
          exact_mod_cast h5
        rw [this]; omega
    · intro b hb hne
      rw [if_neg]
      intro h
      apply hne
      rw [mem_range] at hb
      have h6 : (b + p) % n2 = k / 2 := by omega
      have h7 : ((k / 2 : ℕ) : ℤ) = ((b : ℤ) + p) % n2 := by rw [← h6]; push_cast; rfl
      have h8 : z % n2 = b := by
        rw [hz, h7, Int.emod_sub_emod, add_sub_cancel_right]
        exact Int.emod_eq_of_lt (by positivity) (by omega)
      omega
    · intro h
      exfalso; apply h; rw [mem_range]; omega
  · rw [if_neg hpar]
    apply sum_eq_zero
    intro i _
    rw [if_neg]
    omega

theorem kern_transpose (v f : List R) (t n2 : ℕ) (hv : v.length = n2) (hn : 0 < n2)
    (k : ℕ) (hk : k < 2 * n2) :
    ∑ i ∈ range n2, kern (2 * n2) (fl f) (2 * t) i k * v.getD i 0 =
      ∑ p ∈ range t, f.getD (2 * p + k % 2) 0 * per v (((k / 2 : ℕ) : ℤ) - p) := by
  unfold kern
  simp_rw [FB.sum_even_odd, sum_mul]
  rw [sum_comm]
  refine sum_congr rfl (fun p _ => ?_)
  have key : ∀ e < 2, ∑ i ∈ range n2, (if (2 * i + (2 * p + e)) % (2 * n2) = k then fl f (2 * p + e) else 0) * v.getD i 0 =
      if k % 2 = e then f.getD (2 * p + e) 0 * per v (((k / 2 : ℕ) : ℤ) - p) else 0 := by
    intro e he
    have := sum_tap v n2 hv hn k p e hk he
    have h2 : ∀ i, (if (2 * i + (2 * p + e)) % (2 * n2) = k then fl f (2 * p + e) else 0) * v.getD i 0 =
        f.getD (2 * p + e) 0 * (if (2 * i + (2 * p + e)) % (2 * n2) = k then v.getD i 0 else 0) := by
      intro i; split_ifs <;> simp
    simp_rw [h2]
    rw [← mul_sum, this]
    split_ifs <;> simp
  simp_rw [add_mul, sum_add_distrib]
  have k0 := key 0 (by omega)
  have k1 := key 1 (by omega)
  simp only [add_zero] at k0
  rw [k0, k1]
  have : k % 2 = 0 ∨ k % 2 = 1 := by omega
  rcases this with h | h <;> simp [h]

/-- Entries of the full transform: first half low pass rows, second half high pass rows. -/
def trans (n2 t : ℕ) (h : List R) (i k : ℕ) : R :=
  if i < n2 then kern (2 * n2) (fl h) (2 * t) i k else kern (2 * n2) (fl (qmf h)) (2 * t) (i - n2) k

theorem sum_halves (n2 : ℕ) (F : ℕ → R) :
    ∑ i ∈ range (2 * n2), F i = ∑ i ∈ range n2, F i + ∑ i ∈ range n2, F (n2 + i) := by
  rw [two_mul, sum_range_add]

theorem trans_low {n2 t : ℕ} (h : List R) {i : ℕ} (hi : i < n2) (k : ℕ) :
    trans n2 t h i k = kern (2 * n2) (fl h) (2 * t) i k := by rw [trans, if_pos hi]

theorem trans_high {n2 t : ℕ} (h : List R) (i k : ℕ) :
    trans n2 t h (n2 + i) k = kern (2 * n2) (fl (qmf h)) (2 * t) i k := by
  rw [trans, if_neg (by omega), Nat.add_sub_cancel_left]

/-- The transposed operator is the synthesis. -/
theorem synth_trans (low high h : List R) (t n2 : ℕ) (hl : low.length = n2) (hh : high.length = n2)
    (hL : h.length = 2 * t) (hn : 0 < n2) (k : ℕ) (hk : k < 2 * n2) :
    FB.synth t (fl h) (per low) (per high) (k % 2) ((k / 2 : ℕ) : ℤ) =
      ∑ i ∈ range n2, trans n2 t h i k * low.getD i 0 + ∑ i ∈ range n2, trans n2 t h (n2 + i) k * high.getD i 0 := by
  have e1 : ∑ i ∈ range n2, trans n2 t h i k * low.getD i 0 =
      ∑ i ∈ range n2, kern (2 * n2) (fl h) (2 * t) i k * low.getD i 0 :=
    sum_congr rfl (fun i hi => by rw [trans_low h (mem_range.1 hi)])
  have e2 : ∑ i ∈ range n2, trans n2 t h (n2 + i) k * high.getD i 0 =
      ∑ i ∈ range n2, kern (2 * n2) (fl (qmf h)) (2 * t) i k * high.getD i 0 :=
    sum_congr rfl (fun i _ => by rw [trans_high])
  rw [e1, e2, kern_transpose low h t n2 hl hn k hk, kern_transpose high (qmf h) t n2 hh hn k hk]
  unfold FB.synth
  rw [← sum_add_distrib]
  refine sum_congr rfl (fun p hp => ?_)
  rw [mem_range] at hp
  rw [getD_qmf h t hL (by omega)]

/-- Orthogonality of the rows of the transposed operator. -/
theorem trans_ortho (h : List R) (t n2 : ℕ) (hL : h.length = 2 * t) (ho : FB.Ortho t (fl h)) (hn : 0 < n2)
    (k l : ℕ) (hk : k < 2 * n2) (hl : l < 2 * n2) :
    ∑ i ∈ range (2 * n2), trans n2 t h i k * trans n2 t h i l = if k = l then 1 else 0 := by
  -- apply the reconstruction identity to the unit vector at `l`
  set x : List R := (List.range (2 * n2)).map (fun q => if q = l then 1 else 0) with hx
  have hxl : x.length = 2 * n2 := by simp [hx]
  have hxg : ∀ q < 2 * n2, x.getD q 0 = if q = l then 1 else 0 := fun q hq => by
    rw [hx, getD_map_range _ _ hq]
  have hana : ∀ (f : List R), f.length = 2 * t → ∀ i, anaP x f i = kern (2 * n2) (fl f) (2 * t) i l := by
    intro f hf i
    rw [ana_kern x f i (by omega), hxl, hf, sum_eq_single l]
    · rw [hxg l hl, if_pos rfl, mul_one]
    · intro b hb hne
      rw [hxg b (mem_range.1 hb), if_neg hne, mul_zero]
    · intro hnot; exact absurd (mem_range.2 hl) hnot
  have hlow : per ((List.range n2).map (anaP x h)) = FB.low t (fl h) (per x) := by
    funext z
    rw [per_ana x h n2 hxl hn, hL]; rfl
  have hhigh : per ((List.range n2).map (anaP x (qmf h))) = FB.high t (fl h) (per x) := by
    funext z
    rw [per_ana x _ n2 hxl hn, length_qmf, hL]
    unfold FB.high
    refine sum_congr rfl (fun j hj => ?_)
    rw [← getD_qmf h t hL (mem_range.1 hj)]
  have hrec := FB.perfect t (fl h) (fun j hj => fl_zero h (by omega)) ho (per x) (k % 2) (Nat.mod_lt _ (by omega))
    ((k / 2 : ℕ) : ℤ)
  rw [← hlow, ← hhigh, synth_trans _ _ h t n2 (by simp) (by simp) hL hn k hk] at hrec
  have : (2 * ((k / 2 : ℕ) : ℤ) + ((k % 2 : ℕ) : ℤ)) = (k : ℤ) := by omega
  rw [this, per_lt x (by omega), hxg k hk] at hrec
  rw [← hrec, sum_halves]
  congr 1
  · refine sum_congr rfl (fun i hi => ?_)
    rw [mem_range] at hi
    rw [getD_map_range _ _ hi, hana h hL, trans_low h hi l]
  · refine sum_congr rfl (fun i hi => ?_)
    rw [mem_range] at hi
    rw [getD_map_range _ _ hi, hana (qmf h) (by simpa using hL), trans_high h i l]

end Ring

end WB
