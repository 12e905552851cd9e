import Verif.Model.Wavelet
import Verif.Proof.FilterBank
import Mathlib.Data.Int.ModEq
import Mathlib.Algebra.BigOperators.Group.List.Basic

/-!
The 1D transform functions: they return normally for admissible sizes (any scalar type), and over a commutative ring they are
the filter bank of `FilterBank.lean` applied to the periodic extension.
-/

namespace WB

open Finset

variable {α : Type}

section Poly
variable [Zero α] [Add α] [Mul α]

/-- Value computed by `dwtAt`. -/
def anaP (x f : List α) (i : ℕ) : α :=
  (List.range f.length).foldl (fun acc j => acc + x.getD ((i * 2 + j) % x.length) 0 * f.getD j 0) 0

/-- Value computed by `idwtAt`. -/
def synP (low high lo hi : List α) (i : ℕ) : α :=
  (List.range ((lo.length + 1) / 2)).foldl (fun acc jj =>
    acc + lo.getD ((if i % 2 = 0 then 1 else 0) + 2 * jj) 0 *
      low.getD ((low.length - (lo.length - 2) / 2 + i / 2 + jj) % low.length) 0
    + hi.getD ((if i % 2 = 0 then 1 else 0) + 2 * jj) 0 *
      high.getD ((low.length - (lo.length - 2) / 2 + i / 2 + jj) % low.length) 0) 0

theorem wrap_eq_mod {a n : ℕ} (_hn : 0 < n) (h : a < 2 * n) : (if a ≥ n then a - n else a) = a % n := by
  split_ifs with h1
  · rw [Nat.mod_eq_sub_mod h1, Nat.mod_eq_of_lt (by omega)]
  · rw [Nat.mod_eq_of_lt (by omega)]

theorem dwtAt_ok {x f : List α} {i : ℕ} (hi : i < x.length / 2) (hf : f.length ≤ x.length) :
    dwtAt x f i = .ok (anaP x f i) := by
  unfold dwtAt anaP
  apply Outcome.foldlM_ok
  intro j hj acc
  rw [List.mem_range] at hj
  have hn : 0 < x.length := by omega
  simp only [wrap_eq_mod hn (show i * 2 + j < 2 * x.length by omega)]
  rw [rd_eq_getD 0 (Nat.mod_lt _ hn), Outcome.bind_ok, rd_eq_getD 0 hj]
  rfl

theorem dwt_ok {x lo hi : List α} (hlo : lo.length ≤ x.length) (hhi : hi.length ≤ x.length) :
    dwt x lo hi = .ok ((List.range (x.length / 2)).map (anaP x lo), (List.range (x.length / 2)).map (anaP x hi)) := by
  unfold dwt
  rw [Outcome.mapM_ok (g := anaP x lo) (fun i hi' => dwtAt_ok (List.mem_range.1 hi') hlo), Outcome.bind_ok,
    Outcome.mapM_ok (g := anaP x hi) (fun i hi' => dwtAt_ok (List.mem_range.1 hi') hhi)]
  rfl

theorem idwtAt_ok {low high lo hi : List α} {i t : ℕ} (hi' : i < low.length * 2) (hl : lo.length = 2 * t) (ht : 0 < t)
    (hh : hi.length = lo.length) (hlh : high.length = low.length) (hs : t ≤ low.length + 1) :
    idwtAt low high lo hi i = .ok (synP low high lo hi i) := by
  unfold idwtAt synP
  apply Outcome.foldlM_ok
  intro jj hj acc
  rw [List.mem_range] at hj
  have hn : 0 < low.length := by omega
  rw [if_neg (by omega)]
  simp only [Nat.mul_div_cancel_left jj (show 0 < 2 by omega)]
  rw [wrap_eq_mod hn (by omega)]
  have hb : (if i % 2 = 0 then 1 else 0) + 2 * jj < lo.length := by split_ifs <;> omega
  rw [rd_eq_getD 0 hb, Outcome.bind_ok, rd_eq_getD 0 (Nat.mod_lt _ hn), Outcome.bind_ok,
    rd_eq_getD 0 (by omega), Outcome.bind_ok, rd_eq_getD 0 (by rw [hlh]; exact Nat.mod_lt _ hn), Outcome.bind_ok]
  rfl

theorem idwt_ok {low high lo hi : List α} {t : ℕ} (hl : lo.length = 2 * t) (ht : 0 < t)
    (hh : hi.length = lo.length) (hlh : high.length = low.length) (hs : t ≤ low.length + 1) :
    idwt low high lo hi = .ok ((List.range (low.length * 2)).map (synP low high lo hi)) := by
  unfold idwt
  exact Outcome.mapM_ok (fun i hi' => idwtAt_ok (List.mem_range.1 hi') hl ht hh hlh hs)

end Poly

/-! ### filters -/

@[simp] theorem length_qmf [Neg α] (x : List α) : (qmf x).length = x.length := by simp [qmf]

theorem getD_qmf {R : Type} [CommRing R] (x : List R) (t : ℕ) (hx : x.length = 2 * t) {j : ℕ} (hj : j < 2 * t) :
    (qmf x).getD j 0 = FB.hp t (fun i => x.getD i 0) j := by
  unfold qmf FB.hp
  have h1 : j < x.length := by omega
  have h2 : x.length - 1 - j < x.length := by omega
  simp only [List.getD, List.getElem?_mapIdx, List.getElem?_reverse h1, hx]
  rw [List.getElem?_eq_getElem (show 2 * t - 1 - j < x.length by omega)]
  simp only [Option.map_some, Option.getD_some]
  have he : (if 2 * t % 2 = 0 then 1 else 2) = 1 := if_pos (by omega)
  rw [he]
  rcases Nat.even_or_odd' j with ⟨c, rfl | rfl⟩
  · rw [if_neg (by omega), pow_mul]; simp
  · rw [if_pos (by omega), pow_succ, pow_mul]; simp

/-! ### ring -/

section Ring
variable {R : Type} [CommRing R]

theorem foldl_sum (n : ℕ) (g : ℕ → R) (a : R) :
    (List.range n).foldl (fun acc j => acc + g j) a = a + ∑ j ∈ range n, g j := by
  induction n with
  | zero => simp
  | succ n ih => rw [List.range_succ, List.foldl_append, ih, sum_range_succ]; simp [add_assoc]

/-- Periodic extension. -/
def per (x : List R) (z : ℤ) : R := x.getD (z % (x.length : ℤ)).toNat 0

/-- Filter as a function. -/
abbrev fl (f : List R) : ℕ → R := fun j => f.getD j 0

theorem fl_zero (f : List R) {j : ℕ} (h : f.length ≤ j) : fl f j = 0 := by simp [fl, h]

theorem per_add_mul (x : List R) (z c : ℤ) : per x (z + c * x.length) = per x z := by
  unfold per; rw [Int.add_mul_emod_self_right]

theorem per_congr (x : List R) {a b : ℤ} (h : (x.length : ℤ) ∣ a - b) : per x a = per x b := by
  unfold per
  rw [show a % (x.length : ℤ) = b % (x.length : ℤ) from
    Int.emod_eq_emod_iff_emod_sub_eq_zero.2 (Int.emod_eq_zero_of_dvd h)]

theorem per_natCast (x : List R) (k : ℕ) : per x k = x.getD (k % x.length) 0 := by
  unfold per
  rw [← Int.natCast_mod, Int.toNat_natCast]

theorem per_lt (x : List R) {k : ℕ} (hk : k < x.length) : per x k = x.getD k 0 := by
  rw [per_natCast, Nat.mod_eq_of_lt hk]

theorem anaP_eq (x f : List R) (i : ℕ) : anaP x f i = ∑ j ∈ range f.length, per x (2 * i + j) * fl f j := by
  unfold anaP
  rw [foldl_sum, zero_add]
  refine sum_congr rfl (fun j _ => ?_)
  have : (2 * (i : ℤ) + j) = ((i * 2 + j : ℕ) : ℤ) := by push_cast; ring
  rw [this, per_natCast]

theorem getD_map_range (n : ℕ) (g : ℕ → R) {k : ℕ} (hk : k < n) : ((List.range n).map g).getD k 0 = g k := by
  simp [List.getD, hk]

/-- The periodic extension of the analysis output is the analysis of the periodic extension. -/
theorem per_ana (x f : List R) (n2 : ℕ) (hx : x.length = 2 * n2) (h2 : 0 < n2) (z : ℤ) :
    per ((List.range n2).map (anaP x f)) z = ∑ j ∈ range f.length, per x (2 * z + j) * fl f j := by
  have hpos : (0 : ℤ) < n2 := by exact_mod_cast h2
  have hr0 := Int.emod_nonneg z (ne_of_gt hpos)
  have hr1 := Int.emod_lt_of_pos z hpos
  unfold per
  simp only [List.length_map, List.length_range]
  rw [getD_map_range _ _ (by omega), anaP_eq]
  refine sum_congr rfl (fun j _ => ?_)
  have : per x (2 * ((z % (n2 : ℤ)).toNat : ℤ) + j) = per x (2 * z + j) := by
    apply per_congr
    rw [Int.toNat_of_nonneg hr0, hx]
    refine ⟨-(z / n2), ?_⟩
    have := Int.emod_add_mul_ediv z n2
    push_cast
    linear_combination 2 * this
  rw [this]; rfl

theorem synP_eq (low high h : List R) (t : ℕ) (hl : h.length = 2 * t) (ht : 0 < t)
    (hlh : high.length = low.length) (hs : t ≤ low.length + 1) (i : ℕ) :
    synP low high h.reverse (qmf h).reverse i =
      FB.synth t (fl h) (per low) (per high) (i % 2) ((i / 2 : ℕ) : ℤ) := by
  unfold synP
  have hlen : ((h.reverse.length + 1) / 2) = t := by simp; omega
  rw [hlen]
  simp_rw [add_assoc]
  rw [foldl_sum, zero_add]
  unfold FB.synth
  rw [← sum_range_reflect]
  refine sum_congr rfl (fun p hp => ?_)
  rw [mem_range] at hp
  simp only [List.length_reverse, hl]
  have hrev : ∀ (f : List R), f.length = 2 * t →
      f.reverse.getD ((if i % 2 = 0 then 1 else 0) + 2 * (t - 1 - p)) 0 = f.getD (2 * p + i % 2) 0 := by
    intro f hf
    have h1 : (if i % 2 = 0 then 1 else 0) + 2 * (t - 1 - p) < f.length := by split_ifs <;> omega
    have h2 : f.length - 1 - ((if i % 2 = 0 then 1 else 0) + 2 * (t - 1 - p)) = 2 * p + i % 2 := by
      split_ifs <;> omega
    simp only [List.getD, List.getElem?_reverse h1, h2]
  have hidx : ∀ (v : List R), v.length = low.length →
      v.getD ((low.length - (2 * t - 2) / 2 + (i / 2 + (t - 1 - p))) % low.length) 0 = per v (((i / 2 : ℕ) : ℤ) - p) := by
    intro v hv
    rw [← hv, ← per_natCast]
    apply per_congr
    refine ⟨1, ?_⟩
    have : (2 * t - 2) / 2 = t - 1 := by omega
    rw [this]
    have h3 : t - 1 ≤ v.length := by omega
    omega
  rw [hrev h hl, hrev (qmf h) (by simpa using hl), hidx low rfl, hidx high hlh]
  rw [getD_qmf h t hl (by omega)]

/-- One synthesis step after one analysis step is the identity. -/
theorem idwt_dwt (x h : List R) (t n2 : ℕ) (hl : h.length = 2 * t) (ht : 0 < t) (ho : FB.Ortho t (fl h))
    (hx : x.length = 2 * n2) (hn : t ≤ n2) :
    (dwt x h (qmf h) >>= fun r => idwt r.1 r.2 h.reverse (qmf h).reverse) = .ok x := by
  rw [dwt_ok (by omega) (by simp; omega), Outcome.bind_ok]
  have hdiv : x.length / 2 = n2 := by omega
  rw [hdiv, idwt_ok (t := t) (by simpa using hl) ht (by simp) (by simp) (by simp; omega)]
  congr 1
  apply List.ext_getElem
  · simp; omega
  · intro k h1 h2
    have hk : k < n2 * 2 := by omega
    simp only [List.getElem_map, List.getElem_range]
    rw [synP_eq _ _ h t hl ht (by simp) (by simp; omega) k]
    have hlow : per ((List.range n2).map (anaP x h)) = FB.low t (fl h) (per x) := by
      funext z
      rw [per_ana x h n2 hx (by omega), hl]; rfl
    have hhigh : per ((List.range n2).map (anaP x (qmf h))) = FB.high t (fl h) (per x) := by
      funext z
      rw [per_ana x _ n2 hx (by omega), length_qmf, hl]
      unfold FB.high
      refine sum_congr rfl (fun j hj => ?_)
      rw [← getD_qmf h t hl (mem_range.1 hj)]
    rw [hlow, hhigh, FB.perfect t (fl h) (fun j hj => fl_zero h (by omega)) ho _ _ (Nat.mod_lt _ (by omega))]
    have : (2 * ((k / 2 : ℕ) : ℤ) + ((k % 2 : ℕ) : ℤ)) = (k : ℤ) := by omega
    rw [this, per_lt x h2]
    simp [List.getD, h2]

end Ring

end WB
