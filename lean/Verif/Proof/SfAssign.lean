import Verif.Proof.Kraft
import Verif.Proof.SfFill
import Verif.Proof.Rounding

/-! The first part of the choice of code lengths does not use up more than the code space, for small tables. -/

namespace WB.Sf

open WB

/-! ### rounding -/

theorem nearest_exact {S : Set ℝ} {f : ℝ → ℝ} (hf : RoundsToNearest S f) {x : ℝ} (hx : x ∈ S) : f x = x := by
  have := (hf x).2 x hx
  rw [sub_self, abs_zero] at this
  exact sub_eq_zero.1 (abs_nonpos_iff.1 this)

theorem nearest_mono {S : Set ℝ} {f : ℝ → ℝ} (hf : RoundsToNearest S f) {x y : ℝ} (h : x ≤ y) : f x ≤ f y := by
  rcases h.lt_or_eq with h | h
  · by_contra hc
    push Not at hc
    have h1 := (hf x).2 _ (hf y).1
    have h2 := (hf y).2 _ (hf x).1
    rcases abs_cases (f x - x) with ⟨e1, _⟩ | ⟨e1, _⟩ <;> rcases abs_cases (f y - x) with ⟨e2, _⟩ | ⟨e2, _⟩ <;>
      rcases abs_cases (f y - y) with ⟨e3, _⟩ | ⟨e3, _⟩ <;> rcases abs_cases (f x - y) with ⟨e4, _⟩ | ⟨e4, _⟩ <;>
      rw [e1, e2] at h1 <;> rw [e3, e4] at h2 <;> linarith
  · rw [h]

theorem natCast_double {n : ℕ} (h : n < 2 ^ 53) : (n : ℝ) ∈ FloatNumbers 53 (-1074) :=
  ⟨n, 0, by rw [abs_of_nonneg (by positivity)]; exact_mod_cast h, by norm_num, by simp⟩

theorem share_le {f : ℝ → ℝ} (hf : RoundsToNearest (FloatNumbers 53 (-1074)) f) {x F c : ℝ} (hx : 0 ≤ x) (hF : 1 ≤ F) (hc0 : 0 ≤ c) (hc1 : c ≤ 1)
    (h : f (f x / F) ≤ f c) : x / F ≤ c + 1 / 2 ^ 50 := by
  have hη : (2 : ℝ) ^ ((-1074 : ℤ) - 1) ≤ 1 / 2 ^ 60 := by
    rw [show (1 : ℝ) / 2 ^ 60 = 2 ^ (-60 : ℤ) by norm_num]
    exact zpow_le_zpow_right₀ (by norm_num) (by norm_num)
  have hδ : (2 : ℝ) ^ (-((53 : ℕ) : ℤ)) = 1 / 2 ^ 53 := by norm_num
  have s1 := rounds_std (by norm_num) hf x
  have s2 := rounds_std (by norm_num) hf (f x / F)
  have s3 := rounds_std (by norm_num) hf c
  rw [hδ] at s1 s2 s3
  rw [abs_of_nonneg hx] at s1
  rw [abs_of_nonneg hc0] at s3
  have hF0 : 0 < F := by linarith
  have hw : 0 ≤ x / F := by positivity
  have a1 : x - 1 / 2 ^ 53 * x - 1 / 2 ^ 60 ≤ f x := by have := (abs_le.1 s1).1; linarith
  have a2 : x / F - 1 / 2 ^ 53 * (x / F) - 1 / 2 ^ 60 ≤ f x / F := by
    have h1 : (x - 1 / 2 ^ 53 * x - 1 / 2 ^ 60) / F ≤ f x / F := by gcongr
    have h2 : (1 : ℝ) / 2 ^ 60 / F ≤ 1 / 2 ^ 60 := div_le_self (by positivity) hF
    have h3 : (x - 1 / 2 ^ 53 * x - 1 / 2 ^ 60) / F = x / F - 1 / 2 ^ 53 * (x / F) - 1 / 2 ^ 60 / F := by ring
    linarith
  have a3 : f c ≤ c + 1 / 2 ^ 53 * c + 1 / 2 ^ 60 := by have := (abs_le.1 s3).2; linarith
  generalize x / F = w at *
  generalize f x / F = y at *
  rcases le_total 0 y with hy | hy
  · rw [abs_of_nonneg hy] at s2
    have a4 := (abs_le.1 s2).1
    norm_num at *
    linarith
  · norm_num at *
    linarith

/-! ### the search with one code length -/

/-- The codes before pool `p`. -/
def before (last : ℕ → ℕ) (p : ℕ) : ℕ := if p = 0 then 0 else last (p - 1) + 1

/-- The values before pool `p`. -/
def upTo (up : ℕ → ℕ) (p : ℕ) : ℕ := if p = 0 then 0 else up (p - 1)

/-- `Sollanteil` for the pools from `p` up to before `p'`. -/
noncomputable def soll (r : Rounding) (last : ℕ → ℕ) (len : ℕ) (free : ℝ) (p p' : ℕ) : ℝ :=
  r.toDouble (r.toDouble (((before last p' - before last p : ℕ) : ℝ) * (2 ^ (32 - len) - 1)) / free)

/-- `Istanteil` for the pools from `p` up to before `p'`. -/
noncomputable def ist (r : Rounding) (up : ℕ → ℕ) (n p p' : ℕ) : ℝ := r.toDouble (((upTo up p' - upTo up p : ℕ) : ℝ) / n)

theorem scan_succ (r : Rounding) (last up : ℕ → ℕ) (n len : ℕ) (free : ℝ) (p k t next : ℕ) :
    scan r last up n len free (before last p) (upTo up p) (k + 1) t next =
      if 1 < soll r last len free p (t + 1) then next
      else scan r last up n len free (before last p) (upTo up p) k (t + 1) (if soll r last len free p (t + 1) ≤ ist r up n p (t + 1) then t + 1 else next) := by
  rfl

theorem scan_spec (r : Rounding) (last up : ℕ → ℕ) (n len : ℕ) (free : ℝ) (p : ℕ) : ∀ k t next,
    scan r last up n len free (before last p) (upTo up p) k t next = next ∨
    ∃ p', t < p' ∧ p' ≤ t + k ∧ scan r last up n len free (before last p) (upTo up p) k t next = p' ∧
      soll r last len free p p' ≤ ist r up n p p' := by
  intro k
  induction k with
  | zero => intro t next; left; rfl
  | succ k ih =>
    intro t next
    rw [scan_succ]
    split
    · left; rfl
    · by_cases h : soll r last len free p (t + 1) ≤ ist r up n p (t + 1)
      · rw [if_pos h]
        right
        rcases ih (t + 1) (t + 1) with e | ⟨p', h1, h2, h3, h4⟩
        · exact ⟨t + 1, by omega, by omega, e, h⟩
        · exact ⟨p', by omega, by omega, h3, h4⟩
      · rw [if_neg h]
        rcases ih (t + 1) next with e | ⟨p', h1, h2, h3, h4⟩
        · exact Or.inl e
        · exact Or.inr ⟨p', by omega, by omega, h3, h4⟩

theorem scan_full (r : Rounding) (last up : ℕ → ℕ) (n len : ℕ) (free : ℝ) (p used : ℕ) (h1 : ∀ p', p < p' → p' ≤ used → soll r last len free p p' ≤ 1)
    (h2 : soll r last len free p used ≤ ist r up n p used) : ∀ k t next, p ≤ t → t + (k + 1) = used →
    scan r last up n len free (before last p) (upTo up p) (k + 1) t next = used := by
  intro k
  induction k with
  | zero =>
    intro t next hp ht
    rw [scan_succ, if_neg (by have := h1 (t + 1) (by omega) (by omega); linarith)]
    have : t + 1 = used := by omega
    rw [this, if_pos h2]
    rfl
  | succ k ih =>
    intro t next hp ht
    rw [scan_succ, if_neg (by have := h1 (t + 1) (by omega) (by omega); linarith)]
    exact ih (t + 1) _ (by omega) (by omega)

/-! ### the groups -/

/-- The code lengths `lens` from pool `p` on come in groups, the first one with code length at least `len`: the number of codes of
each group, and 32 minus its code length. -/
inductive Groups (last up : ℕ → ℕ) (n used : ℕ) (lens : ℕ → ℕ) : ℕ → ℕ → List (ℕ × ℕ) → Prop
  | done (len : ℕ) : Groups last up n used lens used len []
  | more {p len p' l : ℕ} {gs : List (ℕ × ℕ)} : p < p' → p' ≤ used → len ≤ l → l ≤ 31 → (∀ t, p ≤ t → t < p' → lens t = l) →
      ((before last p' - before last p : ℕ) : ℝ) * (2 ^ (32 - l) - 1) / ((2 ^ 32 - before last used : ℝ) + before last p) ≤
        ((upTo up p' - upTo up p : ℕ) : ℝ) / n + 1 / 2 ^ 50 →
      Groups last up n used lens p' (l + 1) gs → Groups last up n used lens p len ((before last p' - before last p, 32 - l) :: gs)

/-- What is assumed of the table and the frequencies. -/
structure TableOk (last up : ℕ → ℕ) (n used : ℕ) : Prop where
  pos : 0 < used
  strict : ∀ p p', p < p' → p' ≤ used → before last p < before last p'
  small : (before last used : ℝ) * (n + 1) ≤ 2 ^ 32
  upMono : ∀ p p', p ≤ p' → p' ≤ used → upTo up p ≤ upTo up p'
  total : upTo up used = n
  lastUsed : ∀ p < used, upTo up p < n

theorem TableOk.mono {last up : ℕ → ℕ} {n used : ℕ} (h : TableOk last up n used) (p p' : ℕ) (h1 : p ≤ p') (h2 : p' ≤ used) :
    before last p ≤ before last p' := by
  rcases h1.lt_or_eq with h3 | h3
  · exact (h.strict p p' h3 h2).le
  · rw [h3]

theorem Groups.weaken {last up : ℕ → ℕ} {n used : ℕ} {lens : ℕ → ℕ} {p len len' : ℕ} {gs : List (ℕ × ℕ)} (h : len' ≤ len)
    (hg : Groups last up n used lens p len gs) : Groups last up n used lens p len' gs := by
  cases hg with
  | done => exact .done _
  | more h1 h2 h3 h4 h5 h6 h7 => exact .more h1 h2 (h.trans h3) h4 h5 h6 h7

theorem assign_groups {r : Rounding} (hr : RoundsToNearest (FloatNumbers 53 (-1074)) r.toDouble) {last up : ℕ → ℕ} {n used : ℕ}
    (ht : TableOk last up n used) : ∀ (k len : ℕ) (s : Ready), len + k = 33 → len ≤ 31 → s.pools < used → s.codes = before last s.pools →
      s.count = upTo up s.pools → ∃ gs, (∀ t < s.pools, assign r last up n used k len s t = s.lens t) ∧
        Groups last up n used (assign r last up n used k len s) s.pools len gs := by
  have hn : 0 < n := by have := ht.lastUsed 0 ht.pos; omega
  have hn' : (0 : ℝ) < n := by exact_mod_cast hn
  have hn1 : (1 : ℝ) ≤ n := by exact_mod_cast hn
  have hT : (before last used : ℝ) * n + before last used ≤ 2 ^ 32 := by have := ht.small; linarith
  have hT0 : (1 : ℝ) ≤ before last used := by
    have : 1 ≤ before last used := by
      have := ht.pos
      unfold before
      rw [if_neg (by omega)]
      omega
    exact_mod_cast this
  have hT31 : (before last used : ℝ) ≤ 2 ^ 31 := by nlinarith
  intro k
  induction k with
  | zero => intro len s h1 h2; omega
  | succ k ih =>
    intro len s hk hlen hp hcodes hcount
    set p := s.pools with hpd
    have hbp : before last p ≤ before last used := ht.mono _ _ hp.le le_rfl
    have hfree : (2 : ℝ) ^ 32 - ((last (used - 1) + 1 - s.codes : ℕ) : ℝ) = (2 ^ 32 - before last used : ℝ) + before last p := by
      have : last (used - 1) + 1 = before last used := by
        have := ht.pos
        unfold before
        rw [if_neg (by omega)]
      rw [this, hcodes, Nat.cast_sub hbp]
      ring
    set free : ℝ := (2 ^ 32 - before last used : ℝ) + before last p with hfd
    have hfree1 : 1 ≤ free := by
      have h0 : (0 : ℝ) ≤ before last p := by positivity
      rw [hfd]
      linarith
    have hstep : assign r last up n used (k + 1) len s =
        (let next := scan r last up n len free (before last p) (upTo up p) (used - p) p p
         let s' : Ready := if p < next then
             ⟨fun t => if p ≤ t ∧ t < next then len else s.lens t, next, last (next - 1) + 1, up (next - 1)⟩
           else s
         if s'.pools = used then s'.lens else assign r last up n used k (len + 1) s') := by
      rw [← hfree, ← hcodes, ← hcount]
      rfl
    -- with code length 31 all pools are done
    have hlast : len = 31 → scan r last up n len free (before last p) (upTo up p) (used - p) p p = used := by
      intro hl
      have hexact : ∀ p', p < p' → p' ≤ used → soll r last len free p p' = r.toDouble (((before last p' - before last p : ℕ) : ℝ) / free) := by
        intro p' h1 h2
        unfold soll
        have : (before last p' - before last p : ℕ) < 2 ^ 53 := by
          have h3 : before last p' ≤ before last used := ht.mono _ _ h2 le_rfl
          have h4 : (before last used : ℝ) < 2 ^ 53 := lt_of_le_of_lt hT31 (by norm_num)
          have h5 : before last used < 2 ^ 53 := by exact_mod_cast h4
          omega
        have e : ((before last p' - before last p : ℕ) : ℝ) * (2 ^ (32 - len) - 1) = ((before last p' - before last p : ℕ) : ℝ) := by
          rw [hl]; norm_num
        rw [e, nearest_exact hr (natCast_double this)]
      have hq : ∀ p', p < p' → p' ≤ used → ((before last p' - before last p : ℕ) : ℝ) / free ≤ 1 / n := by
        intro p' h1 h2
        have h3 : ((before last p' - before last p : ℕ) : ℝ) ≤ before last used := by
          have := ht.mono _ _ h2 le_rfl
          exact_mod_cast (by omega : before last p' - before last p ≤ before last used)
        rw [div_le_div_iff₀ (by linarith) hn', one_mul]
        have h5 : (0 : ℝ) ≤ before last p := by positivity
        calc ((before last p' - before last p : ℕ) : ℝ) * n ≤ before last used * n := by gcongr
          _ ≤ free := by rw [hfd]; linarith
      have h1n : (1 : ℝ) / n ≤ 1 := by rw [div_le_one hn']; exact hn1
      have e1 : r.toDouble 1 = 1 := nearest_exact hr (by simpa using natCast_double (n := 1) (by norm_num))
      obtain ⟨j, hj⟩ : ∃ j, used - p = j + 1 := ⟨used - p - 1, by omega⟩
      rw [hj]
      refine scan_full r last up n len free p used ?_ ?_ j p p le_rfl (by omega)
      · intro p' h1 h2
        rw [hexact p' h1 h2, ← e1]
        exact nearest_mono hr ((hq p' h1 h2).trans h1n)
      · rw [hexact used hp le_rfl]
        unfold ist
        refine nearest_mono hr ((hq used hp le_rfl).trans ?_)
        have h3 : (1 : ℝ) ≤ ((upTo up used - upTo up p : ℕ) : ℝ) := by
          have := ht.lastUsed p hp
          have := ht.total
          exact_mod_cast (by omega : 1 ≤ upTo up used - upTo up p)
        gcongr
    rcases scan_spec r last up n len free p (used - p) p p with he | ⟨p', h1, h2, h3, h4⟩
    · -- nothing assigned
      have hl : len ≠ 31 := by
        intro hl
        have := hlast hl
        omega
      rw [hstep]
      simp only [he, lt_irrefl, if_false]
      rw [if_neg (by omega)]
      obtain ⟨gs, g1, g2⟩ := ih (len + 1) s (by omega) (by omega) hp hcodes hcount
      exact ⟨gs, g1, g2.weaken (by omega)⟩
    · rw [hstep]
      simp only [h3, if_pos h1]
      have hb' : last (p' - 1) + 1 = before last p' := by
        unfold before
        rw [if_neg (by omega)]
      have hu' : up (p' - 1) = upTo up p' := by
        unfold upTo
        rw [if_neg (by omega)]
      have hshare : ((before last p' - before last p : ℕ) : ℝ) * (2 ^ (32 - len) - 1) / free ≤
          ((upTo up p' - upTo up p : ℕ) : ℝ) / n + 1 / 2 ^ 50 := by
        have h2' : (1 : ℝ) ≤ 2 ^ (32 - len) := one_le_pow₀ (by norm_num)
        refine share_le hr (mul_nonneg (by positivity) (by linarith)) hfree1 (by positivity) ?_ h4
        rw [div_le_one hn']
        have := ht.upMono p' used (by omega) le_rfl
        have := ht.total
        exact_mod_cast (by omega : upTo up p' - upTo up p ≤ n)
      by_cases hdone : p' = used
      · rw [if_pos hdone]
        refine ⟨[(before last p' - before last p, 32 - len)], ?_, ?_⟩
        · intro t htp
          rw [if_neg (by omega)]
        · refine .more h1 (by omega) le_rfl hlen ?_ hshare ?_
          · intro t ha hb
            rw [if_pos ⟨ha, hb⟩]
          · rw [hdone]; exact .done _
      · rw [if_neg hdone]
        have hl : len ≠ 31 := by
          intro hl
          have := hlast hl
          omega
        obtain ⟨gs, g1, g2⟩ := ih (len + 1) ⟨fun t => if p ≤ t ∧ t < p' then len else s.lens t, p', last (p' - 1) + 1, up (p' - 1)⟩
          (by omega) (by omega) (by simp only; omega) hb' hu'
        refine ⟨(before last p' - before last p, 32 - len) :: gs, ?_, ?_⟩
        · intro t htp
          rw [g1 t (by simp only; omega)]
          simp only
          rw [if_neg (by omega)]
        · refine .more h1 (by omega) le_rfl hlen ?_ hshare g2
          intro t ha hb
          rw [g1 t (by simp only; omega)]
          simp only
          rw [if_pos ⟨ha, hb⟩]

/-! ### consequences -/

section
variable {last up : ℕ → ℕ} {n used : ℕ} {lens : ℕ → ℕ} {p len : ℕ} {gs : List (ℕ × ℕ)}

theorem Groups.le_used (hg : Groups last up n used lens p len gs) : p ≤ used := by
  cases hg with
  | done => exact le_rfl
  | more h1 h2 => omega

theorem Groups.codes (ht : TableOk last up n used) (hg : Groups last up n used lens p len gs) :
    groupCodes gs + before last p = before last used := by
  induction hg with
  | done => simp [groupCodes]
  | more h1 h2 h3 h4 h5 h6 h7 ih =>
    have := ht.strict _ _ h1 h2
    simp only [groupCodes]
    omega

theorem Groups.desc (ht : TableOk last up n used) (hg : Groups last up n used lens p len gs) :
    (∀ g ∈ gs, 0 < g.1 ∧ g.2 + len ≤ 32) ∧ gs.Pairwise (fun g h => h.2 < g.2) := by
  induction hg with
  | done => simp
  | more h1 h2 h3 h4 h5 h6 h7 ih =>
    have := ht.strict _ _ h1 h2
    refine ⟨?_, List.pairwise_cons.2 ⟨?_, ih.2⟩⟩
    · intro g hg
      rcases List.mem_cons.1 hg with rfl | hg
      · exact ⟨by simp only; omega, by simp only; omega⟩
      · have := ih.1 g hg
        omega
    · intro g hg
      have := (ih.1 g hg).2
      simp only
      omega

theorem Groups.length (hg : Groups last up n used lens p len gs) : gs.length + len ≤ 32 ∨ gs = [] := by
  induction hg with
  | done => right; rfl
  | more h1 h2 h3 h4 h5 h6 h7 ih =>
    left
    simp only [List.length_cons]
    rcases ih with ih | ih
    · omega
    · rw [ih]; simp only [List.length_nil]; omega

theorem Groups.share (ht : TableOk last up n used) (hg : Groups last up n used lens p len gs) :
    groupShare (2 ^ 32 - before last used) (before last p) gs ≤ ((n - upTo up p : ℕ) : ℝ) / n + gs.length / 2 ^ 50 := by
  induction hg with
  | done => simp only [groupShare]; positivity
  | @more p len p' l gs h1 h2 h3 h4 h5 h6 h7 ih =>
    simp only [groupShare]
    have hb := ht.strict _ _ h1 h2
    rw [show before last p + (before last p' - before last p) = before last p' by omega]
    have e : ((n - upTo up p : ℕ) : ℝ) / n = ((upTo up p' - upTo up p : ℕ) : ℝ) / n + ((n - upTo up p' : ℕ) : ℝ) / n := by
      rw [← add_div]
      congr 1
      have u1 := ht.upMono p p' h1.le h2
      have u2 := ht.upMono p' used h2 le_rfl
      have u3 := ht.total
      exact_mod_cast (by omega : n - upTo up p = (upTo up p' - upTo up p) + (n - upTo up p'))
    rw [e]
    simp only [List.length_cons]
    push_cast
    have : ((gs.length : ℝ) + 1) / 2 ^ 50 = gs.length / 2 ^ 50 + 1 / 2 ^ 50 := by ring
    rw [this]
    linarith

theorem Groups.space (hg : Groups last up n used lens p len gs) {size : ℕ → ℕ}
    (hs : ∀ t < used, size t + before last t = before last (t + 1)) :
    ∑ t ∈ Finset.Ico p used, size t * 2 ^ (32 - lens t) = groupSpace gs := by
  have htel : ∀ p p', p ≤ p' → p' ≤ used → ∑ t ∈ Finset.Ico p p', size t + before last p = before last p' := by
    intro p p' h1
    induction p', h1 using Nat.le_induction with
    | base => intro _; simp
    | succ q hq ih =>
      intro h2
      rw [Finset.sum_Ico_succ_top hq]
      have := ih (by omega)
      have := hs q (by omega)
      omega
  induction hg with
  | done => simp [groupSpace]
  | @more p len p' l gs h1 h2 h3 h4 h5 h6 h7 ih =>
    rw [← Finset.sum_Ico_consecutive _ h1.le h2, ih]
    simp only [groupSpace]
    congr 1
    have := htel p p' h1.le h2
    rw [show before last p' - before last p = ∑ t ∈ Finset.Ico p p', size t by omega, Finset.sum_mul]
    refine Finset.sum_congr rfl fun t htm => ?_
    rw [Finset.mem_Ico] at htm
    rw [h5 t htm.1 htm.2]

theorem Groups.lens_ge (hg : Groups last up n used lens p len gs) : ∀ t, p ≤ t → t < used → len ≤ lens t ∧ lens t ≤ 31 := by
  induction hg with
  | done => intro t h1 h2; omega
  | @more p len p' l gs h1 h2 h3 h4 h5 h6 h7 ih =>
    intro t ht1 ht2
    rcases Nat.lt_or_ge t p' with h | h
    · rw [h5 t ht1 h]; exact ⟨h3, h4⟩
    · have := ih t h ht2
      omega

theorem Groups.mono (hg : Groups last up n used lens p len gs) : ∀ t, p ≤ t → t + 1 < used → lens t ≤ lens (t + 1) := by
  induction hg with
  | done => intro t h1 h2; omega
  | @more p len p' l gs h1 h2 h3 h4 h5 h6 h7 ih =>
    intro t ht1 ht2
    rcases Nat.lt_or_ge t p' with h | h
    · rcases Nat.lt_or_ge (t + 1) p' with h' | h'
      · rw [h5 t ht1 h, h5 (t + 1) (by omega) h']
      · have := h7.lens_ge (t + 1) h' ht2
        rw [h5 t ht1 h]
        omega
    · exact ih t h ht2

theorem Groups.split (ht : TableOk last up n used) (hg : Groups last up n used lens p len gs) : ∀ m, p ≤ m → m < used →
    ∃ pre g post, gs = pre ++ g :: post ∧ groupCodes pre + before last p ≤ before last m ∧ g.2 = 32 - lens m := by
  induction hg with
  | done => intro t h1 h2; omega
  | @more p len p' l gs h1 h2 h3 h4 h5 h6 h7 ih =>
    intro m hm1 hm2
    rcases Nat.lt_or_ge m p' with h | h
    · refine ⟨[], _, gs, rfl, ?_, ?_⟩
      · simpa [groupCodes] using ht.mono p m hm1 hm2.le
      · simp only; rw [h5 m hm1 h]
    · obtain ⟨pre, g, post, e1, e2, e3⟩ := ih m h hm2
      refine ⟨(before last p' - before last p, 32 - l) :: pre, g, post, by rw [e1]; rfl, ?_, e3⟩
      have := ht.strict _ _ h1 h2
      simp only [groupCodes]
      omega

/-- The first part leaves the code space sufficient, if the table is small. -/
theorem Groups.space_le (ht : TableOk last up n used) (hg : Groups last up n used lens 0 0 gs) {size : ℕ → ℕ}
    (hs : ∀ t < used, size t + before last t = before last (t + 1)) (hpow : ∀ t < used, ∃ ν, size t = 2 ^ ν)
    (hfour : ∀ t < used, before last t ≤ 4 * size t) (hT : (before last used : ℝ) ^ 2 ≤ 2 * (2 ^ 32 - before last used)) :
    Sf.space size lens used ≤ 2 ^ 32 := by
  have hsp : Sf.space size lens used = groupSpace gs := by
    rw [← hg.space hs, ← Finset.range_eq_Ico]
    rfl
  have hT0 : (0 : ℝ) ≤ before last used := by positivity
  have hTlt : (before last used : ℝ) ≤ 2 ^ 17 := by nlinarith
  set F : ℝ := 2 ^ 32 - before last used with hF
  have hFpos : 0 < F := by rw [hF]; linarith
  have hlen : (gs.length : ℝ) ≤ 32 := by
    rcases hg.length with h | h
    · exact_mod_cast (by omega : gs.length ≤ 32)
    · rw [h]; norm_num
  have hn : 0 < n := by have := ht.lastUsed 0 ht.pos; omega
  have hn' : (0 : ℝ) < n := by exact_mod_cast hn
  have hW : groupShare F 0 gs ≤ 1 + 1 / 2 ^ 45 := by
    have h1 := hg.share ht
    have h2 : ((n - upTo up 0 : ℕ) : ℝ) / n = 1 := by
      unfold upTo
      rw [if_pos rfl, Nat.sub_zero, div_self hn'.ne']
    rw [h2, show before last 0 = 0 from rfl] at h1
    have h3 : (gs.length : ℝ) / 2 ^ 50 ≤ 32 / 2 ^ 50 := by gcongr
    rw [← hF] at h1
    norm_num at h1 h3 ⊢
    linarith
  have hF32 : F ≤ 2 ^ 32 := by rw [hF]; linarith
  have hcodes : groupCodes gs = before last used := by
    have := hg.codes ht
    rw [show before last 0 = 0 from rfl] at this
    omega
  have hd := hg.desc ht
  by_contra hc
  push Not at hc
  obtain ⟨m, hm, hdvd⟩ := exists_min_part (lens := lens) ht.pos hpow
  have hpart : size m * 2 ^ (32 - lens m) ≤ Sf.space size lens used :=
    Finset.single_le_sum (f := fun t => size t * 2 ^ (32 - lens t)) (fun _ _ => Nat.zero_le _) (Finset.mem_range.2 hm)
  have hlt33 : Sf.space size lens used < 2 ^ 33 := by
    have h1 := groupSpace_eq hFpos gs 0
    have h2 := groupLoss_le hFpos gs (fun g hgm => (hd.1 g hgm).1) hd.2
    have h3 := groupShare_nonneg hFpos gs 0
    rw [hcodes] at h1 h2
    have h4 : F * groupShare F 0 gs ≤ F * (1 + 1 / 2 ^ 45) := by gcongr
    have h5 : (before last used : ℝ) * groupShare F 0 gs ≤ 2 ^ 17 * (1 + 1 / 2 ^ 45) := mul_le_mul hTlt hW h3 (by norm_num)
    have : (groupSpace gs : ℝ) < 2 ^ 33 := by
      norm_num at h4 h5 hF32
      have hTr : (before last used : ℝ) ≤ 131072 := by norm_num at hTlt; exact_mod_cast hTlt
      have h6 : (groupSpace gs : ℝ) < 8589934592 := by linarith
      exact h6.trans_le (by norm_num)
    rw [hsp]
    exact_mod_cast this
  have hdvd32 : size m * 2 ^ (32 - lens m) ∣ 2 ^ 32 := by
    obtain ⟨ν, hν⟩ := hpow m hm
    rw [hν, ← pow_add] at hpart ⊢
    have h1 : ν + (32 - lens m) < 33 := (Nat.pow_lt_pow_iff_right (by norm_num)).1 (hpart.trans_lt hlt33)
    exact pow_dvd_pow _ (by omega)
  have h2 : size m * 2 ^ (32 - lens m) ∣ Sf.space size lens used - 2 ^ 32 :=
    Nat.dvd_sub (Finset.dvd_sum fun t ht => hdvd t (Finset.mem_range.1 ht)) hdvd32
  have h3 := Nat.le_of_dvd (by omega) h2
  obtain ⟨pre, g, post, e1, e2, e3⟩ := hg.split ht m (Nat.zero_le _) hm
  have hsz : 0 < size m := by
    obtain ⟨ν, hν⟩ := hpow m hm
    rw [hν]; positivity
  have h4 := groupSpace_lt (F := F) (ε := 1 / 2 ^ 45) hFpos pre post g (by rw [← e1]; exact fun g hgm => (hd.1 g hgm).1) (by rw [← e1]; exact hd.2)
    (by rw [← e1]; exact hW) (by norm_num) (by norm_num at hF32 ⊢; linarith) (size m) hsz (by
      have := hfour m hm
      rw [show before last 0 = 0 from rfl] at e2
      omega) (by rw [← e1, hcodes]; exact hT)
  rw [← e1, hcodes, e3] at h4
  have h5 : (F + before last used : ℝ) = 2 ^ 32 := by rw [hF]; ring
  rw [h5, ← hsp] at h4
  have h6 : Sf.space size lens used < 2 ^ 32 + size m * 2 ^ (32 - lens m) := by exact_mod_cast h4
  omega

end

end WB.Sf
