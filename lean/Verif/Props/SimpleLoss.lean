import Verif.Proof.SimpleLoss
import Verif.Props.Stability

/-!
C92: what the simple denoiser costs.
-/

namespace WB.Props

open Finset Spec

/-- A denoiser that keeps sizes and, on subbands with fewer than `2^64` entries, gives what `SimpleDenoiseAlgorithm(level)` gives. -/
def IsSimple (ext : SimpleExt ℝ) (level : ℝ) (den : Denoiser ℝ) : Prop :=
  KeepsSizes den ∧ (∀ v s r, v.length < 2 ^ 64 → simple1 ext level v = .ok r → den.d1 v s = r) ∧
  ∀ m s r, m.rows * m.cols < 2 ^ 64 → simple2 ext level m = .ok r → den.d2 m s = r

/-- The contract of `std::nth_element` for both uses. -/
def NthOk (ext : SimpleExt ℝ) : Prop :=
  (∀ v n, n ≤ v.length → NthContract Prod.fst v n (ext.nth1 v n)) ∧ ∀ v n, n ≤ v.length → NthContract Prod.fst v n (ext.nth2 v n)

theorem cut_ok {ext : SimpleExt ℝ} (ha : ExactCast ext) {level : ℝ} (h0 : 0 ≤ level) (h1 : level ≤ 1) {n : ℕ} (hn : n < 2 ^ 64) :
    ext.toSize ((n : ℝ) * level) = .ok ⌊(n : ℝ) * level⌋₊ ∧ ((min ⌊(n : ℝ) * level⌋₊ (n - 1) : ℕ) : ℝ) ≤ (n : ℝ) * level := by
  have hp : 0 ≤ (n : ℝ) * level := by positivity
  have hlt : (n : ℝ) * level < 2 ^ 64 := by
    have h2 : (n : ℝ) < 2 ^ 64 := by exact_mod_cast hn
    have h3 : (0 : ℝ) ≤ n := by positivity
    nlinarith
  refine ⟨ha.2 _ hp hlt, le_trans ?_ (Nat.floor_le hp)⟩
  exact_mod_cast min_le_left _ _

theorem simple_loss_2D {ext : SimpleExt ℝ} (ha : ExactCast ext) (hnth : NthOk ext) {level : ℝ} (h0 : 0 ≤ level) (h1 : level ≤ 1)
    {den : Denoiser ℝ} (hden : IsSimple ext level den) (m : Mat ℝ) (s : ℕ) (hm : m.rows * m.cols < 2 ^ 64) :
    sqDist (den.d2 m s) m ≤ level * energy m := by
  obtain ⟨c1, c2⟩ := cut_ok ha h0 h1 hm
  obtain ⟨r, hr, hk⟩ := simple2_ok ext level m _ c1 hnth.2
  rw [hden.2.2 m s r hm hr]
  have habs : ext.abs = fun x => |x| := funext ha.1
  rw [habs] at hk
  exact drop_le c2 (by omega) hk

theorem simple_loss_1D {ext : SimpleExt ℝ} (ha : ExactCast ext) (hnth : NthOk ext) {level : ℝ} (h0 : 0 ≤ level) (h1 : level ≤ 1)
    {den : Denoiser ℝ} (hden : IsSimple ext level den) (v : List ℝ) (s : ℕ) (hv : v.length < 2 ^ 64) :
    sqDist (Mat.ofCol (den.d1 v s)) (Mat.ofCol v) ≤ level * energy (Mat.ofCol v) := by
  obtain ⟨c1, c2⟩ := cut_ok ha h0 h1 hv
  obtain ⟨r, hr, hk⟩ := simple1_ok ext level v _ c1 hnth.1
  rw [hden.2.1 v s r hv hr]
  have habs : ext.abs = fun x => |x| := funext ha.1
  rw [habs] at hk
  have e : (Mat.ofCol v).rows * (Mat.ofCol v).cols = v.length := by simp
  refine drop_le (cut := min ⌊(v.length : ℝ) * level⌋₊ (v.length - 1)) (by rw [e]; exact c2) (by rw [e]; omega) (by rw [e]; exact hk)

theorem level_le {p : Params} (hv : ValidParams p) {n : ℕ} (hn : n ≤ p.steps) :
    lvlR p n * lvlC p n ≤ (p.shape.map (paddedSide p)).prod := by
  rw [← padded_size hv, ← levels_sum hv hn]
  exact Nat.le_add_left _ _

theorem simple_change {ext : SimpleExt ℝ} (ha : ExactCast ext) (hnth : NthOk ext) {level : ℝ} (h0 : 0 ≤ level) (h1 : level ≤ 1)
    {den : Denoiser ℝ} (hden : IsSimple ext level den) {k : Kit ℝ} {p : Params} (hv : ValidParams p) (hf : FilterLen k p)
    (hN : (p.shape.map (paddedSide p)).prod < 2 ^ 64) {x : Mat ℝ} (hx : Shaped p x) :
    (List.zipWith sqDist (chanP p (scaling k p) den x) (chanP p (scaling k p) nullDenoiser x)).sum ≤
      level * (growth p (dev p.wtype (scaling k p)) ^ p.steps * energy (padOf p x)) := by
  refine share_change hv hf hx h0 ?_
  intro s hs q hq
  have fit := detailStep_fits (k := k) hv nullDenoiser_sized hs (fits_sig (k := k) hv (fits_padOf hv hx) hs.le) hq
  have hsz : ((detailStep p (scaling k p) nullDenoiser s (sig p (scaling k p) (padOf p x) s)).getD q default).rows *
      ((detailStep p (scaling k p) nullDenoiser s (sig p (scaling k p) (padOf p x) s)).getD q default).cols < 2 ^ 64 := by
    rw [fit.1, fit.2]
    exact (level_le hv (show s + 1 ≤ p.steps by omega)).trans_lt hN
  generalize sig p (scaling k p) (padOf p x) s = m at *
  unfold detailStep at hsz ⊢
  split_ifs at hsz ⊢ with hd
  · have hq0 : q = 0 := by rw [subbandsPerWT, if_pos hd] at hq; omega
    subst hq0
    simp only [List.getD_cons_zero, nullDenoiser, Mat.rows_ofCol, Mat.cols_ofCol, Nat.mul_one] at hsz ⊢
    exact simple_loss_1D ha hnth h0 h1 hden _ s hsz
  · have hq3 : q < 3 := by rw [subbandsPerWT, if_neg hd] at hq; omega
    rcases (by omega : q = 0 ∨ q = 1 ∨ q = 2) with rfl | rfl | rfl <;>
      exact simple_loss_2D ha hnth h0 h1 hden _ s hsz

/-- C92. `Decompose` with the simple denoiser at `level` in `[0, 1]`, then `Compose`, with the decimals of DB1..DB5 in the code:
the Euclidean error of every channel is at most `√level` times the Euclidean length of the padded channel, up to the deviation
of the decimals from orthonormality. -/
theorem C92_simple_error (ext : SimpleExt ℝ) (ha : ExactCast ext) (hnth : NthOk ext) (level : ℝ) (h0 : 0 ≤ level) (h1 : level ≤ 1)
    (den : Denoiser ℝ) (hden : IsSimple ext level den) (b : Buffer ℝ) (hb : WellFormed b) (hw : b.params.wtype ≤ 5)
    (hch : 0 < b.params.signalNumber) (hN : (b.params.shape.map (paddedSide b.params)).prod < 2 ^ 64)
    (data : List (Mat ℝ)) (hd : IsSignal b.params data) :
    ∃ d out, b.decompose codeKit data den = .ok d true ∧
      (Buffer.mk b.params d).compose codeKit 0 = .ok out ∧ out.length = data.length ∧
      ∀ (n : ℕ) (x padded : Mat ℝ), data[n]? = some x →
        addPadding x (b.params.shape.map (paddedSide b.params)) = .ok padded →
        ∃ y, out[n]? = some y ∧ SameSize y x ∧
          Real.sqrt (sqDist y x) ≤
            ((1 + 12 / 10 ^ 12 : ℝ) ^ (b.params.shape.length * b.params.steps) * Real.sqrt level +
              ((1 + 12 / 10 ^ 12 : ℝ) ^ (b.params.shape.length * b.params.steps) - 1)) * Real.sqrt (energy padded) := by
  have hv := hb.1
  have hk : FilterPresent codeKit b.params := codeKit_present (by omega)
  obtain ⟨d, d0, out, e1, e2, e3, e4, e5⟩ := C91_denoised_error b hb hw hch data hd den hden.1
  refine ⟨d, out, e1, e3, e4, ?_⟩
  intro n x padded hn hp
  obtain ⟨e, e0, y, g1, g2, g3, g4, g5⟩ := e5 n x padded hn hp
  refine ⟨y, g3, g4, g5.trans ?_⟩
  rw [decompose_ok hb hk hch hd (fun _ => hden.1)] at e1
  rw [decompose_ok hb hk hch hd (fun _ => nullDenoiser_sized)] at e2
  injection e1 with e1
  injection e2 with e2
  rw [← e1, List.getElem?_map, hn] at g1
  rw [← e2, List.getElem?_map, hn] at g2
  simp only [Option.map_some, Option.some.injEq] at g1 g2
  have hsh := shaped_of (hd.2 x (List.mem_of_getElem? hn))
  rw [paddedShape_spec hv, addPadding_ok hv hsh] at hp
  injection hp with hp
  have hc := simple_change (k := codeKit) ha hnth h0 h1 hden hv hk hN hsh
  rw [g1, g2, hp] at hc
  have hA := dev_code_le b.params hv hw b.params.steps (fun h => h)
  set B := (1 + 12 / 10 ^ 12 : ℝ) ^ (b.params.shape.length * b.params.steps) with hB
  have hB0 : 0 ≤ B := by positivity
  have hE := energy_nonneg padded
  have hc2 : (List.zipWith sqDist e e0).sum ≤ B * (level * energy padded) := by
    refine hc.trans ?_
    have := mul_le_mul_of_nonneg_right hA hE
    nlinarith
  have h3 := Real.sqrt_le_sqrt hc2
  rw [Real.sqrt_mul hB0, Real.sqrt_mul h0] at h3
  have h4 : Real.sqrt B * Real.sqrt (List.zipWith sqDist e e0).sum ≤ B * (Real.sqrt level * Real.sqrt (energy padded)) := by
    calc _ ≤ Real.sqrt B * (Real.sqrt B * (Real.sqrt level * Real.sqrt (energy padded))) := mul_le_mul_of_nonneg_left h3 (Real.sqrt_nonneg _)
      _ = _ := by rw [← mul_assoc, Real.mul_self_sqrt hB0]
  calc _ ≤ B * (Real.sqrt level * Real.sqrt (energy padded)) + (B - 1) * Real.sqrt (energy padded) := add_le_add h4 le_rfl
    _ = _ := by ring

/-- C92 with any filter that is orthonormal under even shifts: the squared error is at most `level` times the energy of the padded
channel. -/
theorem C92_simple_error_orthonormal (k : Kit ℝ) (hr : RealArithmetic k) (ext : SimpleExt ℝ) (ha : ExactCast ext) (hnth : NthOk ext)
    (level : ℝ) (h0 : 0 ≤ level) (h1 : level ≤ 1) (den : Denoiser ℝ) (hden : IsSimple ext level den) (b : Buffer ℝ) (hb : WellFormed b)
    (hk : FilterPresent k b.params) (ho : b.params.wtype ≠ 0 → EvenShiftOrthonormal (scalingFilter k b.params))
    (hch : 0 < b.params.signalNumber) (hN : (b.params.shape.map (paddedSide b.params)).prod < 2 ^ 64)
    (data : List (Mat ℝ)) (hd : IsSignal b.params data) :
    ∃ d out, b.decompose k data den = .ok d true ∧
      (Buffer.mk b.params d).compose k 0 = .ok out ∧ out.length = data.length ∧
      ∀ (n : ℕ) (x padded : Mat ℝ), data[n]? = some x →
        addPadding x (b.params.shape.map (paddedSide b.params)) = .ok padded →
        ∃ y, out[n]? = some y ∧ SameSize y x ∧ sqDist y x ≤ level * energy padded := by
  have hv := hb.1
  have hok : OrthoKit k b.params := fun ht => ortho_of hk (ho ht) ht
  obtain ⟨d, d0, out, e1, e2, e3, e4, e5⟩ := C91_denoised_error_orthonormal k hr b hb hk ho hch data hd den hden.1
  refine ⟨d, out, e1, e3, e4, ?_⟩
  intro n x padded hn hp
  obtain ⟨e, e0, y, g1, g2, g3, g4, g5⟩ := e5 n x hn
  refine ⟨y, g3, g4, g5.trans ?_⟩
  rw [decompose_ok hb hk hch hd (fun _ => hden.1)] at e1
  rw [decompose_ok hb hk hch hd (fun _ => nullDenoiser_sized)] at e2
  injection e1 with e1
  injection e2 with e2
  rw [← e1, List.getElem?_map, hn] at g1
  rw [← e2, List.getElem?_map, hn] at g2
  simp only [Option.map_some, Option.some.injEq] at g1 g2
  have hsh := shaped_of (hd.2 x (List.mem_of_getElem? hn))
  rw [paddedShape_spec hv, addPadding_ok hv hsh] at hp
  injection hp with hp
  have hc := simple_change (k := k) ha hnth h0 h1 hden hv hk hN hsh
  have eA : growth b.params (dev b.params.wtype (scaling k b.params)) ^ b.params.steps = 1 := by
    by_cases h0 : b.params.steps = 0
    · rw [h0, pow_zero]
    · rw [dev_ortho hok (wavelet_of_steps hv (show 0 < b.params.steps by omega))]
      unfold growth; simp
  rw [g1, g2, hp, eA, one_mul] at hc
  exact hc

/-! ### Concrete cases -/

/-- The simple denoiser as the model computes it, with an `nth_element` that sorts. -/
noncomputable def simpleDen (level : ℝ) : Denoiser ℝ :=
  ⟨fun v _ => match simple1 sortingExt level v with | .ok r => if r.length = v.length then r else v | _ => v,
   fun m _ => match simple2 sortingExt level m with | .ok r => if r.rows = m.rows ∧ r.cols = m.cols then r else m | _ => m⟩

/-- It satisfies all hypotheses about the denoiser. -/
example (level : ℝ) (h0 : 0 ≤ level) (h1 : level ≤ 1) :
    ExactCast sortingExt ∧ NthOk sortingExt ∧ IsSimple sortingExt level (simpleDen level) := by
  have ha : ExactCast sortingExt := ⟨fun _ => rfl, fun _ h0 h1 => if_pos ⟨h0, h1⟩⟩
  have hn : NthOk sortingExt := ⟨fun v n _ => sort_contract v n, fun v n _ => sort_contract v n⟩
  refine ⟨ha, hn, ⟨?_, ?_⟩, ?_, ?_⟩
  · intro v s
    simp only [simpleDen]
    split
    · split_ifs with h <;> simp [*]
    · rfl
  · intro m s
    simp only [simpleDen]
    split
    · split_ifs with h <;> simp [*]
    · exact ⟨rfl, rfl⟩
  · intro v s r hv hr
    obtain ⟨r', hr', hk⟩ := simple1_ok sortingExt level v _ (cut_ok ha h0 h1 hv).1 hn.1
    rw [hr] at hr'
    injection hr' with e
    subst e
    have hl : r.length = v.length := by simpa using hk.rows
    simp only [simpleDen, hr]
    rw [if_pos hl]
  · intro m s r hm hr
    obtain ⟨r', hr', hk⟩ := simple2_ok sortingExt level m _ (cut_ok ha h0 h1 hm).1 hn.2
    rw [hr] at hr'
    injection hr' with e
    subst e
    simp only [simpleDen, hr]
    rw [if_pos ⟨hk.rows, hk.cols⟩]

/-- Buffer and signal as in the examples of C91: 40 × 36 samples, DB5, two steps. -/
example : let p : Params := ⟨[40, 36], 1, 2, 5⟩
    WellFormed (Buffer.mk p [List.replicate 7 Mat.empty] : Buffer ℝ) ∧ IsSignal p [Mat.ofFn 36 40 (fun i j => (i * j : ℝ))] ∧
      p.wtype ≤ 5 ∧ 0 < p.signalNumber ∧ (p.shape.map (paddedSide p)).prod < 2 ^ 64 :=
  ⟨⟨⟨by simp, by simp, by simp⟩, by simp, by simp [subbandCount, detailsPerStep]⟩, ⟨by simp, by simp [HasShape]⟩, by simp, by simp,
    by simp [paddedSide]⟩

end WB.Props
