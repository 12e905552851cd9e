import Verif.Proof.Quality
import Verif.Props.Codec

/-! Property C80: the quality of the JPEG codecs. -/

namespace WB.Props

open WB

/-- C80: a codec is created exactly for the numbers from 0 to 1, and keeps the number. -/
theorem C80_range (x : ℝ) : (0 ≤ x ∧ x ≤ 1 → newCodec (.num x) = .ok (.num x)) ∧ (¬ (0 ≤ x ∧ x ≤ 1) → newCodec (.num x) = .throw) ∧
    ∀ negative, newCodec (.inf negative) = .throw := by
  refine ⟨fun h => ?_, fun h => ?_, fun _ => rfl⟩
  · unfold newCodec
    simp only
    rw [if_neg (by push Not; exact h)]
  · unfold newCodec
    simp only
    rw [if_pos]
    by_contra hc
    push Not at hc
    exact h hc

/-- C80: the percentage handed to the JPEG library is between 0 and 100, does not decrease when the quality increases, and is 0 for 0 and 100 for 1. -/
theorem C80_percent_in_range (r : Rounding) (hr : r.IEEE) :
    (∀ x, 0 ≤ x → x ≤ 1 → ∃ k : ℤ, percent r (.num x) = .ok k ∧ 0 ≤ k ∧ k ≤ 100) ∧
    (∀ x y a b, 0 ≤ x → x ≤ y → y ≤ 1 → percent r (.num x) = .ok a → percent r (.num y) = .ok b → a ≤ b) ∧
    percent r (.num 0) = .ok 0 ∧ percent r (.num 1) = .ok 100 := by
  have f0 : r.toFloat 0 = 0 := by
    have := rounds_self hr.1 (nat_mem 0 (p := 24) (by norm_num) (by norm_num)); simpa using this
  have f100 : r.toFloat 100 = 100 := by
    have := rounds_self hr.1 (nat_mem 100 (p := 24) (by norm_num) (by norm_num)); simpa using this
  have key : ∀ x, 0 ≤ x → x ≤ 1 → percent r (.num x) = .ok ⌊r.toFloat (x * 100)⌋ ∧ 0 ≤ r.toFloat (x * 100) ∧ r.toFloat (x * 100) ≤ 100 := by
    intro x h0 h1
    have l : 0 ≤ r.toFloat (x * 100) := by rw [← f0]; exact rounds_mono hr.1 (by linarith)
    have u : r.toFloat (x * 100) ≤ 100 := by
      calc r.toFloat (x * 100) ≤ r.toFloat 100 := rounds_mono hr.1 (by linarith)
        _ = 100 := f100
    refine ⟨?_, l, u⟩
    unfold percent
    simp only
    rw [if_pos ⟨by norm_num; linarith, by norm_num; linarith⟩, if_pos l]
  refine ⟨fun x h0 h1 => ?_, fun x y a b h0 hxy h1 ha hb => ?_, ?_, ?_⟩
  · obtain ⟨e, l, u⟩ := key x h0 h1
    refine ⟨_, e, Int.floor_nonneg.2 l, ?_⟩
    have := Int.floor_le (r.toFloat (x * 100))
    have h : ((⌊r.toFloat (x * 100)⌋ : ℤ) : ℝ) ≤ (100 : ℤ) := by push_cast; linarith
    exact_mod_cast h
  · rw [(key x h0 (by linarith)).1] at ha
    rw [(key y (by linarith) h1).1] at hb
    cases ha; cases hb
    exact Int.floor_le_floor (rounds_mono hr.1 (by linarith))
  · rw [(key 0 (by norm_num) (by norm_num)).1, zero_mul, f0]; simp
  · rw [(key 1 (by norm_num) (by norm_num)).1, one_mul, f100]; norm_num

/-- C80, part that holds: with a quality of k percent, in C++ or Python, the JPEG library gets the quality k, except for k = 53 and k = 59. Missing:
these two (`C80_percent_counterexample`). Ties matter: for 13, 26 and 52 percent the product lies in the middle between two `float`s. -/
theorem C80_percent_partial (r : Rounding) (hr : r.IEEE) (ht : TiesToEven r.toFloat) (k : ℕ) (hk : k ≤ 100) (h53 : k ≠ 53) (h59 : k ≠ 59)
    (q : ℝ) (hq : IsPercent r k q) :
    newCodec (.num (r.toFloat q)) = .ok (.num (r.toFloat q)) ∧ percent r (.num (r.toFloat q)) = .ok k := by
  have fn : ∀ n : ℕ, n < 2 ^ 24 → r.toFloat n = n := fun n h => rounds_self hr.1 (nat_mem n h (by norm_num))
  have dn : ∀ n : ℕ, n < 2 ^ 53 → r.toDouble n = n := fun n h => rounds_self hr.2 (nat_mem n h (by norm_num))
  have f0 := fn 0 (by norm_num); have f1 := fn 1 (by norm_num)
  have d0 := dn 0 (by norm_num); have d1 := dn 1 (by norm_num)
  push_cast at f0 f1 d0 d1
  have k0 : (0 : ℝ) ≤ (k : ℝ) / 100 := by positivity
  have k1 : (k : ℝ) / 100 ≤ 1 := by rw [div_le_one (by norm_num)]; exact_mod_cast hk
  have hq01 : 0 ≤ q ∧ q ≤ 1 := by
    rcases hq with rfl | rfl
    · exact ⟨k0, k1⟩
    · exact ⟨by rw [← d0]; exact rounds_mono hr.2 k0, by rw [← d1]; exact rounds_mono hr.2 k1⟩
  refine ⟨(C80_range _).1 ⟨by rw [← f0]; exact rounds_mono hr.1 hq01.1, by rw [← f1]; exact rounds_mono hr.1 hq01.2⟩, ?_⟩
  by_cases hex : k = 0 ∨ k = 25 ∨ k = 50 ∨ k = 75 ∨ k = 100
  · refine percent_of hk (y := k) ?_ (le_refl _) (by linarith)
    rw [quality_exact hr hex hq, div_mul_cancel₀ _ (by norm_num)]
    exact fn k (lt_of_le_of_lt hk (by norm_num))
  · push Not at hex
    obtain ⟨e0, e25, e50, e75, e100⟩ := hex
    refine percent_of hk rfl ?_ ?_
    · rw [quality_float hr (by omega) (by omega) e25 e50 e75 hq]
      exact quality_lower hr ht (by omega) (by omega) e25 e50 e75 h53 h59
    · rw [quality_float hr (by omega) (by omega) e25 e50 e75 hq]
      exact quality_upper hr (by omega) (by omega) e25 e50 e75

/-- C80 is false for 53 and 59 percent: the JPEG library gets the quality 52 or 58. -/
theorem C80_percent_counterexample (r : Rounding) (hr : r.IEEE) (k : ℕ) (hk : k = 53 ∨ k = 59) (q : ℝ) (hq : IsPercent r k q) :
    percent r (.num (r.toFloat q)) = .ok (k - 1) := by
  rcases hk with rfl | rfl
  · have h := percent_of (r := r) (x := r.toFloat q) (k := 52) (by omega) (y := ((13893631 : ℤ) : ℝ) * 2 ^ (-18 : ℤ)) (by
      rw [quality_float hr (by omega) (by omega) (by omega) (by omega) (by omega) hq, show qn 53 = 8891924 by decide +kernel,
        show qL 53 = 1 by decide +kernel]
      exact rounds_to (p := 24) (by norm_num) hr.1 (by norm_num) (by norm_num) (by norm_num) (by norm_num) (Or.inr ⟨by norm_num, by norm_num⟩))
      (by norm_num) (by norm_num)
    rw [h]; rfl
  · have h := percent_of (r := r) (x := r.toFloat q) (k := 58) (by omega) (y := ((15466495 : ℤ) : ℝ) * 2 ^ (-18 : ℤ)) (by
      rw [quality_float hr (by omega) (by omega) (by omega) (by omega) (by omega) hq, show qn 59 = 9898557 by decide +kernel,
        show qL 59 = 1 by decide +kernel]
      exact rounds_to (p := 24) (by norm_num) hr.1 (by norm_num) (by norm_num) (by norm_num) (by norm_num) (Or.inr ⟨by norm_num, by norm_num⟩))
      (by norm_num) (by norm_num)
    rw [h]; rfl

/-- C80 is false for NaN: the codec is created, and encoding any image it can encode is undefined behaviour. -/
theorem C80_nan {α : Type} [Inhabited α] (e : JpegExt α) (tp : α → UInt8) (htp : ∀ x, e.toPx x = .ok (tp x)) (hr : α → α → α → α × α × α)
    (hhr : ∀ a b c, e.hslRgb a b c = .ok (hr a b c)) (r : Rounding) (kind : CodecKind) (im : List (Mat α)) (blob : Bytes)
    (sc rows cols : ℕ) (hsc : sc + 3 < 2 ^ 64) (h : Encodable kind im sc rows cols) :
    newCodec .nan = .ok .nan ∧ encodeQuality e r kind .nan im blob sc = .ub := by
  refine ⟨rfl, ?_⟩
  obtain ⟨img, -, -, -, -, -, -, hub, -⟩ := C44_encode_accepts (e.withQuality r .nan) tp hr kind 0 im blob sc rows cols hsc h
    (fun _ _ _ _ _ _ => htp _) (fun _ _ _ _ _ => hhr _ _ _)
  exact hub rfl

/-- C80: with a number the library is called with the percentage. -/
theorem C80_encode {α : Type} [Inhabited α] (e : JpegExt α) (r : Rounding) (kind : CodecKind) (x : ℝ) (k : ℤ)
    (hk : percent r (.num x) = .ok k) (im : List (Mat α)) (blob : Bytes) (sc : ℕ) :
    encodeQuality e r kind (.num x) im blob sc = codecEncode e kind k im blob sc := by
  have hs : ∀ img n b, saveImage (e.withQuality r (.num x)) 0 img n b = saveImage e k img n b := by
    intro img n b
    have : ∀ room, (e.withQuality r (.num x)).save img room 0 = e.save img room k := by
      intro room
      show (percent r (.num x) >>= fun p => e.save img room p) = _
      rw [hk, Outcome.bind_ok]
    unfold saveImage
    simp only [this]
  have hr : ∀ im b, encodeRgb (e.withQuality r (.num x)) 0 im b sc = encodeRgb e k im b sc := by
    intro im b
    unfold encodeRgb
    simp only [hs]
    rfl
  unfold encodeQuality codecEncode
  simp only [hs, hr]
  rfl

/-- Roundings as required exist. -/
example : ∃ r : Rounding, r.IEEE ∧ TiesToEven r.toFloat := ties_exist

/-- A quality of 29 percent, written in Python. -/
example (r : Rounding) (hr : r.IEEE) (ht : TiesToEven r.toFloat) : percent r (.num (r.toFloat (r.toDouble (29 / 100)))) = .ok 29 :=
  (C80_percent_partial r hr ht 29 (by omega) (by omega) (by omega) _ (Or.inr (by norm_num))).2

end WB.Props
