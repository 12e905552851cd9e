import Verif.Proof.Text
import Verif.Proof.Params

/-! Properties C78 and C79: text output. -/

namespace WB.Props

open WB

section
variable {α : Type} (f : BlazeText α)

theorem arrives_channels : ∀ (d : Decs α) (n : ℕ),
    arrives .standard ((d.zipIdx n).flatMap fun x => printChannel f x.2 x.1) =
      ((List.range' n d.length).flatMap fun i => "  channel: ".toList ++ decimal i ++ ['\n']) ∧
    arrives .given ((d.zipIdx n).flatMap fun x => printChannel f x.2 x.1) =
      (d.flatMap fun c => c.flatMap fun m => "  ".toList ++ f.trans m)
  | [], n => by simp [arrives]
  | c :: d, n => by
    obtain ⟨h1, h2⟩ := arrives_channels d (n + 1)
    have e : ∀ s, arrives s (printChannel f n c) =
        (if s = .standard then "  channel: ".toList ++ decimal n ++ ['\n'] else []) ++
        (if s = .given then c.flatMap fun m => "  ".toList ++ f.trans m else []) := by
      intro s
      unfold printChannel
      rw [← List.singleton_append, arrives_append, arrives_given]
      cases s <;> simp [arrives]
    constructor
    · rw [List.zipIdx_cons, List.flatMap_cons, arrives_append, h1, e]
      simp [List.range'_succ]
    · rw [List.zipIdx_cons, List.flatMap_cons, arrives_append, h2, e]
      simp

/-- C78: what arrives where when the given stream is not the standard output: the headings of all channels go to the standard output, everything
else to the given stream. -/
theorem C78_where_the_text_goes (b : Buffer α) :
    arrives .standard (printBuffer f b) =
      ((List.range b.decs.length).flatMap fun i => "  channel: ".toList ++ decimal i ++ ['\n']) ∧
    arrives .given (printBuffer f b) = "Wavelet Buffer {\n".toList ++ printParams f b.params ++ "\nWaveletDecomposition {\n".toList ++
      (b.decs.flatMap fun c => c.flatMap fun m => "  ".toList ++ f.trans m) ++ "}\n}\n".toList := by
  obtain ⟨h1, h2⟩ := arrives_channels f b.decs 0
  unfold printBuffer
  rw [← List.singleton_append, List.append_assoc, arrives_append, arrives_append, arrives_append, arrives_append, h1, h2, List.range_eq_range']
  constructor <;> simp [arrives]

theorem lost_length : ∀ ws : List (Stream × Text), (arrivesBoth ws).length = (arrives .given ws).length + (arrives .standard ws).length
  | [] => rfl
  | (.given, t) :: ws => by
    have := lost_length ws
    simp only [arrivesBoth, arrives, List.flatMap_cons, List.length_append, List.filter_cons] at this ⊢
    simp at this ⊢
    omega
  | (.standard, t) :: ws => by
    have := lost_length ws
    simp only [arrivesBoth, arrives, List.flatMap_cons, List.length_append, List.filter_cons] at this ⊢
    simp at this ⊢
    omega

/-- C78 is false for every buffer with at least one channel: printing it to a stream other than the standard output also writes to the standard
output, and this part of the text is missing in the given stream. -/
theorem C78_counterexample (b : Buffer α) (h : b.decs ≠ []) :
    arrives .standard (printBuffer f b) ≠ [] ∧ arrives .given (printBuffer f b) ≠ arrivesBoth (printBuffer f b) := by
  have h1 : arrives .standard (printBuffer f b) ≠ [] := by
    rw [(C78_where_the_text_goes f b).1]
    obtain ⟨c, d, hd⟩ := List.exists_cons_of_ne_nil h
    rw [hd, List.length_cons, List.range_succ_eq_map, List.flatMap_cons]
    simp
  refine ⟨h1, fun he => ?_⟩
  have := lost_length (printBuffer f b)
  rw [← he] at this
  exact h1 (List.length_eq_zero_iff.1 (by omega))

/-- C78, part that holds: a buffer without channels is printed to the given stream only, and completely. Missing: buffers with channels
(`C78_counterexample`). -/
theorem C78_print_partial (b : Buffer α) (h : b.decs = []) :
    arrives .standard (printBuffer f b) = [] ∧ arrives .given (printBuffer f b) = arrivesBoth (printBuffer f b) := by
  have h1 : arrives .standard (printBuffer f b) = [] := by
    rw [(C78_where_the_text_goes f b).1, h]
    rfl
  refine ⟨h1, ?_⟩
  unfold printBuffer
  rw [h]
  simp [arrives, arrivesBoth]

end

/-- A buffer of two channels: two headings appear on the standard output. -/
example (f : BlazeText ℕ) : arrives .standard (printBuffer f ⟨⟨[4], 2, 0, 0⟩, [[Mat.empty], [Mat.empty]]⟩) =
    "  channel: 0\n  channel: 1\n".toList := by
  rw [(C78_where_the_text_goes f _).1]
  rfl

/-- C79: parameters with a wavelet type of the enumeration are determined by their `repr`, and so are those of a buffer. -/
theorem C79_repr_determines (className : Text) (p q : Params) (hp : p.wtype ≤ 5) (hq : q.wtype ≤ 5)
    (h : reprParams className p = reprParams className q) : p = q := by
  obtain ⟨h1, h2, h3, h4⟩ := reprParams_inj h
  have h5 := wtypeName_inj hp hq h4
  cases p; cases q
  simp_all

/-- C79: also without the restriction the sizes are determined. -/
theorem C79_sizes (className : Text) (p q : Params) (h : reprParams className p = reprParams className q) :
    p.shape = q.shape ∧ p.signalNumber = q.signalNumber ∧ p.steps = q.steps := by
  obtain ⟨h1, h2, h3, _⟩ := reprParams_inj h
  exact ⟨h2, h1, h3⟩

/-- The text for a colour picture. -/
example : reprParams "WaveletBuffer".toList ⟨[640, 480], 3, 2, 1⟩ =
    "WaveletBuffer<signal_number=3, signal_shape=(640x480), decomposition_steps=2, wavelet_type=WaveletType.DB1>".toList := by
  decide +kernel

/-- A side of 12 and sides 1 and 2 are told apart. -/
example : reprParams [] ⟨[12], 1, 0, 0⟩ ≠ reprParams [] ⟨[1, 2], 1, 0, 0⟩ :=
  fun h => by simpa using C79_repr_determines _ _ _ (by simp) (by simp) h

end WB.Props
