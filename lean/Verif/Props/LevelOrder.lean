import Verif.Proof.LevelOrder
import Verif.Props.Generations
import Verif.Props.Metrics

/-!
C111: a copy written with a higher compression level is never closer to the original than one written with a lower level.
-/

namespace WB.Props

open Finset Spec

theorem generation_cut {e : Ext} {Mem level : ℕ} {b b1 : Buffer F32} (hw : CodecsWork e truncBits) (hM : Room e Mem) (hb : WellFormed b) (hf : FitsFormat b)
    (hc : Compressible b) (hm : FitsMemory b Mem) (h : Generations e Mem [level] b b1) : CutTo (33 - min 31 level) b b1 := by
  cases h with
  | more k1 k2 k3 k4 =>
    cases k4
    exact one_cut hw hM hb hf hc hm k1 k2 k3

theorem cuts_ladders {p q : ℕ} (hq : 1 ≤ q) (h : q ≤ p) {b b1 b2 : Buffer F32} (h1 : CutTo p b b1) (h2 : CutTo q b b2) : Ladders b.decs b1.decs b2.decs :=
  ⟨h1.alike.2, h2.alike.2, fun _ hch _ hl i hi j hj => ladder hq h ((cutTo_band h1 hch hl).2.2 i hi j hj) ((cutTo_band h2 hch hl).2.2 i hi j hj)⟩

theorem cuts_shrunk {p q : ℕ} (hq : 1 ≤ q) (h : q ≤ p) {b b1 b2 : Buffer F32} (h1 : CutTo p b b1) (h2 : CutTo q b b2) : Shrunk b b1 ∧ Shrunk b1 b2 := by
  refine ⟨⟨h1.1, h1.2.imp fun _ _ g => g.imp fun m m' g => ⟨g.1, g.2.1, fun i hi j hj =>
    (ladder hq h (g.2.2 i hi j hj) (.inl rfl)).first⟩⟩, h2.1.trans h1.1.symm, ?_⟩
  · refine forall₂_trans (R := List.Forall₂ _) (fun _ _ _ hx hy => forall₂_trans (fun x y z g1 g2 => ?_) hx hy) (h1.2.flip.imp fun _ _ g => g.flip) h2.2
    exact ⟨g2.1.trans g1.1.symm, g2.2.1.trans g1.2.1.symm, fun i hi j hj =>
      (ladder hq h (g1.2.2 i (by rw [← g1.1]; exact hi) j (by rw [← g1.2.1]; exact hj)) (g2.2.2 i (by rw [← g1.1]; exact hi) j (by rw [← g1.2.1]; exact hj))).second⟩

theorem cut_finite {p : ℕ} (hp : 1 ≤ p) {b b' : Buffer F32} (h : CutTo p b b') (hb : AllFinite b) : AllFinite b' := by
  intro c' hc' m' hm'
  obtain ⟨n, hn, rfl⟩ := List.mem_iff_getElem.1 hc'
  have hn0 : n < b.decs.length := by rw [h.2.length_eq]; exact hn
  have g := h.2.get hn0 hn
  obtain ⟨k, hk, rfl⟩ := List.mem_iff_getElem.1 hm'
  have hk0 : k < b.decs[n].length := lt_of_lt_of_eq hk g.length_eq.symm
  have g2 := g.get hk0 hk
  intro i hi j hj
  have hi0 : i < b.decs[n][k].rows := lt_of_lt_of_eq hi g2.1
  have hj0 : j < b.decs[n][k].cols := lt_of_lt_of_eq hj g2.2.1
  exact (finite_same (g2.2.2 i hi0 j hj0)).2 (finite_trunc hp (hb _ (List.getElem_mem hn0) _ (List.getElem_mem hk0) i hi0 j hj0))

theorem alike_form {b b' : Buffer F32} (h : Alike b b') : SameForm (numbers b) (numbers b') := by
  refine ⟨by show b.params.shape = b'.params.shape; rw [h.1], by show b.params.signalNumber = b'.params.signalNumber; rw [h.1], ?_⟩
  show List.Forall₂ _ (b.decs.map fun c => c.map matNumbers) (b'.decs.map fun c => c.map matNumbers)
  rw [List.forall₂_map_left_iff, List.forall₂_map_right_iff]
  refine h.2.imp fun c d hcd => ?_
  rw [List.forall₂_map_left_iff, List.forall₂_map_right_iff]
  exact hcd.imp fun m n hmn => ⟨hmn.1.symm, hmn.2.symm⟩

/-- C111. Two copies of a buffer, the second written with the same or a higher level: every value of the first lies between 0 and the original value, and every
value of the second between 0 and that of the first. -/
theorem C111_values (e : Ext) (Mem : ℕ) (hw : CodecsWork e truncBits) (hM : Room e Mem) (l1 l2 : ℕ) (hl : l1 ≤ l2) (b b1 b2 : Buffer F32) (hb : WellFormed b)
    (hf : FitsFormat b) (hc : Compressible b) (hm : FitsMemory b Mem) (hn : AllFinite b) (h1 : Generations e Mem [l1] b b1) (h2 : Generations e Mem [l2] b b2) :
    Shrunk b b1 ∧ Shrunk b1 b2 ∧ AllFinite b1 ∧ AllFinite b2 := by
  have c1 := generation_cut hw hM hb hf hc hm h1
  have c2 := generation_cut hw hM hb hf hc hm h2
  obtain ⟨k1, k2⟩ := cuts_shrunk (by omega) (by omega) c1 c2
  exact ⟨k1, k2, cut_finite (by omega) c1 hn, cut_finite (by omega) c2 hn⟩

/-- C111. The distance of the original to the copy with the lower level is at most that to the copy with the higher level. -/
theorem C111_distance (e : Ext) (Mem : ℕ) (hw : CodecsWork e truncBits) (hM : Room e Mem) (l1 l2 : ℕ) (hl : l1 ≤ l2) (b b1 b2 : Buffer F32) (hb : WellFormed b)
    (hf : FitsFormat b) (hc : Compressible b) (hm : FitsMemory b Mem) (hs : CountableSamples b.params)
    (h1 : Generations e Mem [l1] b b1) (h2 : Generations e Mem [l2] b b2) :
    ∃ d1 d2 : ℝ, distance (numbers b) (numbers b1) = .ok (.val d1) ∧ distance (numbers b) (numbers b2) = .ok (.val d2) ∧ 0 ≤ d1 ∧ d1 ≤ d2 := by
  have c1 := generation_cut hw hM hb hf hc hm h1
  have c2 := generation_cut hw hM hb hf hc hm h2
  have k := cuts_ladders (by omega) (by omega) c1 c2
  have f1 := alike_form c1.alike
  have f2 := alike_form c2.alike
  refine ⟨_, _, C37_distance_formula _ _ f1 hs (by show b.params.steps = b1.params.steps; rw [c1.1]),
    C37_distance_formula _ _ f2 hs (by show b.params.steps = b2.params.steps; rw [c2.1]), div_nonneg (sqDistAll_nonneg f1.2.2) (by positivity), ?_⟩
  refine div_le_div_of_nonneg_right ?_ (by positivity)
  show sqDistAll (b.decs.map fun c => c.map matNumbers) (b1.decs.map fun c => c.map matNumbers) ≤
    sqDistAll (b.decs.map fun c => c.map matNumbers) (b2.decs.map fun c => c.map matNumbers)
  rw [sqDistAll_sum k.1, sqDistAll_sum k.2.1]
  refine sum_le_sum fun ch hch => sum_le_sum fun l hl => ?_
  have hch := mem_range.1 hch
  have hl := mem_range.1 hl
  exact sqDist_ladder (sameSizes_band k.1 hch hl) (sameSizes_band k.2.1 hch hl) (k.2.2 ch hch l hl)

/-- C111. The same for the distances as the code computes them, rounding after every operation: whatever the order of the sums, if the distance to the copy with
the higher level is a number, then the one to the copy with the lower level is a number and not larger. `sq` is `std::pow(·, 2)`. -/
theorem C111_computed_distance (r : Rounding) (hr : r.IEEE) (sq : ℝ → ℝ) (hsq : ∀ s t, 0 ≤ s → s ≤ t → 0 ≤ sq s ∧ sq s ≤ sq t) (order : ℕ → ℕ → SumOrder)
    (e : Ext) (Mem : ℕ) (hw : CodecsWork e truncBits) (hM : Room e Mem) (l1 l2 : ℕ) (hl : l1 ≤ l2) (b b1 b2 : Buffer F32) (hb : WellFormed b)
    (hf : FitsFormat b) (hc : Compressible b) (hm : FitsMemory b Mem) (h1 : Generations e Mem [l1] b b1) (h2 : Generations e Mem [l2] b b2) (d2 : ℝ)
    (hd : floatDistance r sq order b b2 = .ok (some d2)) : ∃ d1 : ℝ, floatDistance r sq order b b1 = .ok (some d1) ∧ 0 ≤ d1 ∧ d1 ≤ d2 := by
  have c1 := generation_cut hw hM hb hf hc hm h1
  have c2 := generation_cut hw hM hb hf hc hm h2
  obtain ⟨u, v, k1, k2, k3⟩ := below_distance hr hsq (order := order) c1.1 c2.1 (cuts_ladders (by omega) (by omega) c1 c2)
  rw [hd] at k2
  obtain ⟨d1, rfl, j⟩ := k3 d2 (Outcome.ok.inj k2).symm
  exact ⟨d1, k1, j⟩

theorem shrunk_energies {b b' : Buffer F32} (h : Shrunk b b') :
    List.Forall₂ (List.Forall₂ (· ≤ ·)) (energyDistribution (numbers b')) (energyDistribution (numbers b)) := by
  have he : (numbers b').isEmpty = (numbers b).isEmpty := by
    have : ∀ {d d' : Decs F32}, List.Forall₂ (List.Forall₂ fun m m' : Mat F32 => m'.rows = m.rows ∧ m'.cols = m.cols) d d' →
        ((d'.map fun c => c.map matNumbers).all fun c => c.all fun m => m.rows * m.cols == 0) =
          ((d.map fun c => c.map matNumbers).all fun c => c.all fun m => m.rows * m.cols == 0) := by
      intro d d' h
      induction h with
      | nil => rfl
      | @cons c c' _ _ h _ ih =>
        rw [List.map_cons, List.map_cons, List.all_cons, List.all_cons, ih]
        congr 1
        clear ih
        induction h with
        | nil => rfl
        | @cons m m' _ _ h _ ih =>
          rw [List.map_cons, List.map_cons, List.all_cons, List.all_cons, ih]
          congr 1
          show (m'.rows * m'.cols == 0) = (m.rows * m.cols == 0)
          rw [h.1, h.2]
    exact this (h.2.imp fun _ _ g => g.imp fun _ _ g => ⟨g.1, g.2.1⟩)
  unfold energyDistribution
  rw [he]
  split_ifs
  · exact .nil
  · simp only [energy_entry]
    show List.Forall₂ _ ((b'.decs.map fun c => c.map matNumbers).map _) ((b.decs.map fun c => c.map matNumbers).map _)
    rw [List.map_map, List.map_map, List.forall₂_map_left_iff, List.forall₂_map_right_iff]
    refine (h.2.imp fun c c' g => ?_).flip
    show List.Forall₂ (· ≤ ·) ((c'.map matNumbers).map energy) ((c.map matNumbers).map energy)
    rw [List.map_map, List.map_map, List.forall₂_map_left_iff, List.forall₂_map_right_iff]
    refine (g.imp fun m m' g => ?_).flip
    show energy (matNumbers m') ≤ energy (matNumbers m)
    unfold energy
    have er : (matNumbers m').rows = (matNumbers m).rows := g.1
    have ec : (matNumbers m').cols = (matNumbers m).cols := g.2.1
    rw [er, ec]
    refine sum_le_sum fun i hi => sum_le_sum fun j hj => ?_
    have hi : i < m.rows := mem_range.1 hi
    have hj : j < m.cols := mem_range.1 hj
    unfold matNumbers
    rw [Mat.get_map _ _ hi hj, Mat.get_map _ _ (by rw [g.1]; exact hi) (by rw [g.2.1]; exact hj), ← sq, ← sq]
    exact (g.2.2 i hi j hj).sq_le

/-- C111. The energy of every subband of every channel: that of the copy with the higher level is at most that of the copy with the lower level, which is at most
that of the original. -/
theorem C111_energies (e : Ext) (Mem : ℕ) (hw : CodecsWork e truncBits) (hM : Room e Mem) (l1 l2 : ℕ) (hl : l1 ≤ l2) (b b1 b2 : Buffer F32) (hb : WellFormed b)
    (hf : FitsFormat b) (hc : Compressible b) (hm : FitsMemory b Mem) (hn : AllFinite b) (h1 : Generations e Mem [l1] b b1) (h2 : Generations e Mem [l2] b b2) :
    List.Forall₂ (List.Forall₂ (· ≤ ·)) (energyDistribution (numbers b2)) (energyDistribution (numbers b1)) ∧
      List.Forall₂ (List.Forall₂ (· ≤ ·)) (energyDistribution (numbers b1)) (energyDistribution (numbers b)) := by
  obtain ⟨k1, k2, -⟩ := C111_values e Mem hw hM l1 l2 hl b b1 b2 hb hf hc hm hn h1 h2
  exact ⟨shrunk_energies k2, shrunk_energies k1⟩

theorem generations_mono {e : Ext} {ls : List ℕ} {M M' : ℕ} {b b' : Buffer F32} (h : M ≤ M') (g : Generations e M ls b b') : Generations e M' ls b b' := by
  induction g with
  | none b => exact .none b
  | more h1 h2 h3 _ ih => exact .more h1 (h2.trans h) h3 ih

/-- The hypotheses of C111 can be met, and the two copies can differ: levels 5 and 20. -/
example : ∃ (Mem : ℕ) (b b1 b2 : Buffer F32), CodecsWork exExt truncBits ∧ Room exExt Mem ∧ WellFormed b ∧ FitsFormat b ∧ Compressible b ∧ FitsMemory b Mem ∧
    AllFinite b ∧ CountableSamples b.params ∧ Generations exExt Mem [5] b b1 ∧ Generations exExt Mem [20] b b2 ∧ b1.decs ≠ b2.decs := by
  have hw : CodecsWork exExt truncBits := exTrunc_eq ▸ exExt_works
  obtain ⟨k1, k2, k3⟩ := oneSample_ok 0x3f9e0652#32
  obtain ⟨M1, b1, hm1, g1⟩ := generations_exist exExt hw (fun _ _ _ _ => rfl) [5] (oneSample 0x3f9e0652#32) k1 k2 k3
  obtain ⟨M2, b2, hm2, g2⟩ := generations_exist exExt hw (fun _ _ _ _ => rfl) [20] (oneSample 0x3f9e0652#32) k1 k2 k3
  have hm : FitsMemory (oneSample 0x3f9e0652#32) (M1 + M2) := ⟨hm1.1.trans (by omega), fun c hc m hm => (hm1.2 c hc m hm).trans (by omega)⟩
  have g1 := generations_mono (show M1 ≤ M1 + M2 by omega) g1
  have g2 := generations_mono (show M2 ≤ M1 + M2 by omega) g2
  refine ⟨M1 + M2, _, b1, b2, hw, fun _ _ _ => rfl, k1, k2, k3, hm, ?_, ?_, g1, g2, ?_⟩
  · intro c hc m hm i hi j hj
    simp only [oneSample, List.mem_singleton] at hc
    subst hc
    simp only [List.mem_singleton] at hm
    subst hm
    simp only [Mat.rows_ofFn, Mat.cols_ofFn] at hi hj
    rw [Mat.get_ofFn hi hj]
    decide
  · exact ⟨by simp [oneSample], by simp [oneSample], by simp [oneSample], by simp [oneSample]⟩
  · cases g1 with
    | more h1 h2 h3 g =>
      cases g
      have e1 := mapped_eq ((one_generation hw (fun _ _ _ => rfl) k1 k2 k3 hm h1 h2 h3).2 (by norm_num)).2
      cases g2 with
      | more j1 j2 j3 g =>
        cases g
        have e2 := mapped_eq ((one_generation hw (fun _ _ _ => rfl) k1 k2 k3 hm j1 j2 j3).2 (by norm_num)).2
        rw [e1, e2]
        intro h
        have := congrArg (fun d : Decs F32 => d.map fun c => c.map fun m => m.data) h
        revert this
        decide

end WB.Props
