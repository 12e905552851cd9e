import Verif.Model.FloatFlagsDenoise
import Verif.Proof.MarksDenoise
import Verif.Props.Units
import Verif.Proof.FloatMetrics

/-!
C147: samples and thresholds in a unit that differs by a power of two.
-/

namespace WB.Props

open Spec

section
variable {r : Rounding} {o : FloatOps}

theorem finite_not_nan {x : F32} (h : finiteBits x) : ¬ isNaN x := by
  intro hn
  have := hn.1
  unfold finiteBits at h
  omega

theorem abs_finite' {x : F32} (h : finiteBits x) : finiteBits (absBits x) := by
  have := x.isLt
  unfold finiteBits expBits absBits at *
  rw [BitVec.toNat_ofNat]
  omega

/-- The comparison does not depend on the unit. -/
theorem above_unit {e : ℤ} {a c a' c' : F32} {s : ℕ} {x x' : F32}
    (ht : InUnit e (getThreshold (α := Bits o) a c s) (getThreshold (α := Bits o) a' c' s)) (hx : InUnit e x x') :
    AboveThreshold o a c s x ↔ AboveThreshold o a' c' s x' := by
  have p2 : (0 : ℝ) < 2 ^ e := zpow_pos (by norm_num) e
  have cs : ∀ u v : F32, number u < number v ↔ (number u : ℝ) < number v := fun u v => Rat.cast_lt.symm
  have ab : ∀ v : F32, (number (absBits v) : ℝ) = |(number v : ℝ)| := fun v => by rw [number_abs]; push_cast; rfl
  have key : ∀ t t' : F32, InUnit e t t' → ((¬ isNaN t ∧ ¬ isNaN (absBits x) ∧ number t < number (absBits x)) ↔
      (¬ isNaN t' ∧ ¬ isNaN (absBits x') ∧ number t' < number (absBits x'))) := by
    intro t t' ht
    rw [cs, cs, ab, ab, ht.2.2, hx.2.2, abs_mul, abs_of_pos p2, mul_lt_mul_iff_right₀ p2]
    exact ⟨fun h => ⟨finite_not_nan ht.2.1, finite_not_nan (abs_finite' hx.2.1), h.2.2⟩, fun h => ⟨finite_not_nan ht.1, finite_not_nan (abs_finite' hx.1), h.2.2⟩⟩
  exact key _ _ ht

theorem keepIf_mark (p : F32 → Prop) (x : Marked r o) : (x.keepIf p).mark = x.mark := by
  unfold Marked.keepIf
  split_ifs <;> rfl

theorem keepIf_unit {e : ℤ} {p p' : F32 → Prop} (hp : ∀ x x', InUnit e x x' → (p x ↔ p' x')) {x x' : Marked r o} (h : InUnitOrMarked e x x') :
    InUnitOrMarked e (x.keepIf p) (x'.keepIf p') := by
  rcases h with h | h | h
  · exact Or.inl (by rw [keepIf_mark]; exact h)
  · exact Or.inr (Or.inl (by rw [keepIf_mark]; exact h))
  · refine Or.inr (Or.inr ?_)
    unfold Marked.keepIf
    by_cases hc : p x.bits
    · rw [if_pos hc, if_pos ((hp _ _ h).1 hc)]
      exact h
    · rw [if_neg hc, if_neg fun g => hc ((hp _ _ h).2 g)]
      have z : (number (0#32 : F32) : ℝ) = 0 := by rw [number_zero]; norm_num
      refine ⟨finite_zero, finite_zero, ?_⟩
      show (number (0#32 : F32) : ℝ) = _ * (number (0#32 : F32) : ℝ)
      rw [z, mul_zero]

theorem thresholds_keep {e : ℤ} {a c a' c' : F32} {s : ℕ}
    (ht : InUnit e (getThreshold (α := Bits o) a c s) (getThreshold (α := Bits o) a' c' s)) :
    DenoisersKeep (InUnitOrMarked e) (marksThreshold r o a c) (marksThreshold r o a' c') s := by
  refine ⟨fun v v' hv => ?_, fun m m' hm => ⟨hm.1, hm.2.1, fun i hi j hj => ?_⟩⟩
  · show List.Forall₂ _ (List.map _ _) (List.map _ _)
    rw [List.forall₂_map_left_iff, List.forall₂_map_right_iff]
    exact List.Forall₂.imp (fun x x' h => keepIf_unit (fun _ _ => above_unit ht) h) hv
  · have hi' : i < m.rows := hi
    have hj' : j < m.cols := hj
    show InUnitOrMarked e ((Mat.map _ m).get i j) ((Mat.map _ m').get i j)
    rw [Mat.get_map _ m hi' hj', Mat.get_map _ m' (by rw [hm.1]; exact hi') (by rw [hm.2.1]; exact hj')]
    exact keepIf_unit (fun _ _ => above_unit ht) (hm.2.2 i hi' j hj')

theorem marks_threshold_hom (a c : F32) :
    DenHom (β := Bits o) (Marked.bits : Marked r o → Bits o) (marksThreshold r o a c) (thresholdDenoiser (α := Bits o) absBits a c) := by
  have lists : ∀ (l : List (Marked r o)) (f : Bits o → Bits o) (g : Marked r o → Marked r o), (∀ x : Marked r o, f x.bits = (g x).bits) →
      (l.map (Marked.bits : Marked r o → Bits o)).map f = (l.map g).map (Marked.bits : Marked r o → Bits o) := by
    intro l f g h
    induction l with
    | nil => rfl
    | cons x l ih => exact congrArg₂ List.cons (h x) ih
  refine ⟨fun v s => lists v _ _ fun x => ?_, fun m s => (Mat.eq_iff _ _).2 ⟨rfl, rfl, lists m.data _ _ fun x => ?_⟩⟩
  all_goals
    by_cases hc : AboveThreshold o a c s x.bits
    · have e : x.keepIf (AboveThreshold o a c s) = x := if_pos hc
      exact (if_pos hc).trans (congrArg Marked.bits e).symm
    · have e : x.keepIf (AboveThreshold o a c s) = x.cleared := if_neg hc
      exact (if_neg hc).trans (congrArg Marked.bits e).symm

theorem thresholds_general (r : Rounding) (o : FloatOps) (ho : o.Correct r) (hu : UnitBlind r o) (e : ℤ) (b : Buffer F32) (hb : WellFormed b)
    (hw : b.params.wtype ≤ 5) (hch : 0 < b.params.signalNumber) (data data' : List (Mat F32)) (hd : IsSignal b.params data)
    (h : List.Forall₂ (RelatedMats (InUnit e)) data data') (a t a' t' : F32)
    (ht : ∀ s < b.params.steps, InUnit e (getThreshold (α := Bits o) a t s) (getThreshold (α := Bits o) a' t' s))
    (c : Buffer (Marked r o)) (hc : WellFormed c) (hp : c.params = b.params) :
    ∃ d d' : Decs (Marked r o),
      c.decompose (marksKit r o) (data.map fun m => m.map Marked.plain) (marksThreshold r o a t) = .ok d true ∧
      c.decompose (marksKit r o) (data'.map fun m => m.map Marked.plain) (marksThreshold r o a' t') = .ok d' true ∧
      Buffer.decompose (α := Bits o) (bitsKit r o) b data (bitsThreshold o a t) = .ok (unmark d) true ∧
      Buffer.decompose (α := Bits o) (bitsKit r o) b data' (bitsThreshold o a' t') = .ok (unmark d') true ∧
      RelatedDecs (InUnitOrMarked e) d d' ∧ ∀ s ≤ b.params.steps, ∃ out out' : List (Mat (Marked r o)),
        (Buffer.mk b.params d).compose (marksKit r o) s = .ok out ∧ (Buffer.mk b.params d').compose (marksKit r o) s = .ok out' ∧
        Buffer.compose (α := Bits o) (bitsKit r o) ⟨b.params, unmark d⟩ s = .ok (out.map fun m => m.map Marked.bits) ∧
        Buffer.compose (α := Bits o) (bitsKit r o) ⟨b.params, unmark d'⟩ s = .ok (out'.map fun m => m.map Marked.bits) ∧
        List.Forall₂ (RelatedMats (InUnitOrMarked e)) out out' := by
  have shp : ∀ dd : List (Mat F32), IsSignal b.params dd → IsSignal c.params (dd.map fun m => m.map (Marked.plain : F32 → Marked r o)) := by
    intro dd hdd
    refine ⟨by rw [List.length_map, hp]; exact hdd.1, fun m hm => ?_⟩
    obtain ⟨n, hn, rfl⟩ := List.mem_map.1 hm
    have := hdd.2 n hn
    rcases shape_cases hb.1 with ⟨a, hsh, _⟩ | ⟨a, k, hsh, _⟩ <;> rw [hp, hsh] <;> rw [hsh] at this <;> exact this
  have hdd : IsSignal b.params data' := by
    refine ⟨h.length_eq ▸ hd.1, fun m hm => ?_⟩
    obtain ⟨n, hn, rfl⟩ := List.mem_iff_getElem.1 hm
    have hn' : n < data.length := by rw [h.length_eq]; exact hn
    have g := h.get hn' hn
    have g' := hd.2 _ (List.getElem_mem hn')
    simp only [List.get_eq_getElem] at g
    rcases shape_cases hb.1 with ⟨a, hsh, _⟩ | ⟨a, c, hsh, _⟩ <;> rw [hsh] at g' ⊢
    · exact ⟨g.1.trans g'.1, g.2.1.trans g'.2⟩
    · exact ⟨g.1.trans g'.1, g.2.1.trans g'.2⟩
  have rel : List.Forall₂ (RelatedMats (InUnitOrMarked e)) (data.map fun m => m.map (Marked.plain : F32 → Marked r o))
      (data'.map fun m => m.map Marked.plain) := by
    rw [List.forall₂_map_left_iff, List.forall₂_map_right_iff]
    refine h.imp fun m m' g => ⟨g.1, g.2.1, fun i hi j hj => Or.inr (Or.inr ?_)⟩
    have hi' : i < m'.rows := by rw [g.1]; exact hi
    have hj' : j < m'.cols := by rw [g.2.1]; exact hj
    rw [Mat.get_map _ m hi hj, Mat.get_map _ m' hi' hj']
    exact g.2.2 i hi j hj
  have back : ∀ dd : List (Mat F32), (dd.map fun m => m.map (Marked.plain : F32 → Marked r o)).map (fun m => m.map (Marked.bits : Marked r o → F32)) = dd := by
    intro dd
    rw [List.map_map]
    conv_rhs => rw [← List.map_id dd]
    refine List.map_congr_left fun m _ => ?_
    rw [Mat.eq_iff]
    refine ⟨rfl, rfl, ?_⟩
    simp only [Function.comp_apply, Mat.map, List.map_map]
    exact List.map_id _
  have sizes : ∀ a t, KeepsSizes (marksThreshold r o a t) := fun a t => ⟨fun v s => List.length_map _, fun m s => ⟨rfl, rfl⟩⟩
  have sizes' : ∀ a t, KeepsSizes (thresholdDenoiser (α := Bits o) absBits a t) := fun a t => ⟨fun v s => List.length_map _, fun m s => ⟨rfl, rfl⟩⟩
  have hch' : 0 < c.params.signalNumber := hp ▸ hch
  have hw' : c.params.wtype ≤ 5 := hp ▸ hw
  have fp := marks_present r o hw'
  obtain ⟨q, q1, q2, q3⟩ := buffer_hom_den (b' := (b : Buffer (Bits o))) (marks_hom (r := r) (o := o)) (marks_threshold_hom a t) (sizes a t) (sizes' a t)
    hp.symm hc hb fp (bitsKit_present (by omega)) hch' (shp _ hd)
  obtain ⟨q', q1', q2', q3'⟩ := buffer_hom_den (b' := (b : Buffer (Bits o))) (marks_hom (r := r) (o := o)) (marks_threshold_hom a' t') (sizes a' t')
    (sizes' a' t') hp.symm hc hb fp (bitsKit_present (by omega)) hch' (shp _ hdd)
  have o1 := decompose_ok hc fp hch' (shp _ hd) (fun _ => sizes a t)
  have o1' := decompose_ok hc fp hch' (shp _ hdd) (fun _ => sizes a' t')
  have rd : RelatedDecs (InUnitOrMarked e) q q' := by
    rw [o1] at q1
    rw [o1'] at q1'
    injection q1 with q1 _
    injection q1' with q1' _
    rw [← q1, ← q1']
    unfold RelatedDecs
    rw [List.forall₂_map_left_iff, List.forall₂_map_right_iff, List.forall₂_iff_get]
    refine ⟨rel.length_eq, fun n h1 h2 => ?_⟩
    exact chan_rel_two (unit_survives ho hu e) _ (fun s hs => thresholds_keep (ht s (hp ▸ hs))) (rel.get h1 h2) hc.1
      (shaped_of ((shp _ hd).2 _ (List.get_mem _ ⟨n, h1⟩)))
  have sz : ∀ (a t : F32) (dd : List (Mat F32)), IsSignal b.params dd → ∀ d, c.decompose (marksKit r o) (dd.map fun m => m.map Marked.plain)
      (marksThreshold r o a t) = .ok d true → d.length = c.params.signalNumber ∧ ∀ x ∈ d, SizedChan c.params x := by
    intro a t dd hdd d hq
    rw [decompose_ok hc fp hch' (shp _ hdd) (fun _ => sizes a t)] at hq
    injection hq with hq _
    rw [← hq]
    refine ⟨by rw [List.length_map]; exact (shp _ hdd).1, fun x hx => ?_⟩
    obtain ⟨m, hm, rfl⟩ := List.mem_map.1 hx
    exact chanP_sized hc.1 (sizes a t) (shaped_of ((shp _ hdd).2 m hm))
  obtain ⟨z1, z2⟩ := sz a t data hd q q1
  obtain ⟨z1', z2'⟩ := sz a' t' data' hdd q' q1'
  refine ⟨q, q', q1, q1', ?_, ?_, rd, fun s hs => ?_⟩
  · rw [← back data]; exact q2
  · rw [← back data']; exact q2'
  · obtain ⟨out, out', c1, c2, c3⟩ := compose_rel (marksKit r o) (InUnitOrMarked e) (unit_survives ho hu e) hc.1 fp z1 z2 z2' rd (s := s) (hp ▸ hs)
    rw [hp] at q3 q3' c1 c2
    obtain ⟨u, u1, u2⟩ := q3 s hs
    obtain ⟨u', u1', u2'⟩ := q3' s hs
    obtain rfl : u = out := by rw [c1] at u1; injection u1 with a; exact a.symm
    obtain rfl : u' = out' := by rw [c2] at u1'; injection u1' with a; exact a.symm
    exact ⟨u, u', c1, c2, u2, u2', c3⟩

theorem threshold_in_unit {r : Rounding} {o : FloatOps} (ho : o.Correct r) (hu : UnitBlind r o) {e : ℤ} {a a' t t' : F32}
    (ha : InUnit e a a') (ht : InUnit e t t') (s : ℕ) (h : (marksGetThreshold r o a t s).mark = false)
    (h' : (marksGetThreshold r o a' t' s).mark = false) :
    InUnit e (getThreshold (α := Bits o) a t s) (getThreshold (α := Bits o) a' t' s) := by
  have h1 := ((unit_survives ho hu e).mul (Marked.plain a : Marked r o) (Marked.plain a') (Marked.plain (o.store (s : ℝ))) (Or.inr (Or.inr ha))).1
  have h2 := (unit_survives ho hu e).add _ _ (Marked.plain t : Marked r o) (Marked.plain t') h1 (Or.inr (Or.inr ht))
  have h3 : InUnitOrMarked e (marksGetThreshold r o a t s) (marksGetThreshold r o a' t' s) := h2
  exact unit_of h3 (by rw [h]; exact Bool.false_ne_true) (by rw [h']; exact Bool.false_ne_true)

/-- C147: two signals with the same samples in units that differ by a power of two, denoised with thresholds that are the same in these units: the same
coefficients survive, with the same values in these units, and the compositions at all scales are the same in these units - every number that no
overflow or underflow went into. The thresholds themselves, `a * step + t`, are computed without overflow and underflow. -/
theorem C147_thresholds (r : Rounding) (o : FloatOps) (ho : o.Correct r) (hu : UnitBlind r o) (e : ℤ) (b : Buffer F32) (hb : WellFormed b)
    (hw : b.params.wtype ≤ 5) (hch : 0 < b.params.signalNumber) (data data' : List (Mat F32)) (hd : IsSignal b.params data)
    (h : List.Forall₂ (RelatedMats (InUnit e)) data data') (a t a' t' : F32)
    (ha : InUnit e a a') (ht : InUnit e t t')
    (hm : ∀ s < b.params.steps, (marksGetThreshold r o a t s).mark = false ∧ (marksGetThreshold r o a' t' s).mark = false)
    (c : Buffer (Marked r o)) (hc : WellFormed c) (hp : c.params = b.params) :
    ∃ d d' : Decs (Marked r o),
      c.decompose (marksKit r o) (data.map fun m => m.map Marked.plain) (marksThreshold r o a t) = .ok d true ∧
      c.decompose (marksKit r o) (data'.map fun m => m.map Marked.plain) (marksThreshold r o a' t') = .ok d' true ∧
      Buffer.decompose (α := Bits o) (bitsKit r o) b data (bitsThreshold o a t) = .ok (unmark d) true ∧
      Buffer.decompose (α := Bits o) (bitsKit r o) b data' (bitsThreshold o a' t') = .ok (unmark d') true ∧
      RelatedDecs (InUnitOrMarked e) d d' ∧ ∀ s ≤ b.params.steps, ∃ out out' : List (Mat (Marked r o)),
        (Buffer.mk b.params d).compose (marksKit r o) s = .ok out ∧ (Buffer.mk b.params d').compose (marksKit r o) s = .ok out' ∧
        Buffer.compose (α := Bits o) (bitsKit r o) ⟨b.params, unmark d⟩ s = .ok (out.map fun m => m.map Marked.bits) ∧
        Buffer.compose (α := Bits o) (bitsKit r o) ⟨b.params, unmark d'⟩ s = .ok (out'.map fun m => m.map Marked.bits) ∧
        List.Forall₂ (RelatedMats (InUnitOrMarked e)) out out' :=
  thresholds_general r o ho hu e b hb hw hch data data' hd h a t a' t'
    (fun s hs => threshold_in_unit ho hu ha ht s (hm s hs).1 (hm s hs).2) c hc hp

/-- The hypotheses on the thresholds can be met: the threshold 10 on all steps for samples from 0 to 255, and 10/256 for samples divided by 256. -/
example (r : Rounding) (hr : r.IEEE) (o : FloatOps) (ho : o.Correct r) : ∃ t t' : F32, number t = 10 ∧ number t' = 10 / 256 ∧
    InUnit (-8) (0#32 : F32) 0#32 ∧ InUnit (-8) t t' ∧
    ∀ s < 20, (marksGetThreshold r o 0#32 t s).mark = false ∧ (marksGetThreshold r o 0#32 t' s).mark = false := by
  classical
  have mx : (1000 : ℝ) ≤ maxFloat := by unfold maxFloat; norm_num
  have mn : minNormal ≤ 10 / 256 := by unfold minNormal; norm_num
  have z : (number (0#32 : F32) : ℝ) = 0 := by rw [number_zero]; norm_num
  have z0 : r.toFloat 0 = 0 := nearest_zero hr.1
  have m1 : (10 : ℝ) ∈ FloatNumbers 24 (-149) := ⟨10, 0, by norm_num, by norm_num, by norm_num⟩
  have m2 : (10 / 256 : ℝ) ∈ FloatNumbers 24 (-149) := ⟨10, -8, by norm_num, by norm_num, by norm_num⟩
  obtain ⟨t, t1, t2⟩ := number_surj m1 (by rw [abs_of_pos (by norm_num)]; linarith)
  obtain ⟨t', t1', t2'⟩ := number_surj m2 (by rw [abs_of_pos (by norm_num)]; linarith)
  have fin : ∀ s < 20, finiteBits (o.store ((s : ℕ) : ℝ)) := by
    intro s hs
    refine (ho.store _ (toFloat_le hr ?_)).1
    have : ((s : ℕ) : ℝ) < 20 := by exact_mod_cast hs
    rw [abs_of_nonneg (by positivity)]
    linarith
  have key : ∀ s < 20, ∀ x : F32, finiteBits x → (number x : ℝ) ∈ FloatNumbers 24 (-149) → minNormal ≤ |(number x : ℝ)| →
      (marksGetThreshold r o 0#32 x s).mark = false := by
    intro s hs x h1 h2 h3
    have p : (number (0#32 : F32) : ℝ) * number (o.store ((s : ℕ) : ℝ)) = 0 := by rw [z, zero_mul]
    obtain ⟨g1, g2⟩ := ho.mul 0#32 (o.store ((s : ℕ) : ℝ)) finite_zero (fin s hs) (by rw [p, z0, abs_zero]; linarith)
    rw [p, z0] at g2
    have e1 : (Marked.plain (0#32 : F32) * Marked.plain (o.store ((s : ℕ) : ℝ)) : Marked r o) = Marked.plain (o.mul 0#32 (o.store ((s : ℕ) : ℝ))) := by
      show Marked.mul _ _ = _
      unfold Marked.mul
      rw [decide_eq_true (p := finiteBits (Marked.plain (0#32 : F32) : Marked r o).bits ∧ _) ⟨finite_zero, fin s hs, Or.inl p⟩]
      rfl
    unfold marksGetThreshold
    rw [e1]
    show (Marked.add _ _).mark = false
    have q : (number (o.mul 0#32 (o.store ((s : ℕ) : ℝ))) : ℝ) + number x = number x := by rw [g2, zero_add]
    have w : InRange r ((number (o.mul 0#32 (o.store ((s : ℕ) : ℝ))) : ℝ) + number x) := by
      rw [q]
      refine Or.inr ⟨h3, ?_⟩
      rw [nearest_self hr.1 h2]
      exact number_le_max h1
    unfold Marked.add
    rw [decide_eq_true (p := finiteBits (Marked.plain (o.mul 0#32 (o.store ((s : ℕ) : ℝ))) : Marked r o).bits ∧ _) ⟨g1, h1, w⟩]
    rfl
  refine ⟨t, t', by exact_mod_cast t2, ?_, ⟨finite_zero, finite_zero, by rw [z, mul_zero]⟩, ⟨t1, t1', ?_⟩, fun s hs => ⟨key s hs t t1 ?_ ?_, key s hs t' t1' ?_ ?_⟩⟩
  · have : (number t' : ℝ) = ((10 / 256 : ℚ) : ℝ) := by rw [t2']; norm_num
    exact_mod_cast this
  · rw [t2, t2']; norm_num
  · rw [t2]; exact m1
  · rw [t2, abs_of_pos (by norm_num)]; linarith
  · rw [t2']; exact m2
  · rw [t2', abs_of_pos (by norm_num)]; linarith

end

end WB.Props
