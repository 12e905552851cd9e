import Verif.Proof.Marks
import Verif.Proof.Polarity

/-!
`Proof/Marks` with denoisers, and `Proof/Polarity` with two of them.
-/

set_option linter.unusedSectionVars false

namespace WB

open Spec

/-- `den'` does to the images what `den` does to the numbers. -/
def DenHom {α β : Type} (φ : α → β) (den : Denoiser α) (den' : Denoiser β) : Prop :=
  (∀ v s, den'.d1 (v.map φ) s = (den.d1 v s).map φ) ∧ ∀ m s, den'.d2 (m.map φ) s = (den.d2 m s).map φ

section
variable {α β : Type} [Zero α] [Add α] [Mul α] [Neg α] [Inhabited α] [Zero β] [Add β] [Mul β] [Neg β] [Inhabited β] {k : Kit α} {k' : Kit β} {φ : α → β}

theorem detail_hom_den (hφ : KitHom k k' φ) {den : Denoiser α} {den' : Denoiser β} (hden : DenHom φ den den') (p : Params) (h : List α) (s : ℕ) (m : Mat α) :
    detailStep p (h.map φ) den' s (m.map φ) = (detailStep p h den s m).map fun x => x.map φ := by
  unfold detailStep
  obtain ⟨_, q2, q3, q4⟩ := quad_hom hφ h m
  split_ifs with hd
  · have e : (List.range ((m.map φ).rows / 2)).map (anaP ((m.map φ).col 0) (qmf (h.map φ))) = ((List.range (m.rows / 2)).map (anaP (m.col 0) (qmf h))).map φ := by
      rw [List.map_map, col_hom hφ, qmf_hom hφ]
      exact List.map_congr_left fun i _ => anaP_hom hφ _ _ i
    rw [e, hden.1, List.map_cons, List.map_nil, ofCol_hom]
  · rw [q2, q3, q4, hden.2, hden.2, hden.2]
    rfl

theorem chan_hom_den (hφ : KitHom k k' φ) {den : Denoiser α} {den' : Denoiser β} (hden : DenHom φ den den') (p : Params) (h : List α) (m : Mat α) :
    chanP p (h.map φ) den' (m.map φ) = (chanP p h den m).map fun x => x.map φ := by
  unfold chanP
  rw [pad_hom hφ, List.map_append, List.map_flatMap, List.map_cons, List.map_nil, sig_hom hφ]
  congr 1
  refine List.flatMap_congr fun s _ => ?_
  rw [sig_hom hφ, detail_hom_den hφ hden]

/-- Everything that is computed with one kind of numbers is the image of what is computed with the other. -/
theorem buffer_hom_den (hφ : KitHom k k' φ) {den : Denoiser α} {den' : Denoiser β} (hden : DenHom φ den den') (hs1 : KeepsSizes den) (hs2 : KeepsSizes den')
    {b : Buffer α} {b' : Buffer β} (hp : b'.params = b.params) (hb : WellFormed b) (hb' : WellFormed b')
    (hf : FilterPresent k b.params) (hf' : FilterPresent k' b.params) (hch : 0 < b.params.signalNumber) {data : List (Mat α)}
    (hd : IsSignal b.params data) :
    ∃ d, b.decompose k data den = .ok d true ∧
      b'.decompose k' (data.map fun m => m.map φ) den' = .ok (d.map fun c => c.map fun m => m.map φ) true ∧
      ∀ s ≤ b.params.steps, ∃ out, (Buffer.mk b.params d).compose k s = .ok out ∧
        (Buffer.mk b.params (d.map fun c => c.map fun m => m.map φ)).compose k' s = .ok (out.map fun m => m.map φ) := by
  have hd' : IsSignal b.params (data.map fun m => m.map φ) := by
    refine ⟨by rw [List.length_map]; exact hd.1, fun m hm => ?_⟩
    obtain ⟨n, hn, rfl⟩ := List.mem_map.1 hm
    have := hd.2 n hn
    rcases shape_cases hb.1 with ⟨a, hsh, _⟩ | ⟨a, c, hsh, _⟩ <;> rw [hsh] at this ⊢ <;> exact this
  have sz : ∀ c ∈ data.map (chanP b.params (scaling k b.params) den), SizedChan b.params c := by
    intro c hc
    obtain ⟨m, hm, rfl⟩ := List.mem_map.1 hc
    exact chanP_sized hb.1 hs1 (shaped_of (hd.2 m hm))
  have len : (data.map (chanP b.params (scaling k b.params) den)).length = b.params.signalNumber := by rw [List.length_map]; exact hd.1
  refine ⟨_, decompose_ok hb hf hch hd (fun _ => hs1), ?_, fun s hs =>
    ⟨_, compose_ok (b := ⟨b.params, data.map (chanP b.params (scaling k b.params) den)⟩) hb.1 len hf sz hs, ?_⟩⟩
  · rw [decompose_ok hb' (hp ▸ hf') (hp ▸ hch) (hp ▸ hd') (fun _ => hs2), hp, List.map_map, List.map_map]
    congr 1
    refine List.map_congr_left fun m _ => ?_
    simp only [Function.comp_apply]
    rw [scaling_hom hφ, chan_hom_den hφ hden]
  · rw [compose_ok (b := ⟨b.params, (data.map (chanP b.params (scaling k b.params) den)).map fun c => c.map fun m => m.map φ⟩) hb.1
      (by rw [List.length_map]; exact len) hf' ?_ hs]
    · simp only
      congr 1
      simp only [List.map_map]
      refine List.map_congr_left fun m _ => ?_
      exact out_hom hφ _ _ _
    · intro c hc
      obtain ⟨c0, h0, rfl⟩ := List.mem_map.1 hc
      exact sized_hom φ _ (sz c0 h0)

end

namespace Props

section
variable {α : Type} [Zero α] [Add α] [Mul α] [Neg α] [Inhabited α] {R : α → α → Prop} {k : Kit α}

/-- Two denoisers that turn related details of one step into related details. -/
def DenoisersKeep (R : α → α → Prop) (den den' : Denoiser α) (s : ℕ) : Prop :=
  (∀ v v', RelatedLists R v v' → RelatedLists R (den.d1 v s) (den'.d1 v' s)) ∧ ∀ m m', RelatedMats R m m' → RelatedMats R (den.d2 m s) (den'.d2 m' s)

theorem detail_rel_two (hR : Survives k R) {p : Params} (h : List α) {den den' : Denoiser α} {s : ℕ} (hden : DenoisersKeep R den den' s) {m m' : Mat α}
    (hm : RelatedMats R m m') (hc : p.dimension = 1 → 0 < m.cols) : List.Forall₂ (RelatedMats R) (detailStep p h den s m) (detailStep p h den' s m') := by
  unfold detailStep
  split_ifs with hd
  · exact .cons (ofCol_rel hR.fill (hden.1 _ _ (map_range_rel (by rw [hm.1]) fun i _ => anaP_rel hR (col_rel hm (hc hd)) _ i))) .nil
  · obtain ⟨_, q2, q3, q4⟩ := quad_rel hR h hm
    exact .cons (hden.2 _ _ q2) (.cons (hden.2 _ _ q3) (.cons (hden.2 _ _ q4) .nil))

theorem chan_rel_two (hR : Survives k R) {p : Params} (h : List α) {den den' : Denoiser α} (hden : ∀ s < p.steps, DenoisersKeep R den den' s) {m m' : Mat α}
    (hm : RelatedMats R m m') (hv : ValidParams p) (hs : Shaped p m) : List.Forall₂ (RelatedMats R) (chanP p h den m) (chanP p h den' m') := by
  have pc : p.dimension = 1 → 0 < (padOf p m).cols := by
    intro hd
    unfold padOf
    split_ifs
    · rcases shape_cases hv with ⟨a, hsh, _⟩ | ⟨a, c, _, hd'⟩
      · rw [hs.2, hsh]; exact Nat.one_pos
      · omega
    · show 0 < matCols (paddedShape p)
      have : (paddedShape p).length = 1 := by
        unfold paddedShape
        split_ifs <;> simpa [Params.dimension] using hd
      match hs : paddedShape p, this with
      | [a], _ => simp [matCols]
  have g := sig_rel hR h (pad_rel (p := p) hm fun ht => by
    obtain ⟨a, b, _⟩ := padded_ge hv ht
    rw [hs.1, hs.2]
    exact ⟨a, b⟩) pc
  unfold chanP
  refine List.rel_append (flatMap_rel _ fun s h' => detail_rel_two hR h (hden s (List.mem_range.1 h')) (g s).1 (g s).2) (.cons (g _).1 .nil)

end

end Props

end WB
