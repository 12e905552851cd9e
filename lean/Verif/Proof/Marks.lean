import Verif.Proof.Rounding2D
import Verif.Proof.Bridge

/-!
A map between two kinds of numbers that respects the operations respects decomposition and composition.
-/

set_option linter.unusedSectionVars false

namespace WB

open Spec

/-- `φ` respects the operations. -/
structure KitHom {α β : Type} [Zero α] [Add α] [Mul α] [Neg α] [Inhabited α] [Zero β] [Add β] [Mul β] [Neg β] [Inhabited β] (k : Kit α) (k' : Kit β)
    (φ : α → β) : Prop where
  zero : φ 0 = 0
  fill : φ default = default
  add : ∀ x y, φ (x + y) = φ x + φ y
  mul : ∀ x y, φ (x * y) = φ x * φ y
  neg : ∀ x, φ (-x) = -φ x
  coeffs : ∀ t, k'.dbwavf t = (k.dbwavf t).map φ
  root : ∀ x, φ (k.mulSqrt2 x) = k'.mulSqrt2 (φ x)
  div : ∀ two s x, φ (k.divFactor two s x) = k'.divFactor two s (φ x)

section
variable {α β : Type} [Zero α] [Add α] [Mul α] [Neg α] [Inhabited α] [Zero β] [Add β] [Mul β] [Neg β] [Inhabited β] {k : Kit α} {k' : Kit β} {φ : α → β}

theorem getD_hom {γ δ : Type} (f : γ → δ) (l : List γ) (i : ℕ) {d : γ} {d' : δ} (hd : f d = d') : (l.map f).getD i d' = f (l.getD i d) := by
  rw [List.getD_eq_getElem?_getD, List.getD_eq_getElem?_getD, List.getElem?_map]
  cases l[i]? with
  | none => exact hd.symm
  | some a => rfl

theorem foldl_hom' {γ : Type} (hφ : KitHom k k' φ) (f : γ → α) : ∀ (l : List γ) (a : α),
    φ (l.foldl (fun acc e => acc + f e) a) = l.foldl (fun acc e => acc + φ (f e)) (φ a)
  | [], _ => rfl
  | e :: l, a => by rw [List.foldl_cons, List.foldl_cons, foldl_hom' hφ f l, hφ.add]

theorem anaP_hom (hφ : KitHom k k' φ) (x f : List α) (i : ℕ) : anaP (x.map φ) (f.map φ) i = φ (anaP x f i) := by
  unfold anaP
  rw [foldl_hom' hφ, hφ.zero, List.length_map, List.length_map]
  congr 1
  funext acc j
  rw [hφ.mul, getD_hom φ _ _ hφ.zero, getD_hom φ _ _ hφ.zero]

theorem synP_hom (hφ : KitHom k k' φ) (x y lo hi : List α) (i : ℕ) :
    synP (x.map φ) (y.map φ) (lo.map φ) (hi.map φ) i = φ (synP x y lo hi i) := by
  unfold synP
  simp only [List.length_map, getD_hom φ _ _ hφ.zero]
  have step : ∀ (l : List ℕ) (f g : ℕ → α) (a : α), l.foldl (fun acc j => acc + φ (f j) + φ (g j)) (φ a) = φ (l.foldl (fun acc j => acc + f j + g j) a) := by
    intro l f g
    induction l with
    | nil => intro a; rfl
    | cons e l ih => intro a; rw [List.foldl_cons, List.foldl_cons, ← hφ.add, ← hφ.add, ih]
  simp only [← hφ.mul]
  rw [← step, hφ.zero]

theorem qmf_hom (hφ : KitHom k k' φ) (h : List α) : qmf (h.map φ) = (qmf h).map φ := by
  unfold qmf
  simp only [List.length_map, ← List.map_reverse]
  refine List.ext_getElem (by simp) fun i h1 h2 => ?_
  simp only [List.getElem_mapIdx, List.getElem_map]
  split_ifs <;> simp [hφ.neg]

theorem scaling_hom (hφ : KitHom k k' φ) (p : Params) : scaling k' p = (scaling k p).map φ := by
  unfold scaling
  rw [hφ.coeffs, List.map_map, List.map_map]
  exact List.map_congr_left fun x _ => (hφ.root x).symm

theorem get_hom (hφ : KitHom k k' φ) (m : Mat α) (i j : ℕ) : (m.map φ).get i j = φ (m.get i j) := by
  unfold Mat.get Mat.map
  exact getD_hom φ _ _ hφ.fill

theorem ofFn_hom (φ : α → β) (r c : ℕ) (f : ℕ → ℕ → α) : (Mat.ofFn r c f).map φ = Mat.ofFn r c fun i j => φ (f i j) := by
  unfold Mat.ofFn Mat.map
  simp only [List.map_map]
  rfl

theorem ofCol_hom (φ : α → β) (v : List α) : (Mat.ofCol v).map φ = Mat.ofCol (v.map φ) := by
  rw [Mat.eq_iff]
  exact ⟨by simp [Mat.map, Mat.ofCol], rfl, rfl⟩

theorem row_hom (hφ : KitHom k k' φ) (m : Mat α) (i : ℕ) : (m.map φ).row i = (m.row i).map φ := by
  unfold Mat.row
  rw [List.map_map]
  exact List.map_congr_left fun j _ => get_hom hφ m i j

theorem col_hom (hφ : KitHom k k' φ) (m : Mat α) (j : ℕ) : (m.map φ).col j = (m.col j).map φ := by
  unfold Mat.col
  rw [List.map_map]
  exact List.map_congr_left fun i _ => get_hom hφ m i j

theorem mulP_hom (hφ : KitHom k k' φ) (w : SpMat α) (x : List α) : (w.mapV φ).mulP (x.map φ) = (w.mulP x).map φ := by
  unfold SpMat.mulP SpMat.mapV
  simp only [List.map_map]
  refine List.map_congr_left fun r _ => ?_
  simp only [Function.comp_apply]
  rw [foldl_hom' hφ, hφ.zero, List.foldl_map]
  congr 1
  funext acc e
  rw [hφ.mul, getD_hom φ _ _ hφ.zero]

theorem rowsP_hom (hφ : KitHom k k' φ) (m : Mat α) (w : SpMat α) : rowsP (m.map φ) (w.mapV φ) = (rowsP m w).map φ := by
  unfold rowsP
  rw [ofFn_hom]
  congr 1
  funext i j
  rw [row_hom hφ, mulP_hom hφ, getD_hom φ _ _ hφ.fill]

theorem colsP_hom (hφ : KitHom k k' φ) (m : Mat α) (w : SpMat α) : colsP (m.map φ) (w.mapV φ) = (colsP m w).map φ := by
  unfold colsP
  rw [ofFn_hom]
  congr 1
  funext i j
  rw [col_hom hφ, mulP_hom hφ, getD_hom φ _ _ hφ.fill]

theorem rowP_hom (hφ : KitHom k k' φ) (f : List α) (n i : ℕ) : rowP (f.map φ) n i = (rowP f n i).map fun e => (e.1, φ e.2) := by
  unfold rowP
  rw [List.map_map, List.length_map]
  refine List.map_congr_left fun s _ => ?_
  simp only [Function.comp_apply, getD_hom φ _ _ hφ.zero]

theorem daubP_hom (hφ : KitHom k k' φ) (lo hi : List α) (n : ℕ) : daubP (lo.map φ) (hi.map φ) n = (daubP lo hi n).mapV φ := by
  unfold daubP SpMat.mapV
  simp only [List.map_append, List.map_map, SpMat.mk.injEq, true_and]
  congr 1 <;> refine List.map_congr_left fun i _ => ?_
  · exact rowP_hom hφ lo _ _
  · exact rowP_hom hφ _ _ _

theorem quad_hom (hφ : KitHom k k' φ) (h : List α) (m : Mat α) :
    (quadOf (h.map φ) (m.map φ)).ll = (quadOf h m).ll.map φ ∧ (quadOf (h.map φ) (m.map φ)).lh = (quadOf h m).lh.map φ ∧
    (quadOf (h.map φ) (m.map φ)).hl = (quadOf h m).hl.map φ ∧ (quadOf (h.map φ) (m.map φ)).hh = (quadOf h m).hh.map φ := by
  unfold quadOf
  rw [qmf_hom hφ, daubP_hom hφ, daubP_hom hφ, rowsP_hom hφ, colsP_hom hφ]
  unfold quadP
  simp only [ofFn_hom, get_hom hφ, Mat.rows_map, Mat.cols_map, and_self]

theorem approx_hom (hφ : KitHom k k' φ) (p : Params) (h : List α) (m : Mat α) : approxStep p (h.map φ) (m.map φ) = (approxStep p h m).map φ := by
  unfold approxStep
  split_ifs with hd
  · rw [ofCol_hom, List.map_map, col_hom hφ]
    congr 1
    exact List.map_congr_left fun i _ => anaP_hom hφ _ _ i
  · exact (quad_hom hφ h m).1

theorem detail_hom (hφ : KitHom k k' φ) (p : Params) (h : List α) (s : ℕ) (m : Mat α) :
    detailStep p (h.map φ) nullDenoiser s (m.map φ) = (detailStep p h nullDenoiser s m).map fun x => x.map φ := by
  unfold detailStep
  obtain ⟨_, q2, q3, q4⟩ := quad_hom hφ h m
  split_ifs with hd
  · rw [List.map_cons, List.map_nil, ofCol_hom, col_hom hφ, qmf_hom hφ]
    simp only [nullDenoiser]
    rw [List.map_map]
    congr 2
    exact List.map_congr_left fun i _ => anaP_hom hφ _ _ i
  · simp only [nullDenoiser, List.map_cons, List.map_nil, q2, q3, q4]

theorem sig_hom (hφ : KitHom k k' φ) (p : Params) (h : List α) (m : Mat α) : ∀ s, sig p (h.map φ) (m.map φ) s = (sig p h m s).map φ
  | 0 => rfl
  | s + 1 => by
    show approxStep p _ _ = _
    rw [sig_hom hφ p h m s]
    exact approx_hom hφ p h _

theorem pad_hom (hφ : KitHom k k' φ) (p : Params) (m : Mat α) : padOf p (m.map φ) = (padOf p m).map φ := by
  unfold padOf
  split_ifs
  · rfl
  · rw [ofFn_hom]
    simp only [get_hom hφ, Mat.rows_map, Mat.cols_map]

theorem chan_hom (hφ : KitHom k k' φ) (p : Params) (h : List α) (m : Mat α) :
    chanP p (h.map φ) nullDenoiser (m.map φ) = (chanP p h nullDenoiser m).map fun x => x.map φ := by
  unfold chanP
  rw [pad_hom hφ, List.map_append, List.map_flatMap, List.map_cons, List.map_nil, sig_hom hφ]
  congr 1
  refine List.flatMap_congr fun s _ => ?_
  rw [sig_hom hφ, detail_hom hφ]

theorem assemble_hom (hφ : KitHom k k' φ) (a b c d : Mat α) (sh sw : ℕ) :
    assemble ⟨a.map φ, b.map φ, c.map φ, d.map φ⟩ sh sw = (assemble ⟨a, b, c, d⟩ sh sw).map φ := by
  unfold assemble
  rw [ofFn_hom]
  congr 1
  funext i j
  simp only [get_hom hφ]
  split_ifs <;> rfl

theorem synth_hom (hφ : KitHom k k' φ) (p : Params) (h : List α) (low : Mat α) (ds : List (Mat α)) :
    synthStep p (h.map φ) (low.map φ) (ds.map fun x => x.map φ) = (synthStep p h low ds).map φ := by
  have dm : (default : Mat α).map φ = default := rfl
  have g : ∀ i, (ds.map fun x => x.map φ).getD i default = (ds.getD i default).map φ := fun i => getD_hom (fun x : Mat α => x.map φ) ds i dm
  unfold synthStep
  rw [g, g, g, qmf_hom hφ]
  split_ifs with hd
  · rw [ofCol_hom, List.map_map, col_hom hφ, col_hom hφ, ← List.map_reverse, ← List.map_reverse]
    congr 1
    exact List.map_congr_left fun i _ => synP_hom hφ _ _ _ _ i
  · rw [daubP_hom hφ, daubP_hom hφ, SpMat.mapV_transpose, SpMat.mapV_transpose, assemble_hom hφ, rowsP_hom hφ, colsP_hom hφ]
    rfl

theorem recon_hom (hφ : KitHom k k' φ) (p : Params) (h : List α) (c : Channel α) : ∀ (n i : ℕ) (m : Mat α),
    reconFrom p (h.map φ) (c.map fun x => x.map φ) n i (m.map φ) = (reconFrom p h c n i m).map φ
  | 0, _, _ => rfl
  | n + 1, i, m => by
    have dm : (default : Mat α).map φ = default := rfl
    have e : detailsAt p (c.map fun x => x.map φ) (i - 1) = (detailsAt p c (i - 1)).map fun x => x.map φ := by
      unfold detailsAt
      rw [List.map_map]
      exact List.map_congr_left fun j _ => getD_hom (fun x : Mat α => x.map φ) c _ dm
    show reconFrom p _ _ n (i - 1) (synthStep p _ _ _) = _
    rw [e, synth_hom hφ, recon_hom hφ p h c n]
    rfl

theorem crop_hom (hφ : KitHom k k' φ) (p : Params) (s : ℕ) (m : Mat α) : cropOf p s (m.map φ) = (cropOf p s m).map φ := by
  unfold cropOf
  simp only
  split_ifs
  · rfl
  · rw [ofFn_hom]
    simp only [get_hom hφ, Mat.rows_map, Mat.cols_map]

theorem out_hom (hφ : KitHom k k' φ) (p : Params) (s : ℕ) (c : Channel α) : outP k' p s (c.map fun x => x.map φ) = (outP k p s c).map φ := by
  have dm : (default : Mat α).map φ = default := rfl
  unfold outP finishP reconP
  rw [scaling_hom hφ, getD_hom (fun x : Mat α => x.map φ) c _ dm, recon_hom hφ, crop_hom hφ]
  split_ifs
  · rw [Mat.eq_iff]
    refine ⟨rfl, rfl, ?_⟩
    simp only [Mat.map, List.map_map]
    exact List.map_congr_left fun x _ => (hφ.div _ _ x).symm
  · rfl

theorem sized_hom (φ : α → β) (p : Params) {c : Channel α} (hc : SizedChan p c) : SizedChan p (c.map fun x => x.map φ) := by
  have dm : (default : Mat α).map φ = default := rfl
  obtain ⟨h1, h2, h3⟩ := hc
  refine ⟨by rw [List.length_map]; exact h1, fun s hs j hj => ?_, ?_⟩
  · rw [getD_hom (fun x : Mat α => x.map φ) c _ dm]
    exact h2 s hs j hj
  · rw [getD_hom (fun x : Mat α => x.map φ) c _ dm]
    exact h3

/-- Everything that is computed with one kind of numbers is the image of what is computed with the other. -/
theorem buffer_hom (hφ : KitHom k k' φ) {b : Buffer α} {b' : Buffer β} (hp : b'.params = b.params) (hb : WellFormed b) (hb' : WellFormed b')
    (hf : FilterPresent k b.params) (hf' : FilterPresent k' b.params) (hch : 0 < b.params.signalNumber) {data : List (Mat α)}
    (hd : IsSignal b.params data) :
    ∃ d, b.decompose k data nullDenoiser = .ok d true ∧
      b'.decompose k' (data.map fun m => m.map φ) nullDenoiser = .ok (d.map fun c => c.map fun m => m.map φ) true ∧
      ∀ s ≤ b.params.steps, ∃ out, (Buffer.mk b.params d).compose k s = .ok out ∧
        (Buffer.mk b.params (d.map fun c => c.map fun m => m.map φ)).compose k' s = .ok (out.map fun m => m.map φ) := by
  have hd' : IsSignal b.params (data.map fun m => m.map φ) := by
    refine ⟨by rw [List.length_map]; exact hd.1, fun m hm => ?_⟩
    obtain ⟨n, hn, rfl⟩ := List.mem_map.1 hm
    have := hd.2 n hn
    rcases shape_cases hb.1 with ⟨a, hsh, _⟩ | ⟨a, c, hsh, _⟩ <;> rw [hsh] at this ⊢ <;> exact this
  have sz : ∀ c ∈ data.map (chanP b.params (scaling k b.params) nullDenoiser), SizedChan b.params c := by
    intro c hc
    obtain ⟨m, hm, rfl⟩ := List.mem_map.1 hc
    exact chanP_sized hb.1 nullDenoiser_sized (shaped_of (hd.2 m hm))
  have len : (data.map (chanP b.params (scaling k b.params) nullDenoiser)).length = b.params.signalNumber := by rw [List.length_map]; exact hd.1
  refine ⟨_, decompose_ok hb hf hch hd (fun _ => nullDenoiser_sized), ?_, fun s hs =>
    ⟨_, compose_ok (b := ⟨b.params, data.map (chanP b.params (scaling k b.params) nullDenoiser)⟩) hb.1 len hf sz hs, ?_⟩⟩
  · rw [decompose_ok hb' (hp ▸ hf') (hp ▸ hch) (hp ▸ hd') (fun _ => nullDenoiser_sized), hp, List.map_map, List.map_map]
    congr 1
    refine List.map_congr_left fun m _ => ?_
    simp only [Function.comp_apply]
    rw [scaling_hom hφ, chan_hom hφ]
  · rw [compose_ok (b := ⟨b.params, (data.map (chanP b.params (scaling k b.params) nullDenoiser)).map fun c => c.map fun m => m.map φ⟩) hb.1
      (by rw [List.length_map]; exact len) hf' ?_ hs]
    · simp only
      congr 1
      simp only [List.map_map]
      refine List.map_congr_left fun m _ => ?_
      exact out_hom hφ _ _ _
    · intro c hc
      obtain ⟨c0, h0, rfl⟩ := List.mem_map.1 hc
      exact sized_hom φ _ (sz c0 h0)

end

end WB
