import Verif.Spec.Generations
import Verif.Props.Serialize

/-!
What writing a buffer and reading it again does, once and repeatedly.
-/

namespace WB.Props

open Spec

theorem truncBits_toNat (p : ℕ) (x : F32) : (truncBits p x).toNat = x.toNat / 2 ^ (32 - p) * 2 ^ (32 - p) := by
  unfold truncBits
  rw [BitVec.toNat_ofNat, Nat.mod_eq_of_lt]
  exact lt_of_le_of_lt (Nat.div_mul_le_self _ _) x.isLt

theorem truncBits_twice (p q : ℕ) (x : F32) : truncBits p (truncBits q x) = truncBits (min p q) x := by
  apply BitVec.eq_of_toNat_eq
  rw [truncBits_toNat, truncBits_toNat, truncBits_toNat]
  rcases le_total p q with h | h
  · rw [min_eq_left h]
    obtain ⟨k, hk⟩ : ∃ k, 32 - p = (32 - q) + k := ⟨(32 - p) - (32 - q), by omega⟩
    rw [hk, pow_add, ← Nat.div_div_eq_div_mul, ← Nat.div_div_eq_div_mul, Nat.mul_div_cancel _ (by positivity)]
  · rw [min_eq_right h]
    obtain ⟨k, hk⟩ : ∃ k, 32 - q = (32 - p) + k := ⟨(32 - q) - (32 - p), by omega⟩
    rw [hk, pow_add, ← Nat.mul_assoc, mul_assoc, mul_comm (2 ^ (32 - p)) (2 ^ k), ← mul_assoc, Nat.mul_div_cancel _ (by positivity)]

theorem truncBits_all {p : ℕ} (h : 32 ≤ p) (x : F32) : truncBits p x = x := by
  apply BitVec.eq_of_toNat_eq
  rw [truncBits_toNat, show 32 - p = 0 by omega]
  simp

theorem zero_iff (x : F32) : isZeroPattern x = true ↔ x.toNat = 0 ∨ x.toNat = 2 ^ 31 := by
  unfold isZeroPattern
  rw [Bool.or_eq_true, beq_iff_eq, beq_iff_eq, ← BitVec.toNat_inj, ← BitVec.toNat_inj]
  rfl

theorem zero_trunc {p : ℕ} (hp : 1 ≤ p) {x : F32} (h : isZeroPattern x = true) : isZeroPattern (truncBits p x) = true := by
  rw [zero_iff] at h ⊢
  rw [truncBits_toNat]
  rcases h with h | h
  · left
    rw [h]
    simp
  · right
    rw [h]
    exact Nat.div_mul_cancel (pow_dvd_pow 2 (by omega))

theorem _root_.WB.Spec.SameExceptZeroSign.symm {x y : F32} (h : SameExceptZeroSign x y) : SameExceptZeroSign y x :=
  h.elim (fun h => .inl h.symm) fun h => .inr h.symm

theorem _root_.WB.Spec.SameExceptZeroSign.trans {x y z : F32} (h : SameExceptZeroSign x y) (g : SameExceptZeroSign y z) : SameExceptZeroSign x z := by
  rcases h with rfl | ⟨h1, h2⟩
  · exact g
  · rcases g with rfl | ⟨g1, g2⟩
    · exact .inr ⟨h1, h2⟩
    · exact .inr ⟨h1, g2⟩

theorem stored_same {p : ℕ} (hp : 1 ≤ p) (x : F32) : SameExceptZeroSign (if isZeroPattern x then 0 else truncBits p x) (truncBits p x) := by
  split_ifs with h
  · exact .inr ⟨rfl, zero_trunc hp h⟩
  · exact .inl rfl

theorem trunc_same {p : ℕ} (hp : 1 ≤ p) {x y : F32} (h : SameExceptZeroSign x y) : SameExceptZeroSign (truncBits p x) (truncBits p y) := by
  rcases h with rfl | ⟨h1, h2⟩
  · exact .inl rfl
  · exact .inr ⟨zero_trunc hp h1, zero_trunc hp h2⟩

/-- Same parameters and sizes. -/
def Alike (b b' : Buffer F32) : Prop :=
  b'.params = b.params ∧ List.Forall₂ (List.Forall₂ fun m m' : Mat F32 => m'.rows = m.rows ∧ m'.cols = m.cols) b.decs b'.decs

theorem _root_.WB.Spec.CutTo.alike {p : ℕ} {b b' : Buffer F32} (h : CutTo p b b') : Alike b b' :=
  ⟨h.1, h.2.imp fun _ _ g => g.imp fun _ _ g => ⟨g.1, g.2.1⟩⟩

theorem Alike.sub {b b' : Buffer F32} (h : Alike b b') {c' : Channel F32} (hc : c' ∈ b'.decs) :
    ∃ c ∈ b.decs, c'.length = c.length ∧ ∀ m' ∈ c', ∃ m ∈ c, m'.rows = m.rows ∧ m'.cols = m.cols := by
  obtain ⟨n, hn, rfl⟩ := List.mem_iff_getElem.1 hc
  have hn' : n < b.decs.length := by rw [h.2.length_eq]; exact hn
  have g := h.2.get hn' hn
  refine ⟨_, List.getElem_mem hn', g.length_eq.symm, fun m' hm => ?_⟩
  obtain ⟨k, hk, rfl⟩ := List.mem_iff_getElem.1 hm
  have hk' : k < b.decs[n].length := lt_of_lt_of_eq hk g.length_eq.symm
  exact ⟨_, List.getElem_mem hk', g.get hk' hk⟩

theorem Alike.wf {b b' : Buffer F32} (h : Alike b b') (hb : WellFormed b) : WellFormed b' := by
  refine ⟨by rw [h.1]; exact hb.1, by rw [h.1, ← hb.2.1, h.2.length_eq], fun c hc => ?_⟩
  obtain ⟨c0, h0, h1, _⟩ := h.sub hc
  rw [h1, h.1]
  exact hb.2.2 c0 h0

theorem Alike.fits {b b' : Buffer F32} (h : Alike b b') (hf : FitsFormat b) : FitsFormat b' := by
  refine ⟨by rw [h.1]; exact hf.1, by rw [h.1]; exact hf.2.1, by rw [h.1]; exact hf.2.2.1, fun c hc m hm => ?_⟩
  obtain ⟨c0, h0, _, h2⟩ := h.sub hc
  obtain ⟨m0, hm0, e1, e2⟩ := h2 m hm
  rw [e1, e2]
  exact hf.2.2.2 c0 h0 m0 hm0

theorem Alike.compressible {b b' : Buffer F32} (h : Alike b b') (hf : Compressible b) : Compressible b' := by
  intro c hc m hm
  obtain ⟨c0, h0, _, h2⟩ := h.sub hc
  obtain ⟨m0, hm0, e1, e2⟩ := h2 m hm
  rw [e1, e2]
  exact hf c0 h0 m0 hm0

theorem Alike.memory {b b' : Buffer F32} {M : ℕ} (h : Alike b b') (hf : FitsMemory b M) : FitsMemory b' M := by
  refine ⟨by rw [h.1]; exact hf.1, fun c hc m hm => ?_⟩
  obtain ⟨c0, h0, _, h2⟩ := h.sub hc
  obtain ⟨m0, hm0, e1, e2⟩ := h2 m hm
  rw [e1, e2]
  exact hf.2 c0 h0 m0 hm0

theorem forall₂_trans {β : Type} {R S T : β → β → Prop} (h : ∀ x y z, R x y → S y z → T x z) :
    ∀ {a b c : List β}, List.Forall₂ R a b → List.Forall₂ S b c → List.Forall₂ T a c
  | _, _, _, .nil, .nil => .nil
  | _, _, _, .cons a b, .cons c d => .cons (h _ _ _ a c) (forall₂_trans h b d)

theorem _root_.WB.Spec.CutTo.trans {p q : ℕ} (hq : 1 ≤ q) {b b1 b2 : Buffer F32} (h : CutTo p b b1) (g : CutTo q b1 b2) : CutTo (min q p) b b2 := by
  refine ⟨g.1.trans h.1, ?_⟩
  refine forall₂_trans (fun _ _ _ hx hy => ?_) h.2 g.2
  refine forall₂_trans (fun x y z h1 h2 => ?_) hx hy
  refine ⟨h2.1.trans h1.1, h2.2.1.trans h1.2.1, fun i hi j hj => ?_⟩
  have e1 := h1.2.2 i hi j hj
  have e2 := h2.2.2 i (by omega) j (by omega)
  rw [← truncBits_twice]
  exact e2.trans (trunc_same hq e1)

theorem cutTo_self {p : ℕ} (hp : 32 ≤ p) (b : Buffer F32) : CutTo p b b :=
  ⟨rfl, List.forall₂_same.2 fun _ _ => List.forall₂_same.2 fun _ _ => ⟨rfl, rfl, fun _ _ _ _ => .inl (truncBits_all hp _).symm⟩⟩

/-- What one generation does. -/
theorem one_generation {e : Ext} {Mem level : ℕ} {b b1 : Buffer F32} {old blob : Bytes} (hw : CodecsWork e truncBits) (hM : Room e Mem) (hb : WellFormed b)
    (hf : FitsFormat b) (hc : Compressible b) (hm : FitsMemory b Mem) (h1 : serialize e b old level = .ok (true, blob)) (h2 : blob.length ≤ Mem)
    (h3 : parse e blob = .ok (some b1)) :
    (level = 0 → b1 = b) ∧ (1 ≤ level → b1.params = b.params ∧
      List.Forall₂ (List.Forall₂ (MappedNonzeros (truncBits (33 - min 31 level)))) b.decs b1.decs) := by
  constructor
  · rintro rfl
    obtain ⟨blob', k1, k2⟩ := C27_uncompressed_round_trip e Mem b old hb hf hM hm
    rw [h1] at k1
    cases k1
    rw [k2 h2] at h3
    cases h3
    rfl
  · intro hl
    obtain ⟨blob', d', k1, k2, k3⟩ := C28_compressed_round_trip e truncBits Mem level b old hb hf hw hc hM hm hl
    rw [h1] at k1
    cases k1
    rw [k2 h2] at h3
    cases h3
    exact ⟨rfl, k3⟩

theorem one_cut {e : Ext} {Mem level : ℕ} {b b1 : Buffer F32} {old blob : Bytes} (hw : CodecsWork e truncBits) (hM : Room e Mem) (hb : WellFormed b)
    (hf : FitsFormat b) (hc : Compressible b) (hm : FitsMemory b Mem) (h1 : serialize e b old level = .ok (true, blob)) (h2 : blob.length ≤ Mem)
    (h3 : parse e blob = .ok (some b1)) : CutTo (33 - min 31 level) b b1 := by
  obtain ⟨k0, k1⟩ := one_generation hw hM hb hf hc hm h1 h2 h3
  rcases Nat.eq_zero_or_pos level with hl | hl
  · rw [k0 hl, hl]
    exact cutTo_self (by norm_num) b
  · refine ⟨(k1 hl).1, (k1 hl).2.imp fun _ _ g => g.imp fun m m' g => ⟨g.1, g.2.1, fun i hi j hj => ?_⟩⟩
    rw [g.2.2 i hi j hj]
    exact stored_same (by omega) _

/-- What a compressed archive makes of a value. -/
def storedBits (p : ℕ) (x : F32) : F32 := if isZeroPattern x then 0 else truncBits p x

theorem storedBits_settles (p : ℕ) (x : F32) : storedBits p (storedBits p (storedBits p x)) = storedBits p (storedBits p x) := by
  have h0 : storedBits p 0 = 0 := if_pos rfl
  by_cases h : isZeroPattern x = true
  · rw [show storedBits p x = 0 from if_pos h, h0, h0]
  · rw [show storedBits p x = truncBits p x from if_neg h]
    by_cases g : isZeroPattern (truncBits p x) = true
    · rw [show storedBits p (truncBits p x) = 0 from if_pos g, h0]
    · rw [show storedBits p (truncBits p x) = truncBits p x by unfold storedBits; rw [if_neg g, truncBits_twice, min_self]]
      unfold storedBits
      rw [if_neg g, truncBits_twice, min_self]

theorem storedBits_one (x : F32) : storedBits (33 - min 31 1) (storedBits (33 - min 31 1) x) = storedBits (33 - min 31 1) x := by
  have h0 : storedBits (33 - min 31 1) 0 = 0 := if_pos rfl
  by_cases h : isZeroPattern x = true
  · rw [show storedBits (33 - min 31 1) x = 0 from if_pos h, h0]
  · have e : storedBits (33 - min 31 1) x = x := by
      unfold storedBits
      rw [if_neg h, truncBits_all (by norm_num)]
    rw [e, e]

theorem mapped_eq {p : ℕ} {d d' : Decs F32} (h : List.Forall₂ (List.Forall₂ (MappedNonzeros (truncBits p))) d d') :
    d' = d.map fun c => c.map fun m => m.map (storedBits p) := by
  have hm : ∀ {m m' : Mat F32}, MappedNonzeros (truncBits p) m m' → m' = m.map (storedBits p) := by
    intro m m' h
    refine Mat.ext' h.1 h.2.1 fun i hi j hj => ?_
    rw [Mat.get_map _ _ (by rw [← h.1]; exact hi) (by rw [← h.2.1]; exact hj), h.2.2 i (by rw [← h.1]; exact hi) j (by rw [← h.2.1]; exact hj)]
    rfl
  have hc : ∀ {c c' : Channel F32}, List.Forall₂ (MappedNonzeros (truncBits p)) c c' → c' = c.map fun m => m.map (storedBits p) := by
    intro c c' h
    induction h with
    | nil => rfl
    | cons a _ ih => rw [List.map_cons, ← ih, ← hm a]
  induction h with
  | nil => rfl
  | cons a _ ih => rw [List.map_cons, ← ih, ← hc a]

theorem map_deep (f g : F32 → F32) (d : Decs F32) :
    ((d.map fun c => c.map fun m => m.map f).map fun c => c.map fun m => m.map g) = d.map fun c => c.map fun m => m.map fun x => g (f x) := by
  simp only [List.map_map]
  refine List.map_congr_left fun c _ => ?_
  simp only [Function.comp_apply, List.map_map]
  refine List.map_congr_left fun m _ => ?_
  refine Mat.ext' rfl rfl fun i hi j hj => ?_
  have hi : i < m.rows := hi
  have hj : j < m.cols := hj
  simp only [Function.comp_apply]
  rw [Mat.get_map _ _ (by exact hi) (by exact hj), Mat.get_map _ _ hi hj, Mat.get_map _ _ hi hj]

theorem map_deep_congr {f g : F32 → F32} (h : ∀ x, f x = g x) {d : Decs F32} :
    (d.map fun c => c.map fun m => m.map f) = d.map fun c => c.map fun m => m.map g := by
  rw [show f = g from funext h]

theorem buffer_eq {a b : Buffer F32} (h1 : a.params = b.params) (h2 : a.decs = b.decs) : a = b := by
  cases a; cases b; cases h1; cases h2; rfl

end WB.Props
