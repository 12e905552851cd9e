import Verif.Proof.Untrusted
import Verif.Proof.Damage
import Verif.Spec.Rewrite

/-!
Helper lemmas for C127: what can be said of everything a reader may return.
-/

namespace WB

open WB.Spec

/-- Everything the reader returns satisfies `P`. -/
def Yields {β : Type} (r : Rd β) (P : β → Prop) : Prop := ∀ s x t, r s = .ok (x, t) → P x

theorem Yields.bind {β γ : Type} {r : Rd β} {f : β → Rd γ} {P : β → Prop} {Q : γ → Prop} (hr : Yields r P)
    (hf : ∀ x, P x → Yields (f x) Q) : Yields (Rd.bind r f) Q := fun s y t h => by
  obtain ⟨a, t1, h1, h2⟩ := rdBind_eq_ok h
  exact hf a (hr _ _ _ h1) _ _ _ h2

theorem Yields.any {β γ : Type} {r : Rd β} {f : β → Rd γ} {Q : γ → Prop} (hf : ∀ x, Yields (f x) Q) :
    Yields (Rd.bind r f) Q := Yields.bind (P := fun _ => True) (fun _ _ _ _ => trivial) fun x _ => hf x

theorem Yields.pure {β : Type} {x : β} {P : β → Prop} (h : P x) : Yields (Rd.pure x) P := fun s y t hy => by
  cases hy; exact h

theorem Yields.lift {β : Type} {o : Outcome β} {P : β → Prop} (h : ∀ x, o = .ok x → P x) : Yields (Rd.lift o) P :=
  fun _ _ _ hy => h _ (rdLift_eq_ok hy).1

theorem Yields.many {β : Type} {r : Rd β} {P : β → Prop} (h : Yields r P) : ∀ n, Yields (rdMany r n) fun xs => ∀ x ∈ xs, P x
  | 0 => .pure (by simp)
  | n + 1 => .bind h fun x hx => .bind (Yields.many h n) fun xs hxs => .pure (by
      intro y hy
      rcases List.mem_cons.1 hy with rfl | hy
      · exact hx
      · exact hxs y hy)

theorem yields_field (n : ℕ) : Yields (rdField n) (· < 256 ^ n) := fun s x t h => by
  unfold rdField at h
  split at h
  · cases h
  · rename_i hl
    cases h
    exact fromLE_lt hl

theorem yields_checked (n : ℕ) : Yields (rdChecked n) (· < 256 ^ n) := fun s x t h => by
  unfold rdChecked at h
  split at h
  · cases h
  · rename_i hl
    cases h
    exact fromLE_lt hl

theorem pow256 : (256 : ℕ) ^ 8 = 2 ^ 64 := by norm_num

/-- Sides of 64 bits. -/
def Sides (m : Mat F32) : Prop := m.rows < 2 ^ 64 ∧ m.cols < 2 ^ 64

theorem yields_mat {e : Ext} (he : SidesInRange e) : Yields (rdMat e) Sides := by
  unfold rdMat
  refine .any fun _ => .any fun _ => .any fun _ => .any fun _ => .bind (yields_checked 8) fun r hr =>
    .bind (yields_checked 8) fun c hc => .any fun n => ?_
  rw [pow256] at hr hc
  split
  · exact .lift fun x h => by cases h
  · refine .any fun _ => ?_
    split
    · exact .any fun xs => .pure ⟨hr, hc⟩
    · exact fun s x t h => he.mat _ _ _ _ _ _ _ h

theorem yields_vector {β : Type} {e : Ext} {et es : ℕ} {el : Rd β} {other : ℕ → ℕ → ℕ → Bytes → Outcome (List β × Bytes)}
    {P : β → Prop} (h : Yields el P) (ho : ∀ t k n s xs w, other t k n s = .ok (xs, w) → ∀ x ∈ xs, P x) :
    Yields (rdVector e et es el other) fun xs => ∀ x ∈ xs, P x := by
  unfold rdVector
  refine .any fun _ => .any fun _ => .any fun _ => .any fun _ => .any fun k => .any fun n => ?_
  split
  · exact .lift fun x h => by cases h
  · refine .any fun _ => ?_
    split
    · exact h.many k
    · exact fun s x t h => ho _ _ _ _ _ _ h

theorem yields_decs {e : Ext} (he : SidesInRange e) : Yields (rdDecs e) fun d => ∀ c ∈ d, ∀ m ∈ c, Sides m :=
  yields_vector (yields_vector (yields_mat he) he.channel) he.channels

theorem putEntry_sides {m m' : Mat F32} {x : ℕ × F32} (h : putEntry m x = .ok m') : m'.rows = m.rows ∧ m'.cols = m.cols := by
  unfold putEntry at h
  split_ifs at h
  cases h
  exact ⟨rfl, rfl⟩

theorem fold_putEntry_sides : ∀ {L : List (ℕ × F32)} {m m' : Mat F32}, L.foldlM putEntry m = .ok m' →
    m'.rows = m.rows ∧ m'.cols = m.cols
  | [], m, m', h => by cases h; exact ⟨rfl, rfl⟩
  | x :: L, m, m', h => by
    rw [List.foldlM_cons] at h
    obtain ⟨m1, h1, h2⟩ := bind_eq_ok h
    have a := putEntry_sides h1
    have b := fold_putEntry_sides h2
    exact ⟨b.1.trans a.1, b.2.trans a.2⟩

theorem yields_subband {e : Ext} (he : SidesInRange e) (sf : ℕ) : Yields (rdSubband e sf) Sides := by
  unfold rdSubband
  split
  · exact yields_mat he
  · refine .any fun n => .bind (yields_checked 8) fun r hr => .bind (yields_checked 8) fun c hc => .any fun is =>
      .any fun vs => .lift fun m h => ?_
    rw [pow256] at hr hc
    obtain ⟨h1, h2⟩ := decompress_sides h
    exact ⟨h1 ▸ hr, h2 ▸ hc⟩

theorem yields_layout {r : Rd (Mat F32)} {P : Mat F32 → Prop} (h : Yields r P) : ∀ L, Yields (rdLayout r L) fun d => ∀ c ∈ d, ∀ m ∈ c, P m
  | [] => .pure (by simp)
  | c :: L => .bind (h.many c.length) fun x hx => .bind (yields_layout h L) fun xs hxs => .pure (by
      intro y hy
      rcases List.mem_cons.1 hy with rfl | hy
      · exact hx
      · exact hxs y hy)

/-! ### The old compressed format -/

namespace Sf

theorem u32_lt (n : ℕ) : u32 n < 2 ^ 32 := by unfold u32; omega

theorem sub32_lt (a b : ℕ) : sub32 a b < 2 ^ 32 := by unfold sub32; omega

/-- Everything read from the bit stream satisfies `P`. -/
def Gives {β : Type} (g : Get β) (P : β → Prop) : Prop := ∀ s x t, g s = .ok (x, t) → P x

theorem Gives.bind {β γ : Type} {g : Get β} {f : β → Get γ} {P : β → Prop} {Q : γ → Prop} (hg : Gives g P)
    (hf : ∀ x, P x → Gives (f x) Q) : Gives (Get.bind g f) Q := fun s y t h => by
  obtain ⟨⟨a, t1⟩, h1, h2⟩ := bind_eq_ok h
  exact hf a (hg _ _ _ h1) _ _ _ h2

theorem Gives.any {β γ : Type} {g : Get β} {f : β → Get γ} {Q : γ → Prop} (hf : ∀ x, Gives (f x) Q) :
    Gives (Get.bind g f) Q := Gives.bind (P := fun _ => True) (fun _ _ _ _ => trivial) fun x _ => hf x

theorem Gives.pure {β : Type} {x : β} {P : β → Prop} (h : P x) : Gives (Get.pure x) P := fun s y t hy => by
  cases hy; exact h

theorem Gives.lift_ub {β : Type} {P : β → Prop} : Gives (Get.lift .ub) P := fun s y t hy => by cases hy

theorem getLoop_lt : ∀ {l : Bytes} {free rest acc : ℕ} {x : ℕ} {t : BitIn}, getLoop l free rest acc = .ok (x, t) → x < 2 ^ 32
  | [], _, _, _, _, _, h => by cases h
  | b :: bs, free, rest, acc, x, t, h => by
    unfold getLoop at h
    split_ifs at h
    · exact getLoop_lt h
    · cases h; exact u32_lt _
    · exact getLoop_lt h

theorem gives_bits (n : ℕ) : Gives (fromBits n) (· < 2 ^ 32) := fun s x t h => by
  unfold fromBits at h
  split at h
  · cases h; norm_num
  · exact getLoop_lt h

theorem gives_nine (n : ℕ) : Gives (nineOfSeven n) (· < 2 ^ 32) := by
  unfold nineOfSeven
  dsimp only
  split_ifs
  · exact gives_bits _
  · refine .any fun v => ?_
    split_ifs
    · exact .pure (by norm_num)
    · exact .lift_ub
  · refine .any fun v => ?_
    split_ifs
    · exact .pure (by norm_num)
    · refine .any fun w => ?_
      split_ifs
      · exact .pure (sub32_lt _ _)
      · exact .any fun w => .pure (u32_lt _)

theorem gives_body (cap : ℕ) (p : Pools) : Gives (readBody cap p) fun r => r.1.rows < 2 ^ 32 ∧ r.1.cols < 2 ^ 32 := by
  unfold readBody
  refine .any fun _ => .any fun _ => .any fun _ => .bind (gives_nine _) fun row hr => .bind (gives_nine _) fun col hc =>
    .any fun _ => .any fun n => .any fun _ => .any fun _ => ?_
  split
  · exact .lift_ub
  · exact .any fun _ => .any fun _ => .any fun _ => .any fun r => .pure ⟨hr, hc⟩

theorem legacySubband_sides {alloc : ℕ → ℕ → Outcome Unit} {p : Params} {s : ℕ} {v : Bytes} {m : Mat F32}
    (h : legacySubband alloc p s v = .ok (some m)) : Sides m := by
  unfold legacySubband at h
  split at h
  · cases h
  · obtain ⟨_, _, h⟩ := bind_eq_ok h
    obtain ⟨⟨o, q⟩, h1, h⟩ := bind_eq_ok h
    dsimp only at h
    cases o with
    | none => cases h
    | some o =>
      obtain ⟨_, _, h⟩ := bind_eq_ok h
      obtain ⟨m', h2, h⟩ := bind_eq_ok h
      cases h
      unfold decompress at h1
      split at h1
      · cases h1
      · obtain ⟨⟨x, t⟩, _, h1⟩ := bind_eq_ok h1
        dsimp only at h1
        split at h1
        · obtain ⟨⟨r, w⟩, h3, h1⟩ := bind_eq_ok h1
          cases h1
          have := gives_body _ _ _ _ _ h3
          obtain ⟨ha, hb⟩ := fold_putEntry_sides h2
          have ha' : m.rows = r.1.rows := ha
          have hb' : m.cols = r.1.cols := hb
          exact ⟨by rw [ha']; have := this.1; omega, by rw [hb']; have := this.2; omega⟩
        · cases h1

end Sf

theorem yields_legacyChannel {e : Ext} {p : Params} {P : Mat F32 → Prop} (h : ∀ s v m, e.legacySubband p s v = .ok (some m) → P m) :
    ∀ n s, Yields (rdLegacyChannel e p s n) fun c => ∀ x, c = some x → ∀ m ∈ x, P m
  | 0, s => .pure (by rintro x ⟨⟩; simp)
  | n + 1, s => by
    unfold rdLegacyChannel
    refine .bind (P := fun o => ∀ m, o = some m → P m) ?_ fun x hx => ?_
    · exact .any fun v => .lift fun o ho m hm => h s v m (hm ▸ ho)
    · cases x with
      | none => exact .pure (by rintro x ⟨⟩)
      | some m => exact .bind (yields_legacyChannel h n (s + 1)) fun xs hxs => .pure (by
          intro y hy
          cases xs with
          | none => cases hy
          | some xs =>
            cases hy
            intro z hz
            rcases List.mem_cons.1 hz with rfl | hz
            · exact hx _ rfl
            · exact hxs _ rfl z hz)

theorem yields_legacyDecs {e : Ext} {p : Params} {P : Mat F32 → Prop} (h : ∀ s v m, e.legacySubband p s v = .ok (some m) → P m) :
    ∀ L, Yields (rdLegacyDecs e p L) fun d => ∀ x, d = some x → ∀ c ∈ x, ∀ m ∈ c, P m
  | [] => .pure (by rintro x ⟨⟩; simp)
  | c :: L => by
    unfold rdLegacyDecs
    refine .bind (yields_legacyChannel h c.length 0) fun x hx => ?_
    cases x with
    | none => exact .pure (by rintro x ⟨⟩)
    | some c' => exact .bind (yields_legacyDecs h L) fun xs hxs => .pure (by
          intro y hy
          cases xs with
          | none => cases hy
          | some xs =>
            cases hy
            intro z hz
            rcases List.mem_cons.1 hz with rfl | hz
            · exact hx _ rfl
            · exact hxs _ rfl z hz)

/-! ### The whole archive -/

/-- What the head says fits the head. -/
def HeadFits (p : Params) : Prop := (∀ n ∈ p.shape, n < 2 ^ 64) ∧ p.signalNumber < 2 ^ 64 ∧ p.wtype < 8

theorem yields_params (e : Ext) : Yields (rdParams e) HeadFits := by
  unfold rdParams
  refine .any fun dim => .any fun _ => .bind ((yields_field 8).many dim) fun shape hs => .bind (yields_field 8) fun ch hc =>
    .any fun st => .any fun t => ?_
  rw [pow256] at hc
  split
  · exact .lift fun x h => by cases h
  · rename_i ht
    exact .pure ⟨fun n hn => by rw [← pow256]; exact hs n hn, hc, by simpa using ht⟩

theorem yields_header (e : Ext) : Yields (rdHeader e) fun h => HeadFits h.1.params := by
  unfold rdHeader
  refine .any fun _ => .bind (yields_params e) fun p hp => .any fun sf => .bind (P := fun b => HeadFits b.params)
    (.lift fun b hb => ?_) fun b hb => .pure hb
  obtain ⟨_, rfl⟩ := newBuffer_eq_ok hb
  exact hp

theorem fits_of_head {b : Buffer F32} (h : HeadFits b.params) (hd : ∀ c ∈ b.decs, ∀ m ∈ c, Sides m) : FitsFormat b :=
  ⟨h.1, h.2.1, h.2.2, hd⟩

theorem yields_useLevel {β : Type} {f : ℕ → Rd β} {P : β → Prop} (h : ∀ n, Yields (f n) P) (l : Option ℕ) :
    Yields (useLevel l f) P := by
  cases l with
  | none => exact fun s x t h => by cases h
  | some n => exact h n

theorem parseV3_fits {e : Ext} (he : SidesInRange e) {s : Bytes} {b : Buffer F32} (h : parseV3 e s = .ok (some b)) :
    FitsFormat b := by
  obtain ⟨t, h⟩ := caught_eq_some h
  have key : Yields (Rd.bind (rdHeader e) fun h =>
      Rd.bind (rdLayout (useLevel h.2 (rdSubband e)) h.1.decs) fun d =>
      Rd.pure (some { h.1 with decs := d })) fun o => ∀ b, o = some b → FitsFormat b := by
    refine .bind (yields_header e) fun h hh => .bind (yields_layout (yields_useLevel (yields_subband he) h.2) h.1.decs) fun d hd =>
      .pure ?_
    rintro b ⟨⟩
    exact fits_of_head hh hd
  exact key _ _ _ h b rfl

theorem parseV2_fits {e : Ext} (he : SidesInRange e) (hl : e.legacySubband = Sf.legacySubband e.alloc) {s : Bytes}
    {b : Buffer F32} (h : parseV2 e s = .ok (some b)) : FitsFormat b := by
  obtain ⟨t, h⟩ := caught_eq_some h
  have key : Yields (Rd.bind (rdHeader e) fun h =>
    useLevel h.2 fun sf =>
      if sf ≠ 0 then
        Rd.bind (rdLegacyDecs e h.1.params h.1.decs) fun d => Rd.pure (d.map fun d => { h.1 with decs := d })
      else
        Rd.bind (rdDecs e) fun d => Rd.pure (some { h.1 with decs := d })) fun o => ∀ b, o = some b → FitsFormat b := by
    refine .bind (yields_header e) fun h hh => yields_useLevel (fun sf => ?_) h.2
    split
    · refine .bind (yields_legacyDecs (P := Sides) (fun s v m hm => ?_) h.1.decs) fun d hd => .pure ?_
      · rw [hl] at hm
        exact Sf.legacySubband_sides hm
      · intro b hb
        cases d with
        | none => cases hb
        | some d =>
          cases hb
          exact fits_of_head hh (hd d rfl)
    · refine .bind (yields_decs he) fun d hd => .pure ?_
      rintro b ⟨⟩
      exact fits_of_head hh hd
  exact key _ _ _ h b rfl

theorem parse_fits {e : Ext} (he : SidesInRange e) (hl : e.legacySubband = Sf.legacySubband e.alloc) {s : Bytes}
    {b : Buffer F32} (h : parse e s = .ok (some b)) : FitsFormat b := by
  unfold parse at h
  split at h
  · cases h
  · split at h
    · exact parseV3_fits he h
    · split at h
      · exact parseV2_fits he hl h
      · cases h

end WB
