import Verif.Spec.Untrusted
import Verif.Proof.Parse
import Verif.Proof.SfParse

/-!
Helper lemmas: readers that are never undefined, readers that leave a rest of their input, and where an undefined step in
the body of a blob comes from.
-/

namespace WB

open WB.Spec

/-! ### Readers that are never undefined -/

/-- A reader that is never undefined. -/
def Harmless {β : Type} (r : Rd β) : Prop := ∀ s, r s ≠ .ub

theorem Harmless.bind {β γ : Type} {r : Rd β} {f : β → Rd γ} (hr : Harmless r) (hf : ∀ x, Harmless (f x)) :
    Harmless (Rd.bind r f) := by
  intro s h
  unfold Rd.bind at h
  cases hrs : r s with
  | ok x => rw [hrs, Outcome.bind_ok] at h; exact hf _ _ h
  | throw => rw [hrs] at h; cases h
  | ub => exact hr s hrs

theorem Harmless.pure {β : Type} (x : β) : Harmless (Rd.pure x) := fun _ h => by cases h

theorem Harmless.lift {β : Type} {o : Outcome β} (h : o ≠ .ub) : Harmless (Rd.lift o) := by
  intro s hs
  cases o with
  | ok x => cases hs
  | throw => cases hs
  | ub => exact h rfl

theorem harmless_checked (n : ℕ) : Harmless (rdChecked n) := by
  intro s h
  unfold rdChecked at h
  split at h <;> cases h

theorem harmless_byte : Harmless rdByte := by
  intro s h
  unfold rdByte at h
  split at h <;> cases h

theorem Harmless.many {β : Type} {r : Rd β} (h : Harmless r) : ∀ n, Harmless (rdMany r n)
  | 0 => .pure _
  | n + 1 => .bind h fun _ => .bind (Harmless.many h n) fun _ => .pure _

theorem Harmless.layout {r : Rd (Mat F32)} (h : Harmless r) : ∀ L, Harmless (rdLayout r L)
  | [] => .pure _
  | _ :: L => .bind (h.many _) fun _ => .bind (Harmless.layout h L) fun _ => .pure _

theorem Harmless.vector {β : Type} {e : Ext} (he : ∀ r c, e.alloc r c ≠ .ub) {et es : ℕ} {r : Rd β} (h : Harmless r)
    {other : ℕ → ℕ → ℕ → Bytes → Outcome (List β × Bytes)} (ho : ∀ t k n s, other t k n s ≠ .ub) :
    Harmless (rdVector e et es r other) := by
  unfold rdVector
  refine .bind (harmless_checked _) fun _ => .bind (harmless_checked _) fun _ => .bind (harmless_checked _) fun _ =>
    .bind (harmless_checked _) fun _ => .bind (harmless_checked _) fun _ => .bind (harmless_checked _) fun _ => ?_
  split
  · exact .lift (by simp)
  · refine .bind (.lift (he _ _)) fun _ => ?_
    split
    · exact h.many _
    · exact fun s => ho _ _ _ s

theorem harmless_bytes {e : Ext} (he : SafeLibrary e) : Harmless (rdBytes e) :=
  .vector he.alloc harmless_byte he.bytes

theorem harmless_mat {e : Ext} (he : SafeLibrary e) : Harmless (rdMat e) := by
  unfold rdMat
  refine .bind (harmless_checked _) fun _ => .bind (harmless_checked _) fun _ => .bind (harmless_checked _) fun _ =>
    .bind (harmless_checked _) fun _ => .bind (harmless_checked _) fun _ => .bind (harmless_checked _) fun _ =>
    .bind (harmless_checked _) fun _ => ?_
  split
  · exact .lift (by simp)
  · refine .bind (.lift (he.alloc _ _)) fun _ => ?_
    split
    · exact .bind ((harmless_checked _).many _) fun _ => .pure _
    · exact fun s => he.mat _ _ _ _ s

theorem harmless_decs {e : Ext} (he : SafeLibrary e) : Harmless (rdDecs e) :=
  .vector he.alloc (.vector he.alloc (harmless_mat he) he.channel) he.channels

/-! ### Readers that leave a rest of their input -/

/-- What such a reader leaves is a rest of its input. -/
def Leaves {β : Type} (r : Rd β) : Prop := ∀ s x t, r s = .ok (x, t) → t <:+ s

theorem Leaves.bind {β γ : Type} {r : Rd β} {f : β → Rd γ} (hr : Leaves r) (hf : ∀ x, Leaves (f x)) :
    Leaves (Rd.bind r f) := by
  intro s y t h
  obtain ⟨x, w, h1, h2⟩ := rdBind_eq_ok h
  exact (hf x w y t h2).trans (hr s x w h1)

theorem Leaves.pure {β : Type} (x : β) : Leaves (Rd.pure x) := fun s y t h => by
  obtain ⟨_, rfl⟩ := rdPure_eq_ok h
  exact List.suffix_refl _

theorem Leaves.lift {β : Type} (o : Outcome β) : Leaves (Rd.lift o) := fun s y t h => by
  obtain ⟨_, rfl⟩ := rdLift_eq_ok h
  exact List.suffix_refl _

theorem leaves_checked (n : ℕ) : Leaves (rdChecked n) := by
  intro s x t h
  unfold rdChecked at h
  split at h
  · cases h
  · cases h; exact List.drop_suffix _ _

theorem leaves_byte : Leaves rdByte := by
  intro s x t h
  unfold rdByte at h
  split at h
  · cases h
  · cases h; exact List.suffix_cons _ _

theorem Leaves.many {β : Type} {r : Rd β} (h : Leaves r) : ∀ n, Leaves (rdMany r n)
  | 0 => .pure _
  | n + 1 => .bind h fun _ => .bind (Leaves.many h n) fun _ => .pure _

theorem Leaves.vector {β : Type} {e : Ext} {et es : ℕ} {r : Rd β} (h : Leaves r)
    {other : ℕ → ℕ → ℕ → Bytes → Outcome (List β × Bytes)}
    (ho : ∀ t k n s x w, other t k n s = .ok (x, w) → w <:+ s) : Leaves (rdVector e et es r other) := by
  unfold rdVector
  refine .bind (leaves_checked _) fun _ => .bind (leaves_checked _) fun _ => .bind (leaves_checked _) fun _ =>
    .bind (leaves_checked _) fun _ => .bind (leaves_checked _) fun _ => .bind (leaves_checked _) fun _ => ?_
  split
  · exact .lift _
  · refine .bind (.lift _) fun _ => ?_
    split
    · exact h.many _
    · exact fun s => ho _ _ _ s

theorem leaves_bytes {e : Ext} (he : SafeLibrary e) : Leaves (rdBytes e) := .vector leaves_byte he.bytesRest

theorem leaves_record {e : Ext} (he : SafeLibrary e) {sf : ℕ} (hsf : sf ≠ 0) : Leaves (rdSubband e sf) := by
  unfold rdSubband
  rw [if_neg hsf]
  exact .bind (leaves_checked _) fun _ => .bind (leaves_checked _) fun _ => .bind (leaves_checked _) fun _ =>
    .bind (leaves_bytes he) fun _ => .bind (leaves_bytes he) fun _ => .lift _

/-! ### Where an undefined step comes from -/

theorem rdBind_eq_ub {β γ : Type} {r : Rd β} {f : β → Rd γ} {s : Bytes} (h : Rd.bind r f s = .ub) :
    r s = .ub ∨ ∃ x t, r s = .ok (x, t) ∧ f x t = .ub := by
  unfold Rd.bind at h
  cases hr : r s with
  | ok x => rw [hr, Outcome.bind_ok] at h; exact .inr ⟨x.1, x.2, rfl, h⟩
  | throw => rw [hr] at h; cases h
  | ub => exact .inl rfl

theorem rdLift_eq_ub {β : Type} {o : Outcome β} {s : Bytes} (h : Rd.lift o s = .ub) : o = .ub := by
  cases o with
  | ok x => cases h
  | throw => cases h
  | ub => rfl

theorem bind_eq_ub {β γ : Type} {x : Outcome β} {f : β → Outcome γ} (h : (x >>= f) = .ub) :
    x = .ub ∨ ∃ a, x = .ok a ∧ f a = .ub := by
  cases x with
  | ok a => exact .inr ⟨a, rfl, h⟩
  | throw => cases h
  | ub => exact .inl rfl

theorem rdMany_eq_ub {β : Type} {r : Rd β} (hl : Leaves r) : ∀ {n : ℕ} {s : Bytes}, rdMany r n s = .ub →
    ∃ t, t <:+ s ∧ r t = .ub
  | 0, s, h => by cases h
  | n + 1, s, h => by
    rcases rdBind_eq_ub h with h | ⟨x, t, h1, h2⟩
    · exact ⟨s, List.suffix_refl _, h⟩
    · rcases rdBind_eq_ub h2 with h | ⟨y, w, _, h3⟩
      · obtain ⟨w, hw, h3⟩ := rdMany_eq_ub hl h
        exact ⟨w, hw.trans (hl _ _ _ h1), h3⟩
      · cases h3

theorem rdLayout_eq_ub {r : Rd (Mat F32)} (hl : Leaves r) : ∀ {L : Decs F32} {s : Bytes}, rdLayout r L s = .ub →
    ∃ t, t <:+ s ∧ r t = .ub
  | [], s, h => by cases h
  | c :: L, s, h => by
    rcases rdBind_eq_ub h with h | ⟨x, t, h1, h2⟩
    · exact rdMany_eq_ub hl h
    · rcases rdBind_eq_ub h2 with h | ⟨y, w, _, h3⟩
      · obtain ⟨w, hw, h3⟩ := rdLayout_eq_ub hl h
        exact ⟨w, hw.trans (hl.many _ _ _ _ h1), h3⟩
      · cases h3

/-- Positions inside the subband with a value for each are put without an undefined step. -/
theorem fromCSR_ne_ub {e : Ext} (he : ∀ r c, e.alloc r c ≠ .ub) {rows cols : ℕ} {is : List ℕ} {vs : List F32}
    (hl : is.length ≤ vs.length) (hi : ∀ i ∈ is, i < rows * cols) : fromCSR e rows cols is vs ≠ .ub := by
  intro h
  unfold fromCSR at h
  rcases bind_eq_ub h with h | ⟨_, _, h⟩
  · exact he _ _ h
  · by_cases hn : is = []
    · subst hn; cases h
    · have hc : 0 < cols := by
        obtain ⟨i, hmem⟩ := List.exists_mem_of_ne_nil _ hn
        exact Nat.pos_of_mul_pos_left (lt_of_le_of_lt (Nat.zero_le _) (hi i hmem))
      have hz : (is.zip vs).length = is.length := by simp [hl]
      rw [← hz, foldlM_range_rd putEntry] at h
      · obtain ⟨m', h1, _⟩ := fold_put hc (is.zip vs) (Mat.ofFn rows cols fun _ _ => 0) rfl rfl
          (fun x hx => hi _ (List.of_mem_zip hx).1)
        rw [h1] at h
        cases h
      · intro n hn s
        have h1 : n < is.length := by omega
        have h2 : n < vs.length := by omega
        simp [rd, h1, h2]

theorem fromLE_lt_pow : ∀ s : Bytes, fromLE s < 256 ^ s.length
  | [] => by simp [fromLE]
  | b :: s => by
    have h1 := fromLE_lt_pow s
    have h2 := b.toNat_lt
    rw [fromLE, List.length_cons, pow_succ]
    omega

theorem fromLE_lt {n : ℕ} {s : Bytes} (h : ¬ s.length < n) : fromLE (s.take n) < 256 ^ n := by
  have := fromLE_lt_pow (s.take n)
  rwa [List.length_take, Nat.min_eq_left (by omega)] at this

theorem record_eq_ub {e : Ext} (he : SafeLibrary e) {sf : ℕ} (hsf : sf ≠ 0) {s : Bytes} (h : rdSubband e sf s = .ub) :
    ∃ stored rows cols is vs, stored < 2 ^ 64 ∧ rows < 2 ^ 64 ∧ cols < 2 ^ 64 ∧ recordHead stored rows cols <+: s ∧
      BadRecord e stored rows cols is vs := by
  unfold rdSubband at h
  rw [if_neg hsf] at h
  have key : ∀ {n : ℕ} {s t : Bytes} {x : ℕ}, rdChecked n s = .ok (x, t) → s = le n x ++ t ∧ x < 256 ^ n := by
    intro n s t x h
    unfold rdChecked at h
    split at h
    · cases h
    · rename_i hn
      refine ⟨rdField_eq_ok (by unfold rdField; rw [if_neg hn]; exact h), ?_⟩
      cases h
      exact fromLE_lt hn
  rcases rdBind_eq_ub h with h | ⟨stored, s1, h1, h⟩
  · exact absurd h (harmless_checked _ _)
  rcases rdBind_eq_ub h with h | ⟨rows, s2, h2, h⟩
  · exact absurd h (harmless_checked _ _)
  rcases rdBind_eq_ub h with h | ⟨cols, s3, h3, h⟩
  · exact absurd h (harmless_checked _ _)
  rcases rdBind_eq_ub h with h | ⟨is, s4, h4, h⟩
  · exact absurd h (harmless_bytes he _)
  rcases rdBind_eq_ub h with h | ⟨vs, s5, h5, h⟩
  · exact absurd h (harmless_bytes he _)
  obtain ⟨h1, b1⟩ := key h1
  obtain ⟨h2, b2⟩ := key h2
  obtain ⟨h3, b3⟩ := key h3
  refine ⟨stored, rows, cols, is, vs, by norm_num at b1 ⊢; omega, by norm_num at b2 ⊢; omega,
    by norm_num at b3 ⊢; omega, ⟨s3, ?_⟩, ?_⟩
  · rw [h1, h2, h3]; simp [recordHead, littleEndian_eq]
  · have h := rdLift_eq_ub h
    unfold decompress at h
    rcases bind_eq_ub h with h | ⟨_, _, h⟩
    · exact absurd h (he.alloc _ _)
    rcases bind_eq_ub h with h | ⟨ps, hp, h⟩
    · exact .inl h
    rcases bind_eq_ub h with h | ⟨xs, hx, h⟩
    · exact .inr (.inl h)
    refine .inr (.inr ⟨ps, xs, hp, hx, ?_⟩)
    by_contra hcon
    push Not at hcon
    exact fromCSR_ne_ub he.alloc hcon.1 hcon.2 h

/-! ### The header -/

theorem fits256 {n : ℕ} (h : n < 2 ^ 64) : n < 256 ^ 8 := by norm_num at h ⊢; omega

theorem start_of_fits {e : Ext} {v : UInt8} {p : Params} (hp : FitsFields p) (w : Bytes) :
    rdStart e (startBytes v p ++ w) =
      (e.alloc 1 p.shape.length >>= fun _ => if 8 ≤ p.wtype then .ub else .ok (p, w)) := by
  have hone : Reads true (rdField 1) [v] v.toNat := by
    have h : Reads true (rdField 1) (le 1 v.toNat) v.toNat :=
      reads_field (n := 1) (by have := v.toNat_lt; simpa using this)
    refine h.of_eq rfl ?_ rfl
    simp [le]
  have hm : Reads true (rdMany (rdField 8) p.shape.length) (p.shape.flatMap (le 8)) p.shape :=
    reads_many (fun x hx => reads_field (fits256 (hp.sides x hx)))
  have e1 : startBytes v p ++ w = [v] ++ (le 8 p.shape.length ++ (p.shape.flatMap (le 8) ++ (le 8 p.signalNumber ++
    (le 8 p.steps ++ (le 4 p.wtype ++ w))))) := by simp [startBytes, serParams]
  rw [e1]
  unfold rdStart rdParams
  show (rdField 1 _ >>= _) = _
  rw [hone.full, Outcome.bind_ok]
  show (rdField 8 _ >>= _) = _
  rw [(reads_field (fits256 hp.dimension)).full, Outcome.bind_ok]
  show ((e.alloc 1 p.shape.length >>= _) >>= _) = _
  cases e.alloc 1 p.shape.length with
  | throw => rfl
  | ub => rfl
  | ok _ =>
    rw [Outcome.bind_ok, Outcome.bind_ok, Outcome.bind_ok]
    show (rdMany (rdField 8) p.shape.length _ >>= _) = _
    rw [hm.full, Outcome.bind_ok]
    show (rdField 8 _ >>= _) = _
    rw [(reads_field (fits256 hp.channels)).full, Outcome.bind_ok]
    show (rdField 8 _ >>= _) = _
    rw [(reads_field (fits256 hp.steps)).full, Outcome.bind_ok]
    show (rdField 4 _ >>= _) = _
    rw [(reads_field (by have := hp.wavelet; norm_num at this ⊢; omega)).full, Outcome.bind_ok]
    dsimp only
    split <;> rfl

theorem newBuffer_ne_ub {e : Ext} (he : ∀ r c, e.alloc r c ≠ .ub) {p : Params} (hw : p.wtype < 8) :
    newBuffer e p ≠ .ub := by
  intro h
  unfold newBuffer at h
  rcases bind_eq_ub h with h | ⟨b, _, h⟩
  · have hr : RepresentableType p := by unfold RepresentableType; omega
    by_cases hv : ValidParams p
    · rw [ctor_ok_of_valid hv hr] at h; cases h
    · rw [ctor_throw_of_not_valid hv hr] at h; cases h
  · rcases bind_eq_ub h with h | ⟨_, _, h⟩
    · exact he _ _ h
    · cases h

/-- With a complete header and a wavelet of the enum the body is read with an empty layout, or reading ends with an
exception. -/
theorem header_of_fits {e : Ext} (he : SafeLibrary e) {v l : UInt8} {p : Params} (hp : FitsFields p) (hw : p.wtype < 8)
    (w : Bytes) : rdHeader e (startBytes v p ++ ([l] ++ w)) = .throw ∨
      rdHeader e (startBytes v p ++ ([l] ++ w)) = .ok ((emptyBuffer p, some l.toNat), w) := by
  rw [rdHeader_eq, start_of_fits hp]
  cases ha : e.alloc 1 p.shape.length with
  | throw => exact .inl rfl
  | ub => exact absurd ha (he.alloc _ _)
  | ok _ =>
    rw [Outcome.bind_ok, if_neg (by omega), Outcome.bind_ok]
    simp only [Rd.bind, Rd.lift, rdLevel, List.singleton_append, Outcome.bind_ok]
    cases hb : newBuffer e p with
    | throw => exact .inl rfl
    | ub => exact absurd hb (newBuffer_ne_ub he.alloc hw)
    | ok b =>
      obtain ⟨_, rfl⟩ := newBuffer_eq_ok hb
      exact .inr rfl

theorem caught_ok {β : Type} {o : Outcome (Option β × Bytes)} (h : o ≠ .ub) : ∃ r, caught o = .ok r := by
  cases o with
  | ok x => exact ⟨x.1, rfl⟩
  | throw => exact ⟨none, rfl⟩
  | ub => exact absurd rfl h

theorem caught_eq_ub {β : Type} {o : Outcome (Option β × Bytes)} (h : caught o = .ub) : o = .ub := by
  cases o with
  | ok x => cases h
  | throw => cases h
  | ub => rfl

theorem parse_blank {e : Ext} {s : Bytes} (h : ∀ b ∈ s, isSpace b = true) : parse e s = .ub := by
  unfold parse
  have : s.dropWhile isSpace = [] := by
    induction s with
    | nil => rfl
    | cons b s ih =>
      rw [List.dropWhile_cons_of_pos (h b (by simp))]
      exact ih fun x hx => h x (by simp [hx])
  rw [this]

end WB
