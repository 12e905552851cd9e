import Verif.Spec.Size
import Verif.Proof.Untrusted

/-!
Helper lemmas: lengths of what is written and of what is read.
-/

namespace WB

open WB.Spec

/-! ### Writing -/

theorem length_serMat (m : Mat F32) : (serMat m).length = 28 + 4 * (m.rows * m.cols) := by
  have : (m.data.flatMap (fun x => le 4 x.toNat)).length = 4 * m.data.length := by
    induction m.data with
    | nil => rfl
    | cons x l ih => simp only [List.flatMap_cons, List.length_append, length_le, ih, List.length_cons]; omega
  simp only [serMat, List.length_append, length_le, this, m.wf, List.length_cons, List.length_nil]

theorem length_serBytes (v : Bytes) : (serBytes v).length = 20 + v.length := by
  simp [serBytes]; omega

theorem serialize_true {e : Ext} {b : Buffer F32} {old blob : Bytes} {level : ℕ}
    (h : serialize e b old level = .ok (true, blob)) : ∃ body, serSubbands e (effectiveLevel b level) b.decs.flatten = .ok body ∧
      blob.length = headerSize b.params + body.length := by
  unfold serialize at h
  obtain ⟨t, h1, h2⟩ := bind_eq_ok h
  obtain ⟨_, hp, hd⟩ := ctorWith_wf h1
  obtain rfl : t = b := by
    cases t; cases b
    dsimp only at hp hd
    subst hp hd
    rfl
  dsimp only at h2
  cases hs : serSubbands e (effectiveLevel t level) t.decs.flatten with
  | ok body =>
    rw [hs] at h2
    cases h2
    refine ⟨body, rfl, ?_⟩
    simp only [List.length_append, length_serParams, headerSize, List.length_cons, List.length_nil]
    omega
  | throw => rw [hs] at h2; cases h2
  | ub => rw [hs] at h2; cases h2

/-- A measure of subbands, summed over a buffer. -/
theorem sum_flatten {β : Type} (f : β → ℕ) : ∀ d : List (List β), (d.flatten.map f).sum = (d.map fun c => (c.map f).sum).sum
  | [] => rfl
  | c :: d => by
    rw [List.flatten_cons, List.map_append, List.sum_append, sum_flatten f d, List.map_cons, List.sum_cons]

theorem serSubbands_plain {e : Ext} : ∀ {ms : List (Mat F32)} {body : Bytes}, serSubbands e 0 ms = .ok body →
    body.length = (ms.map fun m => 28 + 4 * (m.rows * m.cols)).sum
  | [], body, h => by cases h; rfl
  | m :: ms, body, h => by
    obtain ⟨x, h1, h2⟩ := bind_eq_ok h
    obtain ⟨y, h3, h4⟩ := bind_eq_ok h2
    cases h4
    have : x = serMat m := by
      have : serSubband e 0 m = .ok (serMat m) := rfl
      rw [this] at h1; cases h1; rfl
    rw [this, List.length_append, length_serMat, serSubbands_plain h3]
    simp

theorem toCSR_lengths {m : Mat F32} {c : List ℕ × List F32} (h : toCSR m = .ok c) :
    c.1.length = nonzeroCount m ∧ c.2.length = nonzeroCount m := by
  unfold toCSR at h
  split at h
  · cases h
  · split at h
    · cases h
    · cases h
      have key : (((List.range m.rows).flatMap fun i => (List.range m.cols).filterMap fun j =>
          if F32.isZero (m.get i j) then none else some ((i * m.cols + j) % 2 ^ 32, m.get i j)).map Prod.snd) =
          (entries m).map Prod.snd := by
        unfold entries
        rw [List.map_flatMap, List.map_flatMap]
        apply List.flatMap_congr
        intro i _
        rw [List.map_filterMap, List.map_filterMap]
        apply List.filterMap_congr
        intro j _
        split <;> rfl
      have h2 := congrArg List.length key
      rw [entries_values, List.length_map] at h2
      exact ⟨by rw [List.length_map]; exact h2, by rw [List.length_map]; exact h2⟩

theorem serSubbands_packed {e : Ext} (he : CodecSizes e) {sf : ℕ} (hsf : sf ≠ 0) : ∀ {ms : List (Mat F32)} {body : Bytes},
    serSubbands e sf ms = .ok body →
    body.length ≤ (ms.map fun m => 1104 + 8 * nonzeroCount m + (nonzeroCount m + 3) / 4).sum
  | [], body, h => by cases h; simp
  | m :: ms, body, h => by
    obtain ⟨x, h1, h2⟩ := bind_eq_ok h
    obtain ⟨y, h3, h4⟩ := bind_eq_ok h2
    cases h4
    have ih := serSubbands_packed he hsf h3
    unfold serSubband at h1
    rw [if_neg hsf] at h1
    obtain ⟨a, g1, g2⟩ := bind_eq_ok h1
    cases g2
    unfold compress at g1
    obtain ⟨c, k1, k2⟩ := bind_eq_ok g1
    split at k2
    · cases k2
    · obtain ⟨vs, k3, k4⟩ := bind_eq_ok k2
      cases k4
      obtain ⟨l1, l2⟩ := toCSR_lengths k1
      have p1 := he.positions c.1
      have p2 := he.values _ _ _ k3
      rw [l1] at p1
      rw [l2] at p2
      simp only [serArchived, List.length_append, length_le, length_serBytes, List.map_cons, List.sum_cons]
      omega

/-! ### Reading -/

theorem rdChecked_length {n x : ℕ} {s t : Bytes} (h : rdChecked n s = .ok (x, t)) : s.length = n + t.length := by
  unfold rdChecked at h
  split at h
  · cases h
  · cases h; simp; omega

theorem rdMany_count {β : Type} {r : Rd β} {f : β → ℕ} (hr : ∀ s x t, r s = .ok (x, t) → s.length = f x + t.length) :
    ∀ {n : ℕ} {s t : Bytes} {xs : List β}, rdMany r n s = .ok (xs, t) → s.length = (xs.map f).sum + t.length
  | 0, s, t, xs, h => by cases h; simp
  | n + 1, s, t, xs, h => by
    obtain ⟨a, t1, h1, h2⟩ := rdBind_eq_ok h
    obtain ⟨b, t2, h3, h4⟩ := rdBind_eq_ok h2
    obtain ⟨rfl, rfl⟩ := rdPure_eq_ok h4
    have := hr _ _ _ h1
    have := rdMany_count hr h3
    simp only [List.map_cons, List.sum_cons]
    omega

theorem rdMat_length {e : Ext} (ho : ∀ t r c n s x, e.otherMat t r c n s ≠ .ok x) {s t : Bytes} {m : Mat F32}
    (h : rdMat e s = .ok (m, t)) : s.length = 28 + 4 * (m.rows * m.cols) + t.length := by
  unfold rdMat at h
  obtain ⟨_, s1, h1, h⟩ := rdBind_eq_ok h
  obtain ⟨_, s2, h2, h⟩ := rdBind_eq_ok h
  obtain ⟨_, s3, h3, h⟩ := rdBind_eq_ok h
  obtain ⟨_, s4, h4, h⟩ := rdBind_eq_ok h
  obtain ⟨rows, s5, h5, h⟩ := rdBind_eq_ok h
  obtain ⟨cols, s6, h6, h⟩ := rdBind_eq_ok h
  obtain ⟨_, s7, h7, h⟩ := rdBind_eq_ok h
  split at h
  · cases h
  · obtain ⟨_, s8, h8, h⟩ := rdBind_eq_ok h
    obtain ⟨_, h8⟩ := rdLift_eq_ok h8
    split at h
    · obtain ⟨xs, s9, h9, h⟩ := rdBind_eq_ok h
      obtain ⟨hm, ht⟩ := rdPure_eq_ok h
      dsimp only at h8 hm ht
      subst h8 hm ht
      have k1 := rdMany_count (f := fun _ => 4) (fun s x t hs => rdChecked_length hs) h9
      have k2 := rdMany_length h9
      have k3 : (xs.map fun _ => 4).sum = 4 * xs.length := by
        rw [List.map_const', List.sum_replicate]; simp [Nat.mul_comm]
      have := rdChecked_length h1
      have := rdChecked_length h2
      have := rdChecked_length h3
      have := rdChecked_length h4
      have := rdChecked_length h5
      have := rdChecked_length h6
      have := rdChecked_length h7
      show s.length = 28 + 4 * (rows * cols) + s9.length
      rw [← k2]
      omega
    · exact absurd h (ho _ _ _ _ _ _)

theorem rdLayout_count {r : Rd (Mat F32)} {f : Mat F32 → ℕ} (hr : ∀ s x t, r s = .ok (x, t) → s.length = f x + t.length) :
    ∀ {L : Decs F32} {s t : Bytes} {d : Decs F32}, rdLayout r L s = .ok (d, t) →
    s.length = (d.map fun c => (c.map f).sum).sum + t.length
  | [], s, t, d, h => by cases h; simp
  | c :: L, s, t, d, h => by
    obtain ⟨a, t1, h1, h2⟩ := rdBind_eq_ok h
    obtain ⟨b, t2, h3, h4⟩ := rdBind_eq_ok h2
    obtain ⟨rfl, rfl⟩ := rdPure_eq_ok h4
    have := rdMany_count hr h1
    have := rdLayout_count hr h3
    simp only [List.map_cons, List.sum_cons]
    omega

theorem sum_affine (a b : ℕ) (d : Decs F32) : (d.map fun c => (c.map fun m => a + b * (m.rows * m.cols)).sum).sum =
    a * bandCount d + b * valueCount d := by
  have h1 : ∀ c : List (Mat F32), (c.map fun m => a + b * (m.rows * m.cols)).sum =
      a * c.length + b * (c.map fun m => m.rows * m.cols).sum := by
    intro c
    induction c with
    | nil => simp
    | cons m c ih => simp only [List.map_cons, List.sum_cons, ih, List.length_cons]; ring
  induction d with
  | nil => simp [bandCount, valueCount]
  | cons c d ih =>
    simp only [bandCount, valueCount] at ih ⊢
    rw [List.map_cons, List.sum_cons, ih, h1]
    simp only [List.map_cons, List.sum_cons]
    ring

end WB
