import Verif.Proof.Pixel
import Verif.Proof.SfExact
import Verif.Props.SfChoose

/-! Property C77, that streams of the version-2 compressor do not depend on the machine or on earlier calls; counterexamples to C57, C67 and C76
with the code lengths that `Compress` chooses itself. -/

namespace WB.Props

open WB WB.Spec WB.Sf

/-- C77: what `Compress` writes (or that it fails) is the same for every rounding of `double` arithmetic to nearest, however ties are broken, and
whatever code lengths an earlier call left in the object. Nothing is assumed about the matrix or the buffer. -/
theorem C77_stream_determined (r r' : Rounding) (hr : RoundsToNearest (FloatNumbers 53 (-1074)) r.toDouble)
    (hr' : RoundsToNearest (FloatNumbers 53 (-1074)) r'.toDouble) (old old' : Bool → ℕ → ℕ) (cap : ℕ) (o : Origin) :
    Sf.compress cap (codeChoose r old) o = Sf.compress cap (codeChoose r' old') o :=
  compress_unique hr hr' old old' cap o

/-- There are roundings to nearest. The stream of `exOrigin` with the code lengths of `Compress`. -/
example : ∃ r : Rounding, RoundsToNearest (FloatNumbers 53 (-1074)) r.toDouble ∧
    ∀ old, Sf.compress 400 (codeChoose r old) exOrigin = .ok (some [35, 83, 163, 34, 150, 237, 0, 11, 128, 252, 0, 0]) := by
  choose f hf using nearest_exists 53 (-1074)
  refine ⟨⟨f, f⟩, hf, fun old => ?_⟩
  rw [compress_exact (r := ⟨f, f⟩) hf old 400 (by decide)]
  decide +kernel

/-- C67, negated: two streams that `Compress` makes, with its own code lengths, from one value each, 0.5 and 1.875. A new object decompresses the second one to 1.875, an
object that has decompressed the first one before gives 0.875. -/
theorem C67_reuse_counterexample (rd : Rounding) (hrd : RoundsToNearest (FloatNumbers 53 (-1074)) rd.toDouble) (old : Bool → ℕ → ℕ) :
    ∃ (first second : Bytes) (o1 o2 wrong : Origin) (p q r : Pools) (buf : Bytes),
    Sf.compress 400 (codeChoose rd old) o1 = .ok (some first) ∧ Sf.compress 400 (codeChoose rd old) o2 = .ok (some second) ∧
    o1.values = [0x3f000000#32] ∧ o2.values = [0x3ff00000#32] ∧ wrong.values = [0x3f600000#32] ∧
    Sf.decompress .fresh buf first = .ok (some o1, p) ∧ Sf.decompress .fresh buf second = .ok (some o2, q) ∧
    Sf.decompress p buf second = .ok (some wrong, r) := by
  have h : ∀ (x : Outcome (Option Origin × Pools)) (o : Origin), (match x with
      | .ok (some o', _) => decide (o' = o)
      | _ => false) = true → ∃ q, x = .ok (some o, q) := by
    intro x o hx
    split at hx
    · simp only [decide_eq_true_eq] at hx
      subst hx
      exact ⟨_, rfl⟩
    · cases hx
  let o1 : Origin := ⟨23, true, 1, 1, [0], [0x3f000000#32]⟩
  let o2 : Origin := ⟨23, true, 1, 1, [0], [0x3ff00000#32]⟩
  let wrong : Origin := ⟨23, true, 1, 1, [0], [0x3f600000#32]⟩
  obtain ⟨q, hq⟩ := h (Sf.decompress .fresh (List.replicate 50 0) [33, 223, 128, 112, 0, 0]) o2 (by decide +kernel)
  have h2 : ∃ p r, Sf.decompress .fresh (List.replicate 50 0) [33, 223, 144, 112, 0, 0, 0] = .ok (some o1, p) ∧
      Sf.decompress p (List.replicate 50 0) [33, 223, 128, 112, 0, 0] = .ok (some wrong, r) := by
    have h3 : ∀ (x : Outcome (Option Origin × Pools)), (match x with
        | .ok (some o', p) => decide (o' = o1) && (match Sf.decompress p (List.replicate 50 0) [33, 223, 128, 112, 0, 0] with
          | .ok (some o', _) => decide (o' = wrong)
          | _ => false)
        | _ => false) = true → ∃ p r, x = .ok (some o1, p) ∧
          Sf.decompress p (List.replicate 50 0) [33, 223, 128, 112, 0, 0] = .ok (some wrong, r) := by
      intro x hx
      split at hx
      · simp only [Bool.and_eq_true, decide_eq_true_eq] at hx
        obtain ⟨rfl, hx⟩ := hx
        obtain ⟨r, hr⟩ := h _ _ hx
        exact ⟨_, r, rfl, hr⟩
      · cases hx
    exact h3 _ (by decide +kernel)
  obtain ⟨p, r, hp, hr⟩ := h2
  refine ⟨[33, 223, 144, 112, 0, 0, 0], [33, 223, 128, 112, 0, 0], o1, o2, wrong,
    p, q, r, List.replicate 50 0, ?_, ?_, rfl, rfl, rfl, hp, hq, hr⟩
  · rw [compress_exact hrd old 400 (by norm_num [o1])]; decide +kernel
  · rw [compress_exact hrd old 400 (by norm_num [o2])]; decide +kernel

/-- C57, negated also for blobs that nobody tampered with: a buffer with the single sample 0.5, kept with all 23 fraction bits. The stream that
`Compress` makes of it, with its own code lengths, is longer than the memory set aside and `Parse` writes outside. -/
theorem C57_legacy_overflow_genuine (e : Ext) (hl : e.legacySubband = Sf.legacySubband e.alloc) (ha : ∀ r c, e.alloc r c = .ok ())
    (rd : Rounding) (hrd : RoundsToNearest (FloatNumbers 53 (-1074)) rd.toDouble) (old : Bool → ℕ → ℕ) :
    ∃ (m : Mat F32) (indexes : List ℕ) (values : List F32) (stream : Bytes), m.rows = 1 ∧ m.cols = 1 ∧ m.data = [0x3f000000#32] ∧
      WellFormed ⟨⟨[1], 1, 0, 0⟩, [[m]]⟩ ∧ toCSR m = .ok (indexes, values) ∧
      Sf.compress 308 (codeChoose rd old) ⟨23, true, 1, 1, indexes, values⟩ = .ok (some stream) ∧ StreamOf 23 m stream ∧
      parse e (encodeV2Streams ⟨[1], 1, 0, 0⟩ 5 [[stream]]) = .ub := by
  have hcsr : toCSR (Mat.ofFn 1 1 fun _ _ => (0x3f000000#32 : F32)) = .ok ([0], [0x3f000000#32]) := by decide +kernel
  have hfin : ∀ x ∈ (Mat.ofFn 1 1 fun _ _ => (0x3f000000#32 : F32)).data, RoundsFinite 23 x := by
    intro x hx
    have : x = 0x3f000000#32 := by simpa [Mat.ofFn] using hx
    subst this
    simp [RoundsFinite, expBits, roundBits]
  have hc : Sf.compress 308 (codeChoose rd old) ⟨23, true, 1, 1, [0], [0x3f000000#32]⟩ = .ok (some [33, 223, 144, 112, 0, 0, 0]) := by
    rw [compress_exact hrd old 308 (by norm_num)]
    decide +kernel
  refine ⟨Mat.ofFn 1 1 fun _ _ => 0x3f000000#32, [0], [0x3f000000#32], [33, 223, 144, 112, 0, 0, 0], rfl, rfl, by simp [Mat.ofFn], ?_, hcsr, hc, ?_, ?_⟩
  · refine ⟨?_, rfl, ?_⟩
    · simp [ValidParams]
    · simp [subbandCount, detailsPerStep]
  · exact C76_own_stream rd hrd old 23 308 _ true _ _ _ (by decide) hfin ⟨0x3f000000#32, by simp [Mat.ofFn], by decide⟩ hcsr (by decide) hc
  · refine C57_legacy_overflow e 100 ⟨[1], 1, 0, 0⟩ 5 _ [] [] hl ?_ ?_ ?_ ?_ ?_ (fun _ _ _ => ha _ _) ?_ ?_ ?_ ?_ ?_ ?_ <;>
      simp [ValidParams, subbandCount, detailsPerStep, Sf.memorySize]

/-! ### 4104 ones in a matrix of 1024 × 1024 elements -/

/-- The positions of values after runs of zeros, from position `p` on. -/
def places : ℕ → List ℕ → List ℕ
  | _, [] => []
  | p, z :: zs => (p + z) :: places (p + z + 1) zs

theorem places_length : ∀ p zs, (places p zs).length = zs.length
  | _, [] => rfl
  | p, z :: zs => by simp [places, places_length (p + z + 1) zs]

theorem places_bound : ∀ p zs, ∀ i ∈ places p zs, p ≤ i ∧ i < p + (zs.map (· + 1)).sum
  | _, [] => by simp [places]
  | p, z :: zs => by
    intro i hi
    simp only [places, List.mem_cons] at hi
    simp only [List.map_cons, List.sum_cons]
    rcases hi with rfl | hi
    · omega
    · have := places_bound (p + z + 1) zs i hi
      omega

theorem places_sorted : ∀ p zs, (places p zs).Pairwise (· < ·)
  | _, [] => by simp [places]
  | p, z :: zs => by
    rw [places, List.pairwise_cons]
    exact ⟨fun i hi => by have := places_bound _ _ i hi; omega, places_sorted _ zs⟩

theorem timeline_ones : ∀ (zs : List ℕ) (p : ℕ) (prev : Option ℕ), prev.elim 0 (fun i => u32 (1 + i)) = p → p + (zs.map (· + 1)).sum < 2 ^ 32 →
    timeline 10 prev 127 ((places p zs).zip (List.replicate zs.length 0x3f800000#32)) = .ok (zs.map fun z => ⟨z, 0, 0, 0⟩)
  | [], _, _, _, _ => rfl
  | z :: zs, p, prev, hp, h => by
    simp only [List.map_cons, List.sum_cons] at h
    have h1 : toBF 10 0x3f800000#32 = .ok ⟨127, 0, 0⟩ := by decide +kernel
    have ih := timeline_ones zs (p + z + 1) (some (p + z)) (by simp only [u32, Option.elim]; omega) (by omega)
    have h2 : expJump 127 127 = 0 := by decide +kernel
    have h3 : sub32 (p + z) p = z := by unfold sub32; omega
    simp only [places, List.length_cons, List.replicate_succ, List.zip_cons_cons, timeline, h1, Outcome.bind_ok, h2, ih]
    cases prev with
    | none =>
      simp only [Option.elim] at hp
      subst hp
      simp only [h3]
      rfl
    | some i =>
      simp only [Option.elim] at hp
      simp only [hp, h3]
      rfl

/-- 2360 runs of one zero, 1727 of 49, 16 of 1537 and one of 786433. -/
def wideRuns : List ℕ := List.replicate 2360 1 ++ List.replicate 1727 49 ++ List.replicate 16 1537 ++ [786433]

def wideSlots : List Sf.Slot := wideRuns.map fun z => ⟨z, 0, 0, 0⟩

def wide : Origin := ⟨10, true, 1024, 1024, places 0 wideRuns, List.replicate 4104 0x3f800000#32⟩

def wideQty (exp : Bool) (t : ℕ) : ℕ :=
  if exp then if t = 0 then 4104 else 0
  else if t = 1 then 2360 else if t = 12 then 1727 else if t = 22 then 16 else if t = 40 then 1 else 0

def wideFirst : List ℕ := [2, 2] ++ List.replicate 12 8 ++ List.replicate 9 19 ++ List.replicate 18 32

def wideLens : List ℕ :=
  [2, 2, 7, 7, 7, 7, 7, 7, 7, 7, 7, 8, 8, 8, 18, 18, 18, 18, 18, 18, 18, 18, 18, 30, 30] ++ List.replicate 14 31 ++ [32, 32]

def wideJumps : List Entry := [⟨0, 0, 0, 0⟩]

def wideZeros : List Entry :=
  [⟨2, 1, 1, 0⟩, ⟨7, 10, 32, 62⟩, ⟨8, 13, 96, 157⟩, ⟨18, 22, 2048, 259999⟩, ⟨30, 24, 4096, 1073346559⟩, ⟨31, 38, 524288, 2146697215⟩,
    ⟨32, 40, 1048576, 4293918719⟩]

theorem dsQty_append (exp : Bool) (a b : List Sf.Slot) (t : ℕ) : dsQty exp (a ++ b) t = dsQty exp a t + dsQty exp b t := by
  simp [dsQty]

theorem dsQty_replicate (exp : Bool) (s : Sf.Slot) (k t : ℕ) : dsQty exp (List.replicate k s) t = if findSrc exp (s.sym exp) = t then k else 0 := by
  unfold dsQty
  rw [List.filter_replicate]
  split <;> split <;> simp_all

theorem wide_qty (exp : Bool) : dsQty exp wideSlots = wideQty exp := by
  have h0 : findSrc true 0 = 0 := by decide +kernel
  have h1 : findSrc false 1 = 1 := by decide +kernel
  have h2 : findSrc false 49 = 12 := by decide +kernel
  have h3 : findSrc false 1537 = 22 := by decide +kernel
  have h4 : findSrc false 786433 = 40 := by decide +kernel
  have hs : wideSlots = List.replicate 2360 ⟨1, 0, 0, 0⟩ ++ List.replicate 1727 ⟨49, 0, 0, 0⟩ ++ List.replicate 16 ⟨1537, 0, 0, 0⟩ ++
      List.replicate 1 ⟨786433, 0, 0, 0⟩ := by
    simp only [wideSlots, wideRuns, List.map_append, List.map_replicate]
    rfl
  funext t
  rw [hs]
  simp only [dsQty_append, dsQty_replicate, wideQty]
  cases exp with
  | true =>
    simp only [Slot.sym, if_true, h0]
    by_cases e : t = 0
    · subst e; rfl
    · simp [e, Ne.symm e]
  | false =>
    simp only [Slot.sym, Bool.false_eq_true, if_false, h1, h2, h3, h4]
    by_cases e1 : t = 1
    · subst e1; rfl
    by_cases e2 : t = 12
    · subst e2; rfl
    by_cases e3 : t = 22
    · subst e3; rfl
    by_cases e4 : t = 40
    · subst e4; rfl
    simp [e1, e2, e3, e4, Ne.symm e1, Ne.symm e2, Ne.symm e3, Ne.symm e4]

theorem wide_timeline : timeline wide.frag none 127 ((wide.indexes.zip wide.values).take (u32 wide.indexes.length)) = .ok wideSlots := by
  have hl : wideRuns.length = 4104 := by decide +kernel
  have h := timeline_ones wideRuns 0 none rfl (by decide +kernel)
  rw [hl] at h
  have hl2 : wide.indexes.length = 4104 := by rw [← hl]; exact places_length _ _
  rw [hl2, List.take_of_length_le]
  · exact h
  · rw [List.length_zip, hl2]
    exact Nat.min_le_left _ _

def lensList (used : ℕ) : Outcome (ℕ → ℕ) → Option (List ℕ)
  | .ok l => some ((List.range used).map l)
  | _ => none

theorem sameLens_of_list {used : ℕ} {a : Outcome (ℕ → ℕ)} {l : List ℕ} (h : lensList used a = some l) : SameLens used a (.ok fun t => l.getD t 0) := by
  cases a with
  | ok f =>
    simp only [lensList, Option.some.injEq] at h
    refine Or.inl ⟨f, _, rfl, rfl, fun t ht => ?_⟩
    rw [← h]
    simp [List.getD, ht]
  | _ => simp [lensList] at h

theorem wide_choose {r : Rounding} (hr : RoundsToNearest (FloatNumbers 53 (-1074)) r.toDouble) (old : Bool → ℕ → ℕ) (exp : Bool) :
    SameLens (poolsUsed exp wideSlots) (codeChoose r old exp 4104 (dsQty exp wideSlots)) (.ok fun t => if exp then 0 else wideLens.getD t 0) := by
  have h0 := codeChoose_exact hr old exp (n := 4104) (q := wideQty exp) (by norm_num) (by norm_num) (by cases exp <;> decide +kernel)
  have h1 : SameLens (topUsed (wideQty exp) (baseCount exp)) (chooseN exp 4104 (wideQty exp)) (.ok fun t => if exp then 0 else wideLens.getD t 0) := by
    cases exp with
    | true =>
      have := sameLens_of_list (used := topUsed (wideQty true) (baseCount true)) (a := chooseN true 4104 (wideQty true)) (l := [0]) (by decide +kernel)
      rcases this with ⟨l, l', e1, e2, h⟩ | ⟨-, h⟩
      · refine Or.inl ⟨l, _, e1, rfl, fun t ht => ?_⟩
        cases e2
        rw [h t ht]
        rcases t with _ | t <;> rfl
      · cases h
    | false => exact sameLens_of_list (by decide +kernel)
  rw [wide_qty, poolsUsed, wide_qty]
  exact h0.trans h1

theorem slotsFields_ub {zeros jumps : List Entry} {b : Bool} {fc : ℕ} {s : Sf.Slot} (hs : slotFields zeros jumps b fc s = .ub) :
    ∀ pre : List Sf.Slot, (∀ x ∈ pre, ∃ f, slotFields zeros jumps b fc x = .ok f) → slotsFields zeros jumps b fc (pre ++ [s]) = .ub
  | [], _ => by simp only [List.nil_append, slotsFields, hs]; rfl
  | x :: pre, h => by
    obtain ⟨f, hf⟩ := h x (by simp)
    have ih := slotsFields_ub hs pre fun y hy => h y (by simp [hy])
    simp only [List.cons_append, slotsFields, hf, ih, Outcome.bind_ok]
    rfl

theorem compress_ub {cap : ℕ} {c : Choose} {o : Origin} {slots : List Sf.Slot} {jl zl : ℕ → ℕ} {jumps zeros : List Entry} {size fc : ℕ}
    {t2 t3 : List (ℕ × ℕ)}
    (hfrag : ¬(o.frag < 7 ∨ 23 < o.frag ∨ o.frag = 22)) (hsz : ¬o.cols * o.rows % 2 ^ 64 < o.values.length) (hlen : ¬o.values.length ≠ o.indexes.length)
    (hs : timeline o.frag none 127 ((o.indexes.zip o.values).take (u32 o.indexes.length)) = .ok slots)
    (hj : c true (u32 o.indexes.length) (dsQty true slots) = .ok jl) (hz : c false (u32 o.indexes.length) (dsQty false slots) = .ok zl)
    (hj' : outPool true jl (poolsUsed true slots) = .ok jumps) (hz' : outPool false zl (poolsUsed false slots) = .ok zeros)
    (hprod : ¬2147483648 < u32 o.rows * u32 o.cols) (hrc : findLog (u32 (max (u32 o.rows) (u32 o.cols) + 1)) ≠ 0)
    (hsize : pow2 (findLog (u32 (max (u32 o.rows) (u32 o.cols) + 1))) = .ok size) (h2 : poolFields jumps = .ok t2) (h3 : poolFields zeros = .ok t3)
    (hfc : pow2 (if signsUsed slots = 3 then o.frag + 1 else o.frag) = .ok fc)
    (hub : slotsFields zeros jumps (decide (u32 o.indexes.length < u32 (u32 o.rows * u32 o.cols + 1))) fc slots = .ub) :
    Sf.compress cap c o = .ub := by
  unfold Sf.compress
  rw [if_neg hfrag, if_neg hsz, if_neg hlen]
  simp only
  split
  · rfl
  rw [hs, Outcome.bind_ok]
  split
  · rfl
  simp only [hj, hz, hj', hz', Outcome.bind_ok, allFields, if_neg hrc, hsize, h2, h3, hfc, hub, Outcome.bind_ub]

/-- C76, negated again, for a matrix of an ordinary size: 1024 × 1024 elements, 4104 of which are 1 and the others 0. One of the code lengths that
`Compress` chooses is 32, and it reads beyond the end of its table of powers of two, whatever the rounding, the object and the buffer. -/
theorem C76_table_bound_counterexample :
    ∃ o : Origin, (7 ≤ o.frag ∧ o.frag ≤ 23 ∧ o.frag ≠ 22) ∧ o.rows = 1024 ∧ o.cols = 1024 ∧ o.indexes.length = 4104 ∧
      o.indexes.Pairwise (· < ·) ∧ (∀ i ∈ o.indexes, i < o.rows * o.cols) ∧ o.values = List.replicate 4104 0x3f800000#32 ∧
      ∀ (r : Rounding), RoundsToNearest (FloatNumbers 53 (-1074)) r.toDouble → ∀ (old : Bool → ℕ → ℕ) (cap : ℕ),
        Sf.compress cap (codeChoose r old) o = .ub := by
  have hl : wide.indexes.length = 4104 := (places_length 0 wideRuns).trans (by decide +kernel)
  refine ⟨wide, ⟨(by norm_num : 7 ≤ 10), (by norm_num : 10 ≤ 23), (by norm_num : 10 ≠ 22)⟩, rfl, rfl, hl, places_sorted _ _, fun i hi => ?_, rfl, fun r hr old cap => ?_⟩
  · have h1 := (places_bound 0 wideRuns i hi).2
    have h2 : 0 + (wideRuns.map (· + 1)).sum < 1048576 := by decide +kernel
    exact lt_of_lt_of_le (h1.trans h2) (by norm_num [wide])
  · have hu : u32 wide.indexes.length = 4104 := by rw [hl]; rfl
    rw [compress_agree wide_timeline (c' := fun exp _ _ => .ok fun t => if exp then 0 else wideLens.getD t 0)
      (by rw [hu]; exact wide_choose hr old)]
    have hp1 : poolsUsed true wideSlots = 1 := by rw [poolsUsed, wide_qty]; decide +kernel
    have hp2 : poolsUsed false wideSlots = 41 := by rw [poolsUsed, wide_qty]; decide +kernel
    have hv : wide.values.length = 4104 := List.length_replicate ..
    have hr1 : wide.rows = 1024 := rfl
    have hc1 : wide.cols = 1024 := rfl
    have hf1 : wide.frag = 10 := rfl
    have hsg : signsUsed wideSlots = 1 := by decide +kernel
    have hjumps : outPool true (fun _ => 0) 1 = .ok wideJumps := by decide +kernel
    have hzeros : outPool false (fun t => wideLens.getD t 0) 41 = .ok wideZeros := by decide +kernel
    obtain ⟨t3, h3⟩ : ∃ t3, poolFields wideZeros = .ok t3 :=
      ⟨[(2, 5), (0, 5), (0, 7), (0, 9), (0, 11), (9, 13), (3, 5), (0, 2), (0, 2), (0, 2), (0, 2), (0, 3), (0, 4), (0, 5), (0, 7), (0, 9), (9, 11),
        (0, 2), (0, 2), (0, 2), (0, 3), (0, 4), (0, 5), (0, 7), (0, 9), (0, 11), (0, 13), (0, 15), (2, 17), (14, 16), (2, 3)], by decide +kernel⟩
    have hsplit : wideSlots = (List.replicate 2360 ⟨1, 0, 0, 0⟩ ++ List.replicate 1727 ⟨49, 0, 0, 0⟩ ++ List.replicate 16 ⟨1537, 0, 0, 0⟩) ++
        [⟨786433, 0, 0, 0⟩] := by
      simp only [wideSlots, wideRuns, List.map_append, List.map_replicate]
      rfl
    have hub : slotsFields wideZeros wideJumps true 1024 wideSlots = .ub := by
      rw [hsplit]
      refine slotsFields_ub (s := ⟨786433, 0, 0, 0⟩) (by decide +kernel) _ fun x hx => ?_
      rw [List.mem_append, List.mem_append] at hx
      rcases hx with (hx | hx) | hx
      · rw [List.eq_of_mem_replicate hx]
        exact ⟨[(1, 4), (0, 1024)], by decide +kernel⟩
      · rw [List.eq_of_mem_replicate hx]
        exact ⟨[(206, 256), (0, 1024)], by decide +kernel⟩
      · rw [List.eq_of_mem_replicate hx]
        exact ⟨[(261536, 262144), (0, 1024)], by decide +kernel⟩
    refine compress_ub (slots := wideSlots) (jl := fun _ => 0) (zl := fun t => wideLens.getD t 0) (jumps := wideJumps) (zeros := wideZeros)
      (size := 2048) (fc := 1024) (t2 := []) (t3 := t3) ?_ ?_ ?_ wide_timeline rfl rfl ?_ ?_ ?_ ?_ ?_ (by decide +kernel) h3 ?_ ?_
    · rw [hf1]; norm_num
    · rw [hr1, hc1, hv]; norm_num
    · rw [hl, hv]; exact fun h => h rfl
    · rw [hp1]; exact hjumps
    · rw [hp2]; exact hzeros
    · rw [hr1, hc1]; decide
    · rw [hr1, hc1]; decide +kernel
    · rw [hr1, hc1]; decide +kernel
    · rw [hsg, hf1]; decide
    · rw [hu, hr1, hc1]; exact hub

end WB.Props
