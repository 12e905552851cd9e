import Verif.Proof.SfCode

/-! Properties C47 to C50: the building blocks of the version-2 compressor. -/

namespace WB.Props

open WB WB.Spec WB.Sf

/-- Read one field after the other. -/
def readFields {γ β : Type} (g : γ → Get β) : List γ → BitIn → Outcome (List β × BitIn)
  | [], s => .ok ([], s)
  | c :: cs, s => do
    let x ← g c s
    let xs ← readFields g cs x.2
    pure (x.1 :: xs.1, xs.2)

theorem readFields_reads {γ β : Type} (g : γ → Get β) (fs : List (γ × β)) (bits : γ × β → List Bool)
    (h : ∀ f ∈ fs, Reads (g f.1) (bits f) f.2) {s : BitIn} {R : List Bool} (hs : Ahead s (fs.flatMap bits ++ R)) :
    ∃ s', readFields g (fs.map Prod.fst) s = .ok (fs.map Prod.snd, s') ∧ Ahead s' R := by
  induction fs generalizing s with
  | nil => exact ⟨s, rfl, by simpa using hs⟩
  | cons f fs ih =>
    rw [List.flatMap_cons, List.append_assoc] at hs
    obtain ⟨t, e1, ht⟩ := h f (by simp) s _ hs
    obtain ⟨s', e2, hs'⟩ := ih (fun f hf => h f (by simp [hf])) ht
    exact ⟨s', by simp [readFields, e1, e2], hs'⟩

/-- C47: writing any sequence of fields (number of bits, value) of up to 32 bits succeeds when there is room, the stream holds exactly the
bits of the fields one after the other, filled up with zeros to a whole byte, and reading with the same numbers of bits returns the
values, whatever follows the stream in memory. -/
theorem C47_reader_inverts_writer (cap : ℕ) (fs : List (ℕ × ℕ)) (tail : Bytes)
    (hf : ∀ f ∈ fs, f.1 ≤ 32 ∧ f.2 < 2 ^ f.1) (hroom : (fs.map Prod.fst).sum ≤ 8 * cap) :
    ∃ (blob : Bytes) (pad free : ℕ), fs.foldlM (fun s f => putBits cap s f.1 f.2) ⟨[], 0⟩ = .ok ⟨blob.reverse, free⟩ ∧
      blob.flatMap (fun b => bitsOf 8 b.toNat) = (fs.flatMap fun f => bitsOf f.1 f.2) ++ List.replicate pad false ∧ pad < 8 ∧
      ∃ s', readFields fromBits (fs.map Prod.fst) ⟨blob ++ tail, 8⟩ = .ok (fs.map Prod.snd, s') := by
  obtain ⟨s, h1, h2, h3⟩ := putAll (cap := cap) fs (s := ⟨[], 0⟩) (L := []) ⟨rfl, rfl⟩ (by simp) hf (by simpa using hroom)
  have hbits : byteBits s.rev.reverse = (fs.flatMap fun f => bitsOf f.1 f.2) ++ List.replicate s.free false := by
    simpa using h2.byteBits
  refine ⟨s.rev.reverse, s.free, s.free, by simpa using h1, hbits, h3, ?_⟩
  have hahead : Ahead ⟨s.rev.reverse ++ tail, 8⟩
      ((fs.flatMap fun f => bitsOf f.1 f.2) ++ (List.replicate s.free false ++ byteBits tail)) := by
    refine ⟨by simp, ?_⟩
    rw [← List.append_assoc, ← hbits, ← byteBits_append]
    cases s.rev.reverse ++ tail <;> simp [remaining]
  obtain ⟨s', e, -⟩ := readFields_reads fromBits fs (fun f => bitsOf f.1 f.2)
    (fun f hf' => fromBits_reads (hf f hf').1 (hf f hf').2) hahead
  exact ⟨s', e⟩

/-- Three fields across byte borders. -/
example : ∃ (blob : Bytes) (free : ℕ), [(3, 5), (13, 4097), (0, 0), (32, 4294967295)].foldlM
    (fun s f => putBits 6 s f.1 f.2) ⟨[], 0⟩ = .ok ⟨blob.reverse, free⟩ ∧ blob = [176, 1, 255, 255, 255, 255] :=
  ⟨[176, 1, 255, 255, 255, 255], 0, by decide +kernel, rfl⟩

example : (∀ f ∈ [(3, 5), (13, 4097), (0, 0), (32, 4294967295)], f.1 ≤ 32 ∧ f.2 < 2 ^ f.1) ∧
    ([(3, 5), (13, 4097), (0, 0), (32, 4294967295)].map Prod.fst).sum ≤ 8 * 6 := by
  decide +kernel

theorem codes_read {code : ℕ → ℕ → ℕ × ℕ} {g : ℕ → Get ℕ} (cap : ℕ) (fs : List (ℕ × ℕ)) (tail : Bytes)
    (hsel : ∀ f ∈ fs, (code f.1 f.2).1 < 32 ∧ (code f.1 f.2).2 < 2 ^ (code f.1 f.2).1 ∧
      Reads (g f.2) (bitsOf (code f.1 f.2).1 (code f.1 f.2).2) f.1) (hroom : 4 * fs.length ≤ cap) :
    ∃ s s', fs.foldlM (fun s f => putBits cap s (code f.1 f.2).1 (code f.1 f.2).2) ⟨[], 0⟩ = .ok s ∧
      readFields g (fs.map Prod.snd) ⟨s.rev.reverse ++ tail, 8⟩ = .ok (fs.map Prod.fst, s') ∧
      ∃ pad < 8, byteBits s.rev.reverse = (fs.flatMap fun f => bitsOf (code f.1 f.2).1 (code f.1 f.2).2) ++
        List.replicate pad false := by
  have hsum : ((fs.map fun f => code f.1 f.2).map Prod.fst).sum ≤ 8 * cap := by
    have : ((fs.map fun f => code f.1 f.2).map Prod.fst).sum ≤ 32 * fs.length := by
      clear hroom
      induction fs with
      | nil => simp
      | cons f fs ih =>
        have h1 := (hsel f (by simp)).1
        have := ih (fun g hg => hsel g (by simp [hg]))
        simp only [List.map_cons, List.sum_cons, List.length_cons]
        omega
    omega
  obtain ⟨s, h1, h2, h3⟩ := putAll (cap := cap) (fs.map fun f => code f.1 f.2) (s := ⟨[], 0⟩) (L := []) ⟨rfl, rfl⟩ (by simp)
    (by
      intro g hg
      obtain ⟨f, hf', rfl⟩ := List.mem_map.1 hg
      exact ⟨(hsel f hf').1.le, (hsel f hf').2.1⟩) (by simpa using hsum)
  have hbits : byteBits s.rev.reverse = (fs.flatMap fun f => bitsOf (code f.1 f.2).1 (code f.1 f.2).2) ++ List.replicate s.free false := by
    have := h2.byteBits
    rw [List.nil_append, List.flatMap_map] at this
    exact this
  have hahead : Ahead ⟨s.rev.reverse ++ tail, 8⟩
      (((fs.map Prod.swap).flatMap fun f => bitsOf (code f.2 f.1).1 (code f.2 f.1).2) ++ (List.replicate s.free false ++ byteBits tail)) := by
    refine ⟨by simp, ?_⟩
    rw [List.flatMap_map, ← List.append_assoc]
    show _ = (fs.flatMap fun f => bitsOf (code f.1 f.2).1 (code f.1 f.2).2) ++ _ ++ _
    rw [← hbits, ← byteBits_append]
    cases s.rev.reverse ++ tail <;> simp [remaining]
  obtain ⟨s', e, -⟩ := readFields_reads g (fs.map Prod.swap) (fun f => bitsOf (code f.2 f.1).1 (code f.2 f.1).2)
    (by
      intro f hf'
      obtain ⟨g, hg, rfl⟩ := List.mem_map.1 hf'
      exact (hsel g hg).2.2) hahead
  refine ⟨s, s', ?_, ?_, s.free, h3, hbits⟩
  · rw [List.foldlM_map] at h1
    exact h1
  · have e1 : (fs.map Prod.swap).map Prod.fst = fs.map Prod.snd := by rw [List.map_map]; rfl
    have e2 : (fs.map Prod.swap).map Prod.snd = fs.map Prod.fst := by rw [List.map_map]; rfl
    rw [e1, e2] at e
    exact e

/-- C48, for every number of possibilities that the code can use (up to 2^31): any sequence of choices written with the selection code is read
back, each read consuming exactly the bits of its choice. -/
theorem C48_selection_code_partial (cap : ℕ) (fs : List (ℕ × ℕ)) (tail : Bytes) (hf : ∀ f ∈ fs, f.1 < f.2 ∧ f.2 ≤ 2 ^ 31)
    (hroom : 4 * fs.length ≤ cap) :
    ∃ s s', fs.foldlM (putSel cap) ⟨[], 0⟩ = .ok s ∧
      readFields nineOfSeven (fs.map Prod.snd) ⟨s.rev.reverse ++ tail, 8⟩ = .ok (fs.map Prod.fst, s') ∧
      ∃ pad < 8, s.rev.reverse.flatMap (fun b => bitsOf 8 b.toNat) =
        (fs.flatMap fun f => bitsOf (sevenOfNine f.1 f.2).1 (sevenOfNine f.1 f.2).2) ++ List.replicate pad false :=
  codes_read (code := sevenOfNine) (g := nineOfSeven) cap fs tail (fun f h => selection (hf f h).1 (hf f h).2) hroom

example : ∀ f ∈ [(0, 1), (2, 5), (4, 5), (0, 5), (1000000, 2147483647), (2147483647, 2147483648)], f.1 < f.2 ∧ f.2 ≤ 2 ^ 31 := by
  decide +kernel

/-- C48: no code word is the beginning of another one for the same number of possibilities. -/
theorem C48_prefix_free_partial (n a b : ℕ) (ha : a < n) (hb : b < n) (hn : n ≤ 2 ^ 31)
    (h : bitsOf (sevenOfNine a n).1 (sevenOfNine a n).2 <+: bitsOf (sevenOfNine b n).1 (sevenOfNine b n).2) : a = b := by
  obtain ⟨r, hr⟩ := h
  obtain ⟨-, -, h1⟩ := selection ha hn
  obtain ⟨k, k', h2⟩ := selection hb hn
  -- read the word of `b` from a stream that contains it
  obtain ⟨t, ht⟩ := putBits_ok (cap := 4) (s := ⟨[], 0⟩) (L := []) ⟨rfl, rfl⟩ k.le k' (by simp; omega)
  have hw := (putBits_written (s := ⟨[], 0⟩) (L := []) ⟨rfl, rfl⟩ k' ht).byteBits
  rw [List.nil_append] at hw
  have hA : Ahead ⟨t.rev.reverse, 8⟩ (selBits b n ++ List.replicate t.free false) := by
    refine ⟨by simp, ?_⟩
    unfold selBits
    rw [← hw]
    cases t.rev.reverse <;> simp [remaining]
  obtain ⟨s1, e1, -⟩ := h2 _ _ hA
  have hA' : Ahead ⟨t.rev.reverse, 8⟩ (selBits a n ++ (r ++ List.replicate t.free false)) := by
    rw [← List.append_assoc]
    have : selBits a n ++ r = selBits b n := hr
    rw [this]; exact hA
  obtain ⟨s2, e2, -⟩ := h1 _ _ hA'
  rw [e1] at e2
  cases e2; rfl

/-- C48 is false above 2^31 possibilities: with 2^31 + 1 of them (the number of nonzero elements of a matrix with 2^31 elements) the
last choice is read back as 0. -/
theorem C48_false_above_limit :
    ∃ s s', putSel 4 ⟨[], 0⟩ (2147483648, 2147483649) = .ok s ∧
      nineOfSeven 2147483649 ⟨s.rev.reverse, 8⟩ = .ok (0, s') :=
  ⟨⟨[0, 0, 0, 0], 1⟩, ⟨[0], 1⟩, by decide +kernel, by decide +kernel⟩

/-- C49: decoding the jumps of any sequence of 8-bit exponents returns the exponents. -/
theorem C49_exponents_decode (es : List ℕ) (h : ∀ e ∈ es, e < 256) :
    expsOfJumps 127 (expJumps 127 es) = es ∧ ∀ j ∈ expJumps 127 es, j < 256 := by
  have : ∀ last < 256, expsOfJumps last (expJumps last es) = es ∧ ∀ j ∈ expJumps last es, j < 256 := by
    induction es with
    | nil => intro last _; exact ⟨rfl, by simp [expJumps]⟩
    | cons e es ih =>
      intro last hl
      obtain ⟨i1, i2⟩ := ih (fun x hx => h x (by simp [hx])) e (h e (by simp))
      simp only [expJumps, expsOfJumps, expOfJump_expJump hl (h e (by simp)), i1, List.mem_cons, true_and]
      rintro j (rfl | hj)
      · exact expJump_lt
      · exact i2 j hj
  exact this 127 (by norm_num)

example : expJumps 127 [130, 130, 0, 255, 1] = [6, 0, 255, 255, 254] := by decide

/-- C50: the search in any increasing table of at most 64 entries returns the one entry whose interval contains the number, for every
number up to the last entry. -/
theorem C50_search_in_table (count : ℕ) (last : ℕ → ℕ) (hc : 1 ≤ count) (h64 : count ≤ 64)
    (hm : ∀ i j, i < j → j < count → last i < last j) (x : ℕ) (hx : x ≤ last (count - 1)) :
    let r := findPool count last x
    (r < count ∧ (r = 0 ∨ last (r - 1) < x) ∧ x ≤ last r) ∧
    ∀ i, i < count → (i = 0 ∨ last (i - 1) < x) → x ≤ last i → i = r := by
  have hm' : ∀ i j, i ≤ j → j < count → last i ≤ last j := by
    intro i j h hj
    rcases h.lt_or_eq with h | h
    · exact (hm i j h hj).le
    · rw [h]
  obtain ⟨h1, h2, h3⟩ := findPool_spec hc h64 hm' x
  have h4 : x ≤ last (findPool count last x) := by
    rcases h3 with h | h
    · rwa [show findPool count last x = count - 1 by omega]
    · exact h
  refine ⟨⟨h1, ?_, h4⟩, ?_⟩
  · rcases Nat.eq_zero_or_pos (findPool count last x) with h | h
    · exact Or.inl h
    · exact Or.inr (h2 _ (by omega))
  · intro i hi hlo hhi
    rcases Nat.lt_trichotomy i (findPool count last x) with h | h | h
    · have := h2 i h; omega
    · exact h
    · rcases hlo with hlo | hlo
      · omega
      · have := hm' (findPool count last x) (i - 1) (by omega) (by omega)
        omega

/-- C50 for the tables of the constructor: exponent jumps (16 entries up to 256), zeros (63 entries up to 2^31) and the two tables for
logarithms, for which the search computes the logarithm to base 2 rounded up and down. -/
theorem C50_constructor_tables :
    (∀ (exp : Bool) (x : ℕ), x ≤ (if exp then 256 else 2 ^ 31) →
      (findSrc exp x < (if exp then 16 else 63) ∧ (findSrc exp x = 0 ∨ srcLast exp (findSrc exp x - 1) < x) ∧
        x ≤ srcLast exp (findSrc exp x)) ∧
      ∀ i, i < (if exp then 16 else 63) → (i = 0 ∨ srcLast exp (i - 1) < x) → x ≤ srcLast exp i → i = findSrc exp x) ∧
    (∀ x, 1 ≤ x → x ≤ 2 ^ 31 → findLog x = Nat.clog 2 x) ∧
    (∀ x, 1 ≤ x → x < 2 ^ 32 → findLogDown x = Nat.log 2 x) := by
  refine ⟨?_, ?_, ?_⟩
  · intro exp x hx
    refine C50_search_in_table (baseCount exp) (srcLast exp) (baseCount_pos exp) (baseCount_le exp)
      (fun i j h hj => srcLast_strict exp h hj) x (hx.trans ?_)
    cases exp <;> decide +kernel
  · intro x h1 h2
    have hc : Nat.clog 2 x < 32 := by have := Nat.clog_le_of_le_pow h2; omega
    refine findLog_eq hc ?_ (Nat.le_pow_clog (by norm_num) x)
    by_cases h : Nat.clog 2 x = 0
    · exact Or.inl h
    · right
      by_contra hlt
      push Not at hlt
      have := Nat.clog_le_of_le_pow hlt
      omega
  · intro x h1 h2
    exact findLogDown_eq (Nat.log_lt_of_lt_pow (by omega) h2) (Nat.pow_log_le_self 2 (by omega))
      (Nat.lt_pow_succ_log_self (by norm_num) x)

example : findSrc true 5 = 4 ∧ findSrc false 5 = 5 ∧ findSrc false 2147483648 = 62 ∧ findLog 5 = 3 ∧ findLogDown 5 = 2 := by
  decide +kernel

end WB.Props
