import Verif.Model.SfBits

/-!
Model of `SfCompressor::Impl::Compress` and `Decompress` (`sources/internal/sf_compressor.cc:99-671`) and of
`ParseCompressedSubbands` (`sources/wavelet_buffer_serializer.cc:156-200`).

The choice of code lengths from the frequencies (lines 206-269, a heuristic in `double`) is a parameter here; the choice of the code is in
`Verif.Model.SfChoose`. The other `double` computations (`FreeCodes`, `MaxPossCode`, offsets) only involve multiples of 2^-32 and numbers below 2^53 and are therefore exact;
they are modelled with rational numbers. (`FreeCodes` changes only for code lengths below 32, for longer ones the index into
`Pow2Int32` is out of range.)
-/

namespace WB.Sf

/-- `SfCompressor::OriginalData`, sources/internal/sf_compressor.h:20-30. -/
structure Origin where
  frag : ℕ
  rowBased : Bool
  rows : ℕ
  cols : ℕ
  indexes : List ℕ
  values : List F32
  deriving DecidableEq

/-- An `int` or a difference of integers converted to `uint32_t`. -/
def ofInt32 (x : ℤ) : ℕ := (x % 4294967296).toNat

/-- A `uint32_t` converted to `int`. -/
def asInt (n : ℕ) : ℤ := if n < 2147483648 then n else (n : ℤ) - 4294967296

/-- A `double` converted to `uint32_t`: cut towards zero, undefined when the result does not fit. -/
def toU32 (q : ℚ) : Outcome ℕ := if -1 < q ∧ q < 4294967296 then .ok ⌊q⌋.toNat else .ub

/-! ### Compress -/

/-- `bfloat16`, sources/internal/sf_compressor.cc:15-19. -/
structure BF where
  exp : ℕ
  sgn : ℕ
  sgnFrag : ℕ
  deriving DecidableEq

/-- `float_to_bfloat16`, sources/internal/sf_compressor.cc:876-909. For a zero the member `Sgn` is left indeterminate and the
caller uses it (line 158). The bits of the number are read through a pointer to a 64-bit integer; only the low 32 bits, those of the
number, are kept (the read itself goes beyond the variable; this is ignored). -/
def toBF (frag : ℕ) (x : F32) : Outcome BF :=
  if F32.isZero x then .ub
  else
    let z := x.toNat
    let e := u32 (z * 2) / 2 ^ 24
    let f := u32 (z * 2 ^ 9) / 2 ^ (32 - frag)
    let sgn := z / 2 ^ 31
    if frag < 23 ∧ u32 (z * 2 ^ (9 + frag)) / 2 ^ 31 = 1 then
      if f + 1 = 2 ^ frag then .ok ⟨if e < 255 then e + 1 else e, sgn, sgn * 2 ^ frag⟩
      else .ok ⟨e, sgn, f + 1 + sgn * 2 ^ frag⟩
    else .ok ⟨e, sgn, f + sgn * 2 ^ frag⟩

/-- One entry of `ZeroCount`, `ExpJump` and `Fragment`, with the sign. -/
structure Slot where
  zeros : ℕ
  jump : ℕ
  frag : ℕ
  sgn : ℕ
  deriving DecidableEq

/-- The loop over the values, sources/internal/sf_compressor.cc:152-179. The second argument is the index before, the third the exponent
before. -/
def timeline (frag : ℕ) : Option ℕ → ℕ → List (ℕ × F32) → Outcome (List Slot)
  | _, _, [] => .ok []
  | prev, last, (i, x) :: rest => do
    let b ← toBF frag x
    let slots ← timeline frag (some i) b.exp rest
    pure (⟨sub32 i (match prev with | none => 0 | some p => u32 (1 + p)), expJump last b.exp, b.sgnFrag, b.sgn⟩ :: slots)

/-- `SgnUsed`, line 158. -/
def signsUsed (slots : List Slot) : ℕ := slots.foldl (fun a s => (s.sgn + 1) ||| a) 0

/-- The number that goes into a pool table: the jump or the zeros. -/
def Slot.sym (exp : Bool) (s : Slot) : ℕ := if exp then s.jump else s.zeros

/-- `Pool[0].DSQty` and `Pool[1].DSQty`, lines 172-173. -/
def dsQty (exp : Bool) (slots : List Slot) (t : ℕ) : ℕ := (slots.filter fun s => findSrc exp (s.sym exp) = t).length

/-- `PoolsUsed`, lines 189-196: the search from the top. -/
def topUsed (q : ℕ → ℕ) : ℕ → ℕ
  | 0 => 0
  | t + 1 => if 0 < q t then t + 1 else topUsed q t

/-- `Pool[0].PoolsUsed` and `Pool[1].PoolsUsed`. -/
def poolsUsed (exp : Bool) (slots : List Slot) : ℕ := topUsed (dsQty exp slots) (baseCount exp)

/-- `Pool[0].CodeQty` and `Pool[1].CodeQty`, sources/internal/sf_compressor.cc:78-81: how many numbers belong to a pool. -/
def codeQty (exp : Bool) (t : ℕ) : ℕ := if t = 0 then 1 else sub32 (srcLast exp t) (srcLast exp (t - 1))

/-- A choice of code lengths, sources/internal/sf_compressor.cc:206-269: for one of the two tables, from the number of values (`TimelineLen`)
and the frequencies of the pools (`DSQty`) to `CodeLen`. -/
abbrev Choose := Bool → ℕ → (ℕ → ℕ) → Outcome (ℕ → ℕ)

/-- An entry of an output pool. -/
structure Entry where
  len : ℕ
  lastPool : ℕ
  last : ℕ
  offset : ℕ
  deriving DecidableEq

/-- `CodeLen` and `LastPoolNr` of an output pool, sources/internal/sf_compressor.cc:272-319: runs of equal code lengths. The arguments are the
number of pools left, the next pool and the code length of the run. -/
def runs (lens : ℕ → ℕ) : ℕ → ℕ → ℕ → List (ℕ × ℕ)
  | 0, t, cur => [(cur, t - 1)]
  | k + 1, t, cur => if lens (t - 1) < lens t then (cur, t - 1) :: runs lens k (t + 1) (lens t) else runs lens k (t + 1) cur

/-- `Last` and `CodeOffset` of an output pool, sources/internal/sf_compressor.cc:277-315. The third argument is the entry before. A
negative shift, or one by 32 or more, is undefined. -/
def entries (exp : Bool) : Option Entry → List (ℕ × ℕ) → Outcome (List Entry)
  | _, [] => .ok []
  | none, (len, p) :: rest => do
    let e : Entry := ⟨len, p, srcLast exp p, 0⟩
    let es ← entries exp (some e) rest
    pure (e :: es)
  | some b, (len, p) :: rest =>
    if len < b.len ∨ 32 ≤ len - b.len then .ub
    else do
      let e : Entry := ⟨len, p, srcLast exp p,
        sub32 (u32 (u32 (b.offset + b.last + 1) * 2 ^ (len - b.len))) (u32 (b.last + 1))⟩
      let es ← entries exp (some e) rest
      pure (e :: es)

/-- The output pool for the code lengths of the `used` input pools. -/
def outPool (exp : Bool) (lens : ℕ → ℕ) (used : ℕ) : Outcome (List Entry) :=
  entries exp none (runs lens (used - 1) 1 (lens 0))

/-- The number of possibilities for the next entry at code length `d`: lines 410-413, 419-423 and 545-548. `Pow2Dbl129` has 129
elements. -/
def possAt (free : ℚ) (lastCode lastPool : ℤ) (d : ℕ) : Outcome ℕ :=
  if 128 < d then .ub
  else do
    let c ← toU32 (lastCode + free * 2 ^ d)
    pure (ofInt32 ((findSrc false c : ℤ) - lastPool + 1))

/-- The fields for code lengths without entries, lines 408-418. -/
def skipFields (free : ℚ) (lastCode lastPool : ℤ) : ℕ → ℕ → Outcome (List (ℕ × ℕ))
  | 0, _ => .ok []
  | k + 1, d => do
    let n ← possAt free lastCode lastPool d
    let fs ← skipFields free lastCode lastPool k (d + 1)
    pure ((0, n) :: fs)

/-- The fields of an output pool, sources/internal/sf_compressor.cc:406-433; `d` is `LastDefinedCodeLen + 1`. -/
def tableFields : ℚ → ℤ → ℤ → ℕ → List Entry → Outcome (List (ℕ × ℕ))
  | _, _, _, _, [] => .ok []
  | free, lastCode, lastPool, d, e :: es => do
    let skipped ← skipFields free lastCode lastPool (e.len - d) d
    let n ← possAt free lastCode lastPool e.len
    let fs ← tableFields (free - (ofInt32 ((e.last : ℤ) - lastCode) : ℚ) / 2 ^ e.len) (asInt e.last) e.lastPool (e.len + 1) es
    pure (skipped ++ (ofInt32 ((e.lastPool : ℤ) - lastPool), n) :: fs)

/-- The fields of both output pools, lines 395-435; a pool whose first code length is 0 is left out. -/
def poolFields (es : List Entry) : Outcome (List (ℕ × ℕ)) :=
  match es with
  | [] => .ok []
  | e :: _ => if e.len = 0 then .ok [] else tableFields 1 (-1) (-1) e.len es

/-- The field for one symbol, lines 443-445 and 457-459. -/
def symField (es : List Entry) (x : ℕ) : Outcome (ℕ × ℕ) := do
  let e ← rd es (findPool es.length (fun t => (es.getD t ⟨0, 0, 0, 0⟩).last) x)
  let n ← pow2 e.len
  pure (u32 (x + e.offset), n)

/-- A field that is only written under a condition. -/
def optField (c : Bool) (f : Outcome (ℕ × ℕ)) : Outcome (List (ℕ × ℕ)) := if c then f.bind fun f => .ok [f] else .ok []

/-- The fields of one value, lines 441-473. -/
def slotFields (zeros jumps : List Entry) (zerosAppear : Bool) (fragCodes : ℕ) (s : Slot) : Outcome (List (ℕ × ℕ)) := do
  let a ← optField zerosAppear (symField zeros s.zeros)
  let b ← optField (decide (0 < (jumps.headD ⟨0, 0, 0, 0⟩).len)) (symField jumps s.jump)
  pure (a ++ b ++ [(s.frag % fragCodes, fragCodes)])

/-- All fields of all values. -/
def slotsFields (zeros jumps : List Entry) (zerosAppear : Bool) (fragCodes : ℕ) : List Slot → Outcome (List (ℕ × ℕ))
  | [] => .ok []
  | s :: ss => do
    let a ← slotFields zeros jumps zerosAppear fragCodes s
    let b ← slotsFields zeros jumps zerosAppear fragCodes ss
    pure (a ++ b)

/-- Everything that is written, as choices (choice, possibilities) in order: sources/internal/sf_compressor.cc:343-474. `row`, `col` and `n`
are `uint32_t`. -/
def allFields (o : Origin) (row col n : ℕ) (slots : List Slot) (jumps zeros : List Entry) : Outcome (List (ℕ × ℕ)) := do
  let rc := findLog (u32 (max row col + 1))
  let sgn := signsUsed slots
  let total := u32 (row * col + 1)
  let head := [(0, 4), (o.rowBased.toNat, 2), (rc, 32)]
  if rc = 0 then pure head
  else do
    let size ← pow2 rc
    let t2 ← poolFields jumps
    let t3 ← poolFields zeros
    let fragCodes ← pow2 (if sgn = 3 then o.frag + 1 else o.frag)
    let body ← slotsFields zeros jumps (decide (n < total)) fragCodes slots
    pure (head ++ [(row, size), (col, size), (sgn, 4), (n, total), (if o.frag < 22 then o.frag - 7 else o.frag - 8, 16),
      ((jumps.headD ⟨0, 0, 0, 0⟩).len, 8)] ++ (if n < total then [((zeros.headD ⟨0, 0, 0, 0⟩).len, 32)] else []) ++ t2 ++ t3 ++ body)

/-- `Compress`, sources/internal/sf_compressor.cc:99-483, for a compressor with buffers of `cap` elements; `none` is the return value 0. With no
values at all, `Last[PoolsUsed - 1]` (line 208) is outside the array. (So `SgnUsed > 0` where the code asks for it.) -/
def compress (cap : ℕ) (choose : Choose) (o : Origin) : Outcome (Option Bytes) :=
  if o.frag < 7 ∨ 23 < o.frag ∨ o.frag = 22 then .ok none
  else if o.cols * o.rows % 2 ^ 64 < o.values.length then .ok none
  else if o.values.length ≠ o.indexes.length then .ok none
  else
    let n := u32 o.indexes.length
    if cap < n then .ub
    else do
      let slots ← timeline o.frag none 127 ((o.indexes.zip o.values).take n)
      if poolsUsed true slots = 0 ∨ poolsUsed false slots = 0 then .ub
      else do
        let jumpLens ← choose true n (dsQty true slots)
        let zeroLens ← choose false n (dsQty false slots)
        let jumps ← outPool true jumpLens (poolsUsed true slots)
        let zeros ← outPool false zeroLens (poolsUsed false slots)
        if 2147483648 < u32 o.rows * u32 o.cols then .ok none
        else do
          let fs ← allFields o (u32 o.rows) (u32 o.cols) n slots jumps zeros
          let s ← fs.foldlM (putSel cap) ⟨[], 0⟩
          pure (some s.rev.reverse)

/-- What lines 343-371 write for a matrix without nonzero values, and nothing after it (`SgnUsed` is 0 and a new object has no code lengths):
the format of such a matrix. -/
def emptyFields (rowBased : Bool) (rows cols : ℕ) : List (ℕ × ℕ) :=
  let rc := findLog (max rows cols + 1)
  [(0, 4), (rowBased.toNat, 2), (rc, 32), (rows, 2 ^ rc), (cols, 2 ^ rc), (0, 4)]

/-! ### Decompress -/

/-- The members of an output pool that `Decompress` uses; arrays of 64 elements. -/
structure Table where
  count : ℕ
  len : ℕ → ℕ
  last : ℕ → ℕ
  offset : ℕ → ℕ

/-- A pool of a new object: all zero (`Pool{}`, line 941). -/
def Table.fresh : Table := ⟨0, fun _ => 0, fun _ => 0, fun _ => 0⟩

/-- The `do … while` loop, sources/internal/sf_compressor.cc:543-555, from code length `d` on: the code length of the next entry and the number
read. `possAt` stops the loop after code length 128. -/
def nextEntry (free : ℚ) (lastCode lastPool : ℤ) : ℕ → ℕ → Get (ℕ × ℕ)
  | 0, _ => Get.lift .ub
  | fuel + 1, d =>
    Get.bind (Get.lift (possAt free lastCode lastPool d)) fun n =>
    Get.bind (nineOfSeven n) fun g =>
    if g = 0 then nextEntry free lastCode lastPool fuel (d + 1) else Get.pure (d, g)

/-- `a[t] = x`. -/
def setAt (a : ℕ → ℕ) (t x : ℕ) : ℕ → ℕ := fun i => if i = t then x else a i

/-- `Pool[PNr - 2].Last[p]`; the array has 64 elements. -/
def lastAt (exp : Bool) (p : ℕ) : Outcome ℕ := if p < 64 then .ok (srcLast exp p) else .ub

/-- The loop over the entries of a pool, sources/internal/sf_compressor.cc:542-569, with `k` rounds left; `d` is `LastDefinedCodeLen + 1`. -/
def readTable (exp : Bool) : ℕ → ℕ → ℚ → ℤ → ℤ → ℕ → Table → Get Table
  | 0, _, _, _, _, _, tab => Get.pure tab
  | k + 1, t, free, lastCode, lastPool, d, tab =>
    Get.bind (nextEntry free lastCode lastPool 130 d) fun r =>
    let p := ((lastPool + r.2) % 256).toNat
    Get.bind (Get.lift (lastAt exp p)) fun last =>
    Get.bind (Get.lift (pow2 r.1)) fun pw =>
    Get.bind (Get.lift (toU32 ((1 - free) * pw - lastCode - 1))) fun off =>
    let free' := free - (ofInt32 ((last : ℤ) - lastCode) : ℚ) / 2 ^ r.1
    let tab' : Table := ⟨tab.count + 1, setAt tab.len t r.1, setAt tab.last t last, setAt tab.offset t off⟩
    if free' = 0 then Get.pure tab'
    else readTable exp k (t + 1) free' (asInt last) (lastPool + r.2) (r.1 + 1) tab'

/-- One pool, sources/internal/sf_compressor.cc:529-571; with first code length 0 only the number of entries is reset. -/
def readPool (exp : Bool) (first : ℕ) (tab : Table) : Get Table :=
  if first = 0 then Get.pure { tab with count := 0 }
  else readTable exp (baseCount exp) 0 1 (-1) (-1) first { tab with count := 0 }

/-- The loop over the longer code lengths, sources/internal/sf_compressor.cc:591-598 and 607-614, with `k` rounds left. `ExpJmpTmp` is an
`int`; like `ZeroCount` it is treated as `uint32_t`. -/
def symLoop (tab : Table) : ℕ → ℕ → ℕ → Get ℕ
  | 0, _, v => Get.pure v
  | k + 1, t, v =>
    let push := u8 (tab.len t + 256 - tab.len (t - 1))
    if 32 ≤ push then Get.lift .ub
    else Get.bind (fromBits push) fun w =>
      let v := u32 (v * 2 ^ push + w)
      if v ≤ u32 (tab.last t + tab.offset t) then Get.pure (sub32 v (tab.offset t)) else symLoop tab k (t + 1) v

/-- One symbol, sources/internal/sf_compressor.cc:589-599 and 605-615. -/
def readSym (tab : Table) : Get ℕ :=
  Get.bind (fromBits (tab.len 0)) fun v =>
  if v ≤ tab.last 0 then Get.pure v else symLoop tab (tab.count - 1) 1 v

/-- sources/internal/sf_compressor.cc:645-659: the number `±(1 + f / 2^frag) * 2^(e - 127)`, or 0 if `e = 0`. As a `double` it is exact, and for `e < 255` it
is a `float`, given here by its bits; for `e = 255` it is beyond the range of `float` and the conversion is undefined. -/
def toFloat (neg : Bool) (frag e f : ℕ) : Outcome F32 :=
  if e = 0 then .ok 0
  else if 255 ≤ e then .ub
  else .ok (BitVec.ofNat 32 (neg.toNat * 2 ^ 31 + e * 2 ^ 23 + f * 2 ^ (23 - frag)))

/-- The loop over the values, sources/internal/sf_compressor.cc:587-660, with `k` values left, at position `i`. `idx` is `IndexNow` as a
`uint32_t`; `ZeroCount` and `ExpJump` have `cap` elements. -/
def readValues (cap : ℕ) (jumps zeros : Table) (sgn frag : ℕ) (zerosAppear : Bool) : ℕ → ℕ → ℕ → ℕ → Get (List ℕ × List F32)
  | 0, _, _, _ => Get.pure ([], [])
  | k + 1, i, idx, last =>
    if cap ≤ i then Get.lift .ub
    else
      Get.bind (if zerosAppear then readSym zeros else Get.pure 0) fun z =>
      Get.bind (readSym jumps) fun j =>
      let e := expOfJump last (u8 j)
      Get.bind (if sgn = 3 then Get.bind (fromBits 1) fun b => Get.pure (decide (b = 1)) else Get.pure (decide (sgn ≠ 1))) fun neg =>
      Get.bind (fromBits frag) fun f =>
      Get.bind (Get.lift (toFloat neg frag e f)) fun x =>
      let idx' := u32 (idx + 1 + z)
      Get.bind (readValues cap jumps zeros sgn frag zerosAppear k (i + 1) idx' e) fun r =>
      Get.pure (if zerosAppear then (idx' :: r.1, x :: r.2) else (r.1, x :: r.2))

/-- The state that an `Impl` object keeps from one `Decompress` to the next: the two output pools. -/
structure Pools where
  jumps : Table
  zeros : Table

/-- A new object. -/
def Pools.fresh : Pools := ⟨.fresh, .fresh⟩

/-- The body of `Decompress` after the version, sources/internal/sf_compressor.cc:506-660. If the matrix looks full, `Zeros1stCodeLen` is used without
having been set (line 535). -/
def readBody (cap : ℕ) (p : Pools) : Get (Origin × Pools) :=
  Get.bind (fromBits 1) fun rowBased =>
  Get.bind (nineOfSeven 32) fun rc =>
  Get.bind (Get.lift (pow2 (u8 rc))) fun size =>
  Get.bind (nineOfSeven size) fun row =>
  Get.bind (nineOfSeven size) fun col =>
  Get.bind (nineOfSeven 4) fun sgn =>
  let total := u32 (row * col + 1)
  Get.bind (nineOfSeven total) fun n =>
  Get.bind (nineOfSeven 16) fun fc =>
  let frag := u8 (u8 fc + if 14 < u8 fc then 8 else 7)
  Get.bind (nineOfSeven 8) fun first2 =>
  if total ≤ n then Get.lift .ub
  else
    Get.bind (nineOfSeven 32) fun first3 =>
    Get.bind (readPool true (u8 first2) p.jumps) fun jumps =>
    Get.bind (readPool false (u8 first3) p.zeros) fun zeros =>
    Get.bind (readValues cap jumps zeros (u8 sgn) frag true n 0 4294967295 127) fun r =>
    Get.pure (⟨frag, decide (rowBased ≠ 0), row, col, r.1, r.2⟩, ⟨jumps, zeros⟩)

/-- `Decompress`, sources/internal/sf_compressor.cc:485-671, on an object with pools `p` and `OutData = buf`; `none` is the return value `false`.
Copying a blob longer than `OutData` writes outside it. -/
def decompress (p : Pools) (buf blob : Bytes) : Outcome (Option Origin × Pools) :=
  if buf.length < blob.length then .ub
  else do
    let v ← fromBits 2 ⟨blob ++ buf.drop blob.length, 8⟩
    if v.1 = 0 then do
      let r ← readBody buf.length p v.2
      pure (some r.1.1, r.1.2)
    else pure (none, p)

/-! ### ParseCompressedSubbands -/

/-- `GetMemorySizeForSfCompressor`, sources/wavelet_buffer_serializer.cc:156-165. The product of the sides is a `size_t`; the `double`
computation is exact for sizes below 2^51 and taken as exact. A result that does not fit `size_t` is treated in `legacySubband`. -/
def memorySize (shape : List ℕ) (s : ℕ) : ℕ :=
  if shape.length = 1 then (shape.getD 0 0 * 4 % 2 ^ 64) * 3 / (2 * 2 ^ s)
  else (shape.getD 0 0 * shape.getD 1 0 * 4 % 2 ^ 64) * 3 / (2 * 4 ^ (s / 3))

/-- One subband, sources/wavelet_buffer_serializer.cc:180-196. The conversion of a `double` of 2^64 or more to `size_t` is undefined. -/
def legacySubband (alloc : ℕ → ℕ → Outcome Unit) (p : Params) (s : ℕ) (blob : Bytes) : Outcome (Option (Mat F32)) :=
  if 2 ^ 64 ≤ memorySize p.shape s then .ub
  else do
    alloc 1 (memorySize p.shape s)
    let r ← decompress .fresh (List.replicate (memorySize p.shape s) 0) blob
    match r.1 with
    | none => pure none
    | some o => do
      alloc o.rows o.cols
      let m ← (o.indexes.zip o.values).foldlM putEntry (Mat.ofFn o.rows o.cols fun _ _ => 0)
      pure (some m)

end WB.Sf
