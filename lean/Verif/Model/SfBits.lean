import Verif.Model.Serialize
import Mathlib.Data.Rat.Floor

/-!
Model of the lower half of `SfCompressor::Impl` (`sources/internal/sf_compressor.cc`), the compressor of format version 2: the bit
stream, the pool search, the selection code and the exponent jumps.

`uint32_t` arithmetic is modulo 2^32 (`u32`, `sub32`), `uint8_t` arithmetic modulo 2^8. Shifts by 32 or more, negative shifts and array
accesses out of range are `ub`.
-/

namespace WB.Sf

/-- Reduction to `uint32_t`. -/
def u32 (n : ℕ) : ℕ := n % 4294967296

/-- Reduction to `uint8_t`. -/
def u8 (n : ℕ) : ℕ := n % 256

/-- Subtraction of `uint32_t`. -/
def sub32 (a b : ℕ) : ℕ := (a + 4294967296 - b % 4294967296) % 4294967296

/-- `Pow2Int32[t]`, an array of 32 elements; sources/internal/sf_compressor.cc:58-62, 939. -/
def pow2 (t : ℕ) : Outcome ℕ := if t < 32 then .ok (2 ^ t) else .ub

/-! ### Writing bits -/

/-- `OutData[0..OutBytes)`, last byte first, and `OutBitsFree`. -/
structure BitOut where
  rev : Bytes
  free : ℕ
  deriving DecidableEq

/-- Lines 853-858: make room for at least one bit. `OutData` has `cap` elements. -/
def BitOut.room (cap : ℕ) (s : BitOut) : Outcome BitOut :=
  if s.free = 0 then
    if s.rev.length < cap then .ok ⟨0 :: s.rev, 8⟩ else .ub
  else .ok s

/-- `OutData[OutBytes - 1] += x`, in `uint8_t`. -/
def BitOut.add (s : BitOut) (x : ℕ) : Bytes :=
  match s.rev with
  | [] => []
  | b :: bs => UInt8.ofNat (b.toNat + x) :: bs

/-- `Bitstream(typeOutAdder)`, sources/internal/sf_compressor.cc:850-874: writes the `used` low bits of `out`. Each pass of the loop writes
at least one bit, so `used` passes are enough; the first argument counts them. -/
def putLoop (cap : ℕ) : ℕ → BitOut → ℕ → ℕ → Outcome BitOut
  | 0, s, _, _ => .ok s
  | fuel + 1, s, used, out =>
    if used = 0 then .ok s
    else do
      let s ← s.room cap
      if used ≤ s.free then
        .ok ⟨s.add (u32 (out * 2 ^ (s.free - used))), s.free - used⟩
      else if 32 ≤ used - s.free then .ub
      else putLoop cap fuel ⟨s.add (out / 2 ^ (used - s.free)), 0⟩ (used - s.free) (out % 2 ^ (used - s.free))

/-- `Bitstream(typeOutAdder)`. -/
def putBits (cap : ℕ) (s : BitOut) (used out : ℕ) : Outcome BitOut := putLoop cap used s used out

/-! ### Reading bits -/

/-- `OutData[OutByteNr..]` and `OutBitsFreeRead`. The unread bits of the first byte are its high bits. Bytes before
`OutByteNr` are never looked at again and left out. -/
structure BitIn where
  bytes : Bytes
  free : ℕ
  deriving DecidableEq

/-- The loop of `FromBitstream`, sources/internal/sf_compressor.cc:911-937, by recursion over the bytes; reading beyond the end of
`OutData` is undefined behaviour. -/
def getLoop : Bytes → ℕ → ℕ → ℕ → Outcome (ℕ × BitIn)
  | [], _, _, _ => .ub
  | b :: bs, free, rest, acc =>
    if free = 0 then getLoop bs 8 rest acc
    else if rest ≤ free then
      .ok (u32 (acc * 2 ^ rest + b.toNat / 2 ^ (8 - rest)), ⟨UInt8.ofNat (b.toNat * 2 ^ rest) :: bs, free - rest⟩)
    else getLoop bs 8 (rest - free) (u32 (acc * 2 ^ free + b.toNat / 2 ^ (8 - free)))

/-- A step that reads from the bit stream. -/
abbrev Get (β : Type) := BitIn → Outcome (β × BitIn)

/-- Sequencing. -/
def Get.bind {β γ : Type} (g : Get β) (f : β → Get γ) : Get γ := fun s => g s >>= fun x => f x.1 x.2

/-- Nothing to read. -/
def Get.pure {β : Type} (x : β) : Get β := fun s => .ok (x, s)

/-- A step that does not touch the stream. -/
def Get.lift {β : Type} (o : Outcome β) : Get β := fun s => o >>= fun x => .ok (x, s)

/-- `FromBitstream`, sources/internal/sf_compressor.cc:911-937. The bit count is a `uint8_t`. -/
def fromBits (count : ℕ) : Get ℕ := fun s =>
  if u8 count = 0 then .ok (0, s) else getLoop s.bytes s.free (u8 count) 0

/-! ### Pool search -/

/-- The loop of `setPoolSearch`, sources/internal/sf_compressor.cc:677-684, from step `b` on. `BisecStep` has 6 elements; no pool has more
than 63 entries, so the first argument never runs out. -/
def bisecLoop (count : ℕ) : ℕ → ℕ → List ℕ
  | 0, b => [count - 2 ^ b]
  | fuel + 1, b => if 2 ^ (b + 1) < count then 2 ^ b :: bisecLoop count fuel (b + 1) else [count - 2 ^ b]

/-- `setPoolSearch`, sources/internal/sf_compressor.cc:674-686: the steps of the search in a table of `count` entries. -/
def bisecSteps (count : ℕ) : List ℕ := if 1 < count then bisecLoop count 5 0 else []

/-- `findPoolNr`, sources/internal/sf_compressor.cc:688-697; the steps are tried from the last to the first. -/
def findPool (count : ℕ) (last : ℕ → ℕ) (x : ℕ) : ℕ :=
  (bisecSteps count).foldr (fun step r => if last (step + r - 1) < x then step + r else r) 0

/-- `Pool[0].Last` (exponent jumps) and `Pool[1].Last` (zeros), sources/internal/sf_compressor.cc:69-77, without the number of entries. -/
def lastBase (exp : Bool) : ℕ → ℕ
  | 0 => 0
  | 1 => 1
  | 2 => 2
  | 3 => if exp then 4 else 3
  | 4 => if exp then 6 else 4
  | n + 5 => 2 * lastBase exp (n + 3)

/-- `Pool[0].PoolsCount` and `Pool[1].PoolsCount`, lines 70-71. -/
def baseCount (exp : Bool) : ℕ := if exp then 16 else 63

/-- `Pool[0].Last` and `Pool[1].Last` as arrays of 64 elements; entries that the constructor does not set are 0 (the pools are
value-initialised, line 941). -/
def srcLast (exp : Bool) (t : ℕ) : ℕ := if t < baseCount exp then lastBase exp t else 0

/-- `findPoolNr(0, x)` and `findPoolNr(1, x)`. -/
def findSrc (exp : Bool) (x : ℕ) : ℕ := findPool (baseCount exp) (srcLast exp) x

/-- `findPoolNr(4, x)`: `Pool[4].Last[t] = 2^t`, 32 entries; lines 85-88. -/
def findLog (x : ℕ) : ℕ := findPool 32 (fun t => 2 ^ t) x

/-- `findPoolNr(5, x)`: `Pool[5].Last[t] = 2^(t+1) - 1`, 32 entries; lines 89-92. -/
def findLogDown (x : ℕ) : ℕ := findPool 32 (fun t => 2 ^ (t + 1) - 1) x

/-! ### The selection code -/

/-- `SevenOfNine`, sources/internal/sf_compressor.cc:729-755: number of bits and bits for the choice `sel` among `poss` possibilities. The
number of bits is a `uint8_t`. -/
def sevenOfNine (sel poss : ℕ) : ℕ × ℕ :=
  let bits := findLog poss
  let mampf := u32 (sub32 (2 ^ bits) poss + 1)
  if 1 < mampf then
    let p := findLogDown mampf
    if 0 < sel then
      if sel ≤ sub32 mampf (2 ^ p) then (u8 (bits + 255), u32 (sel + sub32 (2 ^ (p - 1)) 1))
      else (bits, u32 (sel + (mampf - 1)))
    else (u8 (bits + 256 - p), sel)
  else (bits, sel)

/-- `NineOfSeven`, sources/internal/sf_compressor.cc:757-780. With `Pow2ForZero = 0` the shift by `Pow2ForZero - 1` is undefined. -/
def nineOfSeven (poss : ℕ) : Get ℕ :=
  let bits := findLog poss
  let mampf := u32 (sub32 (2 ^ bits) poss + 1)
  if mampf = 1 then fromBits bits
  else
    let p := findLogDown mampf
    Get.bind (fromBits (u8 (bits + 256 - p))) fun v =>
    if v = 0 then Get.pure 0
    else if p = 0 then Get.lift .ub
    else Get.bind (fromBits (p - 1)) fun w =>
      let v := u32 (v * 2 ^ (p - 1) + w)
      if sub32 (u32 (v + 1)) (2 ^ (p - 1)) ≤ sub32 mampf (2 ^ p) then Get.pure (sub32 (u32 (v + 1)) (2 ^ (p - 1)))
      else Get.bind (fromBits 1) fun w => Get.pure (u32 (sub32 (u32 (v * 2 + w)) mampf + 1))

/-- One `Bitstream(SevenOfNine(sel, poss))`. -/
def putSel (cap : ℕ) (s : BitOut) (f : ℕ × ℕ) : Outcome BitOut :=
  putBits cap s (sevenOfNine f.1 f.2).1 (sevenOfNine f.1 f.2).2

/-! ### Exponent jumps -/

/-- sources/internal/sf_compressor.cc:159-170: the jump written for exponent `e` after exponent `last`. -/
def expJump (last e : ℕ) : ℕ :=
  if last ≤ e then u8 ((e - last) + (if last < e - last then last else e - last))
  else u8 ((last - e) + (if 255 - last < last - e then 255 - last else last - e - 1))

/-- sources/internal/sf_compressor.cc:618-638: the exponent meant by jump `j` after exponent `last`. -/
def expOfJump (last j : ℕ) : ℕ :=
  if last < 128 then
    if j ≤ 2 * last then
      if j % 2 = 0 then u8 (j / 2 + last) else u8 (last + 256 - (j + 1) / 2)
    else j
  else
    if j ≤ 2 * (255 - last) then
      if j % 2 = 0 then u8 (j / 2 + last) else u8 (last + 256 - (j + 1) / 2)
    else u8 (255 + 256 - j)

/-- The jumps of a sequence of exponents, sources/internal/sf_compressor.cc:144, 159-170, 178; the exponent before the first is 127. -/
def expJumps : ℕ → List ℕ → List ℕ
  | _, [] => []
  | last, e :: es => expJump last e :: expJumps e es

/-- The exponents of a sequence of jumps, sources/internal/sf_compressor.cc:492, 616-639. -/
def expsOfJumps : ℕ → List ℕ → List ℕ
  | _, [] => []
  | last, j :: js => expOfJump last j :: expsOfJumps (expOfJump last j) js

end WB.Sf
