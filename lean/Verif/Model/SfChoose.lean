import Verif.Model.SfCompressor
import Verif.Model.Pixel

/-!
Model of the choice of code lengths, `sources/internal/sf_compressor.cc:189-269`: the code lengths of the pools from the number of values
in each pool. The first part compares shares as `double`s; every product and quotient is rounded by `r.toDouble`, the numbers it starts
from are integers below 2^53. The second part only has multiples of 2^-32 between -2^32 and 1, which `double`s hold exactly.
-/

namespace WB.Sf

open Classical in
/-- The search with one code length, sources/internal/sf_compressor.cc:215-232: `last` is `Pool[PNr].Last`, `up` is `DSQtyUp`, `n` is `TimelineLen`,
`codes` and `count` are `CodesReady` and `CountUpsReady`. The last three arguments are the number of pools left, the next pool `t` and
`NextPoolsReady`. -/
noncomputable def scan (r : Rounding) (last up : ℕ → ℕ) (n len : ℕ) (free : ℝ) (codes count : ℕ) : ℕ → ℕ → ℕ → ℕ
  | 0, _, next => next
  | k + 1, t, next =>
    let soll := r.toDouble (r.toDouble (((last t + 1 - codes : ℕ) : ℝ) * (2 ^ (32 - len) - 1)) / free)
    if 1 < soll then next
    else
      let ist := r.toDouble (((up t - count : ℕ) : ℝ) / n)
      scan r last up n len free codes count k (t + 1) (if soll ≤ ist then t + 1 else next)

/-- `CodeLen`, `PoolsReady`, `CodesReady` and `CountUpsReady`. -/
structure Ready where
  lens : ℕ → ℕ
  pools : ℕ
  codes : ℕ
  count : ℕ

/-- The loop over the code lengths, sources/internal/sf_compressor.cc:213-247, with `k` rounds left, at code length `len`. `FreeCodes` is
always `2^32 - (Last[PoolsUsed - 1] + 1 - CodesReady)` (lines 207-208 and 238-240). -/
noncomputable def assign (r : Rounding) (last up : ℕ → ℕ) (n used : ℕ) : ℕ → ℕ → Ready → (ℕ → ℕ)
  | 0, _, s => s.lens
  | k + 1, len, s =>
    let free : ℝ := 2 ^ 32 - ((last (used - 1) + 1 - s.codes : ℕ) : ℝ)
    let next := scan r last up n len free s.codes s.count (used - s.pools) s.pools s.pools
    let s' := if s.pools < next then
        ⟨fun t => if s.pools ≤ t ∧ t < next then len else s.lens t, next, last (next - 1) + 1, up (next - 1)⟩
      else s
    if s'.pools = used then s'.lens else assign r last up n used k (len + 1) s'

/-- One round of the loop over the pools, sources/internal/sf_compressor.cc:257-268, with `k` pools left, at pool `t`: `CodeLen` (a `uint8_t`) and
`FreeCodes`. -/
def grow (size : ℕ → ℕ) : ℕ → ℕ → (ℕ → ℕ) → ℚ → (ℕ → ℕ) × ℚ
  | 0, _, lens, free => (lens, free)
  | k + 1, t, lens, free =>
    let share := (size t : ℚ) / 2 ^ lens t
    if share ≤ free then
      let lens' := setAt lens t (u8 (lens t + 255))
      if free - share = 0 then (lens', free - share) else grow size k (t + 1) lens' (free - share)
    else grow size k (t + 1) lens free

/-- The `while` loop, sources/internal/sf_compressor.cc:256-269. A round that changes nothing would be repeated for ever, which is undefined
behaviour. The first argument limits the number of rounds; it is never used up with 2048, because a round makes a code length shorter. -/
def fill (size : ℕ → ℕ) (used : ℕ) : ℕ → (ℕ → ℕ) → ℚ → Outcome (ℕ → ℕ)
  | 0, lens, free => if 0 < free then .ub else .ok lens
  | fuel + 1, lens, free =>
    if 0 < free then
      let s := grow size used 0 lens free
      if s.2 = free then .ub else fill size used fuel s.1 s.2
    else .ok lens

/-- `DSQtyUp`, lines 197-200. -/
def countUp (q : ℕ → ℕ) : ℕ → ℕ
  | 0 => q 0
  | t + 1 => countUp q t + q (t + 1)

/-- The choice of `Compress`. `old` are the code lengths that an earlier call left in the object. -/
noncomputable def codeChoose (r : Rounding) (old : Bool → ℕ → ℕ) : Choose := fun exp n q =>
  let used := topUsed q (baseCount exp)
  let lens := assign r (srcLast exp) (countUp q) n used 33 0 ⟨old exp, 0, 0, 0⟩
  fill (codeQty exp) used 2048 lens (1 - ((List.range used).map fun t => (codeQty exp t : ℚ) / 2 ^ lens t).sum)

end WB.Sf
