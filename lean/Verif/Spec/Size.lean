import Verif.Spec.FloatMetrics
import Verif.Spec.Untrusted

/-!
Vocabulary for statements about the size of archives.
-/

namespace WB.Spec

/-- Bytes in front of the subbands: version, dimension, sides, channels, steps, wavelet, level. -/
def headerSize (p : Params) : ℕ := 1 + 8 + 8 * p.shape.length + 8 + 8 + 4 + 1

/-- Values of a subband that are not zero. -/
def nonzeroCount (m : Mat F32) : ℕ := (m.data.filter fun x => !isZeroPattern x).length

/-- The codecs stay within the memory the code gives them for `n` numbers: `streamvbyte_max_compressedbytes(n)` and 16 bytes of
padding for positions, `4 n + 1024` bytes for values. -/
structure CodecSizes (e : Ext) : Prop where
  positions : ∀ xs, (e.svbEnc xs).length ≤ (xs.length + 3) / 4 + 4 * xs.length + 16
  values : ∀ prec vs bs, e.fpzEnc prec vs = .ok bs → bs.length ≤ 4 * vs.length + 1024

end WB.Spec
