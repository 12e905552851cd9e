import Verif.Spec.Serialize

/-! The version-2 compressed format, written out. -/

namespace WB.Spec

/-- Archive of a vector of bytes. -/
def archiveBytes (v : Bytes) : Bytes := [1, 0, 2, 1] ++ littleEndian 8 v.length ++ littleEndian 8 v.length ++ v

/-- The version-2 format with compression: the parameters, a level and one stream per channel and subband. -/
def encodeV2Streams (p : Params) (level : UInt8) (streams : List (List Bytes)) : Bytes :=
  [2] ++ encodeParams p ++ [level] ++ (streams.map fun c => (c.map archiveBytes).flatten).flatten

end WB.Spec
