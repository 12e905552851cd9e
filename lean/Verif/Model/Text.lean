import Verif.Model.Buffer

/-!
Text output: `operator<<` of buffers (`sources/wavelet_buffer.cc:398-419`) and of parameters (`wavelet_parameters.h:68-81`), and
`__repr__` in Python (`python/src/wavelet_parameters.cc:7-49`). How Blaze writes vectors and matrices is a parameter.
-/

namespace WB

/-- A text. -/
abbrev Text := List Char

/-- How a `size_t` is written (default formatting). -/
def decimal (n : ℕ) : Text := Nat.toDigits 10 n

/-- `WaveletTypeRepr`, python/src/wavelet_parameters.cc:7-30. -/
def wtypeName : ℕ → Text
  | 0 => "WaveletType.NONE".toList
  | 1 => "WaveletType.DB1".toList
  | 2 => "WaveletType.DB2".toList
  | 3 => "WaveletType.DB3".toList
  | 4 => "WaveletType.DB4".toList
  | 5 => "WaveletType.DB5".toList
  | _ => "Unknown".toList

/-- The sides of a signal with an `x` between them, python/src/wavelet_parameters.cc:38-43. -/
def sides : List ℕ → Text
  | [] => []
  | [n] => decimal n
  | n :: m :: l => decimal n ++ 'x' :: sides (m :: l)

/-- `WaveletParametersRepr`, python/src/wavelet_parameters.cc:32-49. -/
def reprParams (className : Text) (p : Params) : Text :=
  className ++ '<' :: "signal_number=".toList ++ decimal p.signalNumber ++ ", signal_shape=(".toList ++ sides p.shape ++
    "), decomposition_steps=".toList ++ decimal p.steps ++ ", wavelet_type=".toList ++ wtypeName p.wtype ++ ">".toList

/-- How Blaze writes a row vector of sizes and a transposed matrix. -/
structure BlazeText (α : Type) where
  row : List ℕ → Text
  trans : Mat α → Text

/-- The streams a call writes to: the one it was given and the standard output of the process. -/
inductive Stream where
  | given | standard
  deriving DecidableEq

/-- `operator<<` of parameters, wavelet_buffer/wavelet_parameters.h:68-81; an enumerator is written as a number. -/
def printParams {α : Type} (f : BlazeText α) (p : Params) : Text :=
  "WaveletParameters {\n  signal_shape: ".toList ++ f.row p.shape ++ "  signal_number: ".toList ++ decimal p.signalNumber ++
    "\n  decomposition_steps: ".toList ++ decimal p.steps ++ "\n  wavelet_type: ".toList ++ decimal p.wtype ++ "\n}".toList

/-- What `operator<<` of a buffer writes for one channel, sources/wavelet_buffer.cc:406-413: the heading goes to `std::cout`. -/
def printChannel {α : Type} (f : BlazeText α) (n : ℕ) (c : Channel α) : List (Stream × Text) :=
  (.standard, "  channel: ".toList ++ decimal n ++ ['\n']) :: c.map fun m => (.given, "  ".toList ++ f.trans m)

/-- `operator<<` of a buffer, sources/wavelet_buffer.cc:398-419: the writes in their order. -/
def printBuffer {α : Type} (f : BlazeText α) (b : Buffer α) : List (Stream × Text) :=
  (.given, "Wavelet Buffer {\n".toList ++ printParams f b.params ++ "\nWaveletDecomposition {\n".toList) ::
    (b.decs.zipIdx.flatMap fun x => printChannel f x.2 x.1) ++ [(.given, "}\n}\n".toList)]

/-- What arrives at one stream when the given stream is not the standard output. -/
def arrives (s : Stream) (ws : List (Stream × Text)) : Text := (ws.filter fun w => w.1 = s).flatMap Prod.snd

/-- What arrives at the standard output when it is the given stream. -/
def arrivesBoth (ws : List (Stream × Text)) : Text := ws.flatMap Prod.snd

end WB
