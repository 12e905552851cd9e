import Verif.Model.Buffer

/-!
Model of serialisation, byte for byte: `Serialize`/`Parse` of `WaveletBuffer` (`sources/wavelet_buffer.cc:149-182`), the two
serializers (`sources/wavelet_buffer_serializer.cc`), the archive operators of `WaveletParameters`
(`wavelet_buffer/wavelet_parameters.h`), the Blaze archive format of vectors and matrices, and the sparse conversion
(`sources/internal/matrix_compressor.cc`).

Samples are 32-bit patterns (`F32`), because serialisation copies them bit by bit. The libraries behind the code are
parameters (`Ext`): memory allocation, streamvbyte, fpzip and the encodings of Blaze archives that this code never writes.
-/

namespace WB

/-- A byte string. -/
abbrev Bytes := List UInt8

/-- The bit pattern of a `float`. -/
abbrev F32 := BitVec 32

/-- `x == 0` for a `float`: both zeros compare equal, nothing else does. -/
def F32.isZero (x : F32) : Bool := x.toNat % 2 ^ 31 == 0

/-- What the code calls but does not define. Everything here is a parameter of the model. -/
structure Ext where
  /-- Making room for a container of `rows * cols` elements; `std::bad_alloc` is `throw`, a size computation that
  overflows is up to the library. -/
  alloc : ℕ → ℕ → Outcome Unit
  /-- `streamvbyte_delta_encode` (first 4 arguments fixed as in `CompressIndexes`) plus the padding. -/
  svbEnc : List ℕ → Bytes
  /-- `streamvbyte_delta_decode` of a given number of integers; it does not check the length of its input. -/
  svbDec : Bytes → ℕ → Outcome (List ℕ)
  /-- The `fpzip_write_*` calls of `CompressValues`, by precision. -/
  fpzEnc : ℕ → List F32 → Outcome Bytes
  /-- The `fpzip_read_*` calls of `DecompressValues` into a vector of the given length. -/
  fpzDec : Bytes → ℕ → Outcome (List F32)
  /-- Blaze's readers for sparse and column-major encodings (container type, rows, columns, number), which are never
  written by this code. -/
  otherMat : ℕ → ℕ → ℕ → ℕ → Bytes → Outcome (Mat F32 × Bytes)
  /-- The same for vectors of bytes. -/
  otherBytes : ℕ → ℕ → ℕ → Bytes → Outcome (Bytes × Bytes)
  /-- The same for vectors of subbands. -/
  otherChannel : ℕ → ℕ → ℕ → Bytes → Outcome (List (Mat F32) × Bytes)
  /-- The same for vectors of channels. -/
  otherDecs : ℕ → ℕ → ℕ → Bytes → Outcome (Decs F32 × Bytes)
  /-- The decoder of the legacy compression (`ParseCompressedSubbands`, sources/wavelet_buffer_serializer.cc:167-200); see
  `Model/SfCompressor`. -/
  legacySubband : Params → ℕ → Bytes → Outcome (Option (Mat F32))

/-! ### Writing -/

/-- `n` bytes of an unsigned integer, least significant first (`blaze::Archive::operator<<` on a little-endian machine). -/
def le (n x : ℕ) : Bytes := (List.range n).map (fun i => UInt8.ofNat (x / 256 ^ i))

/-- `serialize` of `WaveletParameters`, wavelet_buffer/wavelet_parameters.h:83-96, 123-130: dimension, sides, channels, steps, wavelet. -/
def serParams (p : Params) : Bytes :=
  le 8 p.shape.length ++ (p.shape.flatMap (le 8)) ++ le 8 p.signalNumber ++ le 8 p.steps ++ le 4 p.wtype

/-- Blaze archive of a `DynamicMatrix<float>`: header (version, dense row-major matrix, floating point, 4 bytes, rows,
columns, number of elements) and the elements row by row. -/
def serMat (m : Mat F32) : Bytes :=
  [1, 1, 3, 4] ++ le 8 m.rows ++ le 8 m.cols ++ le 8 (m.rows * m.cols) ++ m.data.flatMap (fun x => le 4 x.toNat)

/-- Blaze archive of a `DynamicVector<uint8_t>`. -/
def serBytes (v : Bytes) : Bytes := [1, 0, 2, 1] ++ le 8 v.length ++ le 8 v.length ++ v

/-- `ConvertToCSR`, sources/internal/matrix_compressor.cc:13-39. The loop counters are `int`: a side of 2^31 or more
overflows. The index is computed in `size_t` and cut to 32 bits. -/
def toCSR (m : Mat F32) : Outcome (List ℕ × List F32) :=
  if m.rows = 0 ∨ m.cols = 0 then .throw
  else if 2 ^ 31 ≤ m.rows ∨ 2 ^ 31 ≤ m.cols then .ub
  else
    let entries := (List.range m.rows).flatMap fun i => (List.range m.cols).filterMap fun j =>
      let x := m.get i j
      if F32.isZero x then none else some ((i * m.cols + j) % 2 ^ 32, x)
    .ok (entries.map Prod.fst, entries.map Prod.snd)

/-- `ArchivedMatrix`, sources/internal/matrix_compressor.h (without the always-true flag). -/
structure Archived where
  nonzero : ℕ
  rows : ℕ
  cols : ℕ
  indexes : Bytes
  values : Bytes

/-- `BlazeCompressor::Compress`, sources/internal/matrix_compressor.cc:58-73 with 97-149. The number of values goes into an
`int` field of the codec; from 2^31 on that is treated as undefined. -/
def compress (e : Ext) (m : Mat F32) (precision : ℕ) : Outcome Archived := do
  let c ← toCSR m
  if 2 ^ 31 ≤ c.2.length then .ub
  else do
    let vs ← e.fpzEnc precision c.2
    pure { nonzero := c.2.length, rows := m.rows, cols := m.cols, indexes := e.svbEnc c.1, values := vs }

/-- Serialisation of a compressed subband, sources/wavelet_buffer_serializer.cc:132-139. -/
def serArchived (a : Archived) : Bytes :=
  le 8 a.nonzero ++ le 8 a.rows ++ le 8 a.cols ++ serBytes a.indexes ++ serBytes a.values

/-- One subband, sources/wavelet_buffer_serializer.cc:124-140. -/
def serSubband (e : Ext) (sf : ℕ) (m : Mat F32) : Outcome Bytes :=
  if sf = 0 then .ok (serMat m) else do
    let a ← compress e m (33 - sf)
    pure (serArchived a)

/-- All subbands in order. -/
def serSubbands (e : Ext) (sf : ℕ) : List (Mat F32) → Outcome Bytes
  | [] => .ok []
  | m :: ms => do
    let x ← serSubband e sf m
    let y ← serSubbands e sf ms
    pure (x ++ y)

/-- The level written, sources/wavelet_buffer_serializer.cc:115-118. -/
def effectiveLevel (b : Buffer F32) (level : ℕ) : ℕ := if b.isEmpty then 0 else min 31 level

/-- `WaveletBuffer::Serialize`, sources/wavelet_buffer.cc:179-183 and sources/wavelet_buffer_serializer.cc:108-154. The
result is the return value and the new content of the output string (`old` is its content before the call). The first
line builds the temporary buffer passed to the serializer, outside its `try` block. -/
def serialize (e : Ext) (b : Buffer F32) (old : Bytes) (level : ℕ) : Outcome (Bool × Bytes) := do
  let t ← ctorWith b.params b.decs
  let sf := effectiveLevel t level
  match serSubbands e sf t.decs.flatten with
  | .ok body => .ok (true, [3] ++ serParams t.params ++ [UInt8.ofNat sf] ++ body)
  | .throw => .ok (false, old)
  | .ub => .ub

/-! ### Reading -/

/-- A reader consumes bytes from the front of the stream. -/
abbrev Rd (β : Type) := Bytes → Outcome (β × Bytes)

/-- Sequencing of readers. -/
def Rd.bind {β γ : Type} (r : Rd β) (f : β → Rd γ) : Rd γ := fun s => r s >>= fun x => f x.1 x.2

/-- Nothing to read. -/
def Rd.pure {β : Type} (x : β) : Rd β := fun s => .ok (x, s)

/-- A step that does not touch the stream. -/
def Rd.lift {β : Type} (o : Outcome β) : Rd β := fun s => o >>= fun x => .ok (x, s)

/-- Value of bytes, least significant first. -/
def fromLE : Bytes → ℕ
  | [] => 0
  | b :: bs => b.toNat + 256 * fromLE bs

/-- An `n`-byte field read into an uninitialised variable: if the stream ends early the variable keeps an
indeterminate value, which the caller then uses. -/
def rdField (n : ℕ) : Rd ℕ := fun s => if s.length < n then .ub else .ok (fromLE (s.take n), s.drop n)

/-- An `n`-byte field whose failure is noticed by the next archive operation, which throws. -/
def rdChecked (n : ℕ) : Rd ℕ := fun s => if s.length < n then .throw else .ok (fromLE (s.take n), s.drop n)

/-- `count` items in a row. -/
def rdMany {β : Type} (r : Rd β) : ℕ → Rd (List β)
  | 0 => Rd.pure []
  | n + 1 => Rd.bind r fun x => Rd.bind (rdMany r n) fun xs => Rd.pure (x :: xs)

/-- `deserialize` of `WaveletParameters`, wavelet_buffer/wavelet_parameters.h:108-155. The type is converted to the enum
`WaveletTypes`, whose values are 0..7 (no fixed underlying type, largest enumerator 5): converting any other number is
undefined behaviour. -/
def rdParams (e : Ext) : Rd Params :=
  Rd.bind (rdField 8) fun dim =>
  Rd.bind (Rd.lift (e.alloc 1 dim)) fun _ =>
  Rd.bind (rdMany (rdField 8) dim) fun shape =>
  Rd.bind (rdField 8) fun channels =>
  Rd.bind (rdField 8) fun steps =>
  Rd.bind (rdField 4) fun t =>
  if 8 ≤ t then Rd.lift .ub else Rd.pure ⟨shape, channels, steps, t⟩

/-- The buffer made from the parameters read: `Impl(WaveletParameters)` and the memory for its layout. -/
def newBuffer (e : Ext) (p : Params) : Outcome (Buffer F32) := do
  let b ← ctor p
  e.alloc b.params.signalNumber (decompositionSize b.params)
  pure b

/-- Header of a Blaze archive of a vector and the elements; `VectorSerializer::deserialize`. All fields are checked
before anything is done with them. -/
def rdVector {β : Type} (e : Ext) (elemType elemSize : ℕ) (el : Rd β)
    (other : ℕ → ℕ → ℕ → Bytes → Outcome (List β × Bytes)) : Rd (List β) :=
  Rd.bind (rdChecked 1) fun version =>
  Rd.bind (rdChecked 1) fun type =>
  Rd.bind (rdChecked 1) fun et =>
  Rd.bind (rdChecked 1) fun es =>
  Rd.bind (rdChecked 8) fun size =>
  Rd.bind (rdChecked 8) fun number =>
  if version ≠ 1 ∨ type % 2 ≠ 0 ∨ 4 ≤ type ∨ et ≠ elemType ∨ es ≠ elemSize ∨ size < number then Rd.lift .throw
  else Rd.bind (Rd.lift (e.alloc 1 size)) fun _ =>
    if type = 0 then rdMany el size else other type size number

/-- One byte of a vector. -/
def rdByte : Rd UInt8 := fun s =>
  match s with
  | [] => .throw
  | b :: s => .ok (b, s)

/-- `archive >> DynamicVector<uint8_t>`. -/
def rdBytes (e : Ext) : Rd Bytes := rdVector e 2 1 rdByte e.otherBytes

/-- A matrix from its elements in row-major order. -/
def matOf (r c : ℕ) (xs : List F32) : Mat F32 := Mat.ofFn r c (fun i j => xs.getD (i * c + j) default)

/-- `archive >> DynamicMatrix<float>`; `MatrixSerializer::deserialize`. The product of the sides is computed in 64 bits. -/
def rdMat (e : Ext) : Rd (Mat F32) :=
  Rd.bind (rdChecked 1) fun version =>
  Rd.bind (rdChecked 1) fun type =>
  Rd.bind (rdChecked 1) fun et =>
  Rd.bind (rdChecked 1) fun es =>
  Rd.bind (rdChecked 8) fun rows =>
  Rd.bind (rdChecked 8) fun cols =>
  Rd.bind (rdChecked 8) fun number =>
  if version ≠ 1 ∨ type % 2 ≠ 1 ∨ 8 ≤ type ∨ et ≠ 3 ∨ es ≠ 4 ∨ rows * cols % 2 ^ 64 < number then Rd.lift .throw
  else Rd.bind (Rd.lift (e.alloc rows cols)) fun _ =>
    if type = 1 then
      Rd.bind (rdMany (rdChecked 4) (rows * cols)) fun xs =>
      Rd.pure (matOf rows cols (xs.map (BitVec.ofNat 32)))
    else e.otherMat type rows cols number

/-- One assignment of `ConvertFromCSR`, sources/internal/matrix_compressor.cc:48-53: division by a zero number of columns
and elements outside the matrix are undefined behaviour. -/
def putEntry (m : Mat F32) (ix : ℕ × F32) : Outcome (Mat F32) :=
  if m.cols = 0 then .ub
  else if m.rows ≤ ix.1 / m.cols then .ub
  else .ok (Mat.ofFn m.rows m.cols fun i j =>
    if i = ix.1 / m.cols ∧ j = ix.1 % m.cols then ix.2 else m.get i j)

/-- `ConvertFromCSR`, sources/internal/matrix_compressor.cc:41-56. -/
def fromCSR (e : Ext) (rows cols : ℕ) (indexes : List ℕ) (values : List F32) : Outcome (Mat F32) := do
  e.alloc rows cols
  (List.range indexes.length).foldlM (fun m n => do
    let i ← rd indexes n
    let v ← rd values n
    putEntry m (i, v)) (Mat.ofFn rows cols fun _ _ => 0)

/-- `BlazeCompressor::Decompress`, sources/internal/matrix_compressor.cc:75-95. -/
def decompress (e : Ext) (a : Archived) : Outcome (Mat F32) := do
  e.alloc 1 a.nonzero
  let is ← e.svbDec a.indexes a.nonzero
  let vs ← e.fpzDec a.values a.nonzero
  fromCSR e a.rows a.cols is vs

/-- One subband, sources/wavelet_buffer_serializer.cc:83-97. -/
def rdSubband (e : Ext) (sf : ℕ) : Rd (Mat F32) :=
  if sf = 0 then rdMat e
  else
    Rd.bind (rdChecked 8) fun nonzero =>
    Rd.bind (rdChecked 8) fun rows =>
    Rd.bind (rdChecked 8) fun cols =>
    Rd.bind (rdBytes e) fun is =>
    Rd.bind (rdBytes e) fun vs =>
    Rd.lift (decompress e ⟨nonzero, rows, cols, is, vs⟩)

/-- The loop over the prepared layout, sources/wavelet_buffer_serializer.cc:81-99. -/
def rdLayout (r : Rd (Mat F32)) : Decs F32 → Rd (Decs F32)
  | [] => Rd.pure []
  | c :: cs =>
    Rd.bind (rdMany r c.length) fun x => Rd.bind (rdLayout r cs) fun xs => Rd.pure (x :: xs)

/-- A caught exception becomes a null pointer. -/
def caught {β : Type} (o : Outcome (Option β × Bytes)) : Outcome (Option β) :=
  match o with
  | .ok (x, _) => .ok x
  | .throw => .ok none
  | .ub => .ub

/-- The level byte; if it is missing the variable stays indeterminate, which matters only where it is used. -/
def rdLevel : Rd (Option ℕ) := fun s =>
  match s with
  | [] => .ok (none, [])
  | b :: s => .ok (some b.toNat, s)

/-- Use of a value that may be indeterminate. -/
def useLevel {β : Type} (sf : Option ℕ) (f : ℕ → Rd β) : Rd β :=
  match sf with
  | none => fun _ => .ub
  | some n => f n

/-- Version byte (not looked at again), parameters, level and the buffer built from them:
sources/wavelet_buffer_serializer.cc:75-79. -/
def rdHeader (e : Ext) : Rd (Buffer F32 × Option ℕ) :=
  Rd.bind (rdField 1) fun _ =>
  Rd.bind (rdParams e) fun p =>
  Rd.bind rdLevel fun sf =>
  Rd.bind (Rd.lift (newBuffer e p)) fun b =>
  Rd.pure (b, sf)

/-- `WaveletBufferSerializer::Parse`, sources/wavelet_buffer_serializer.cc:65-106. -/
def parseV3 (e : Ext) (blob : Bytes) : Outcome (Option (Buffer F32)) :=
  caught <| Rd.bind (rdHeader e) (fun h =>
    Rd.bind (rdLayout (useLevel h.2 (rdSubband e)) h.1.decs) fun d =>
    Rd.pure (some { h.1 with decs := d })) blob

/-- One subband of the legacy format, sources/wavelet_buffer_serializer.cc:172-197; a failed decompression is reported by
a result, not by an exception. -/
def rdLegacySubband (e : Ext) (p : Params) (s : ℕ) : Rd (Option (Mat F32)) :=
  Rd.bind (rdBytes e) fun v => Rd.lift (e.legacySubband p s v)

/-- The subbands `s`, `s+1`, … of a channel in the legacy compressed format; stops at the first failed one. -/
def rdLegacyChannel (e : Ext) (p : Params) (s : ℕ) : ℕ → Rd (Option (List (Mat F32)))
  | 0 => Rd.pure (some [])
  | n + 1 => Rd.bind (rdLegacySubband e p s) fun x =>
    match x with
    | none => Rd.pure none
    | some m => Rd.bind (rdLegacyChannel e p (s + 1) n) fun xs => Rd.pure (xs.map (m :: ·))

/-- `ParseCompressedSubbands`, sources/wavelet_buffer_serializer.cc:167-200. -/
def rdLegacyDecs (e : Ext) (p : Params) : Decs F32 → Rd (Option (Decs F32))
  | [] => Rd.pure (some [])
  | c :: cs => Rd.bind (rdLegacyChannel e p 0 c.length) fun x =>
    match x with
    | none => Rd.pure none
    | some c' => Rd.bind (rdLegacyDecs e p cs) fun xs => Rd.pure (xs.map (c' :: ·))

/-- `archive >> decompositions()`: a vector (element size 24) of vectors (element size 40) of matrices. -/
def rdDecs (e : Ext) : Rd (Decs F32) :=
  rdVector e 0 24 (rdVector e 0 40 (rdMat e) e.otherChannel) e.otherDecs

/-- `WaveletBufferSerializerLegacy::Parse`, sources/wavelet_buffer_serializer.cc:30-58. -/
def parseV2 (e : Ext) (blob : Bytes) : Outcome (Option (Buffer F32)) :=
  caught <| Rd.bind (rdHeader e) (fun h =>
    useLevel h.2 fun sf =>
      if sf ≠ 0 then
        Rd.bind (rdLegacyDecs e h.1.params h.1.decs) fun d => Rd.pure (d.map fun d => { h.1 with decs := d })
      else
        Rd.bind (rdDecs e) fun d => Rd.pure (some { h.1 with decs := d })) blob

/-- White space skipped by formatted input in the classic locale. -/
def isSpace (b : UInt8) : Bool := b == 32 || (9 ≤ b.toNat && b.toNat ≤ 13)

/-- `WaveletBuffer::Parse`, sources/wavelet_buffer.cc:149-171. The version is read by formatted input (`ss >> version`),
which skips white space; with nothing left it stays indeterminate. -/
def parse (e : Ext) (blob : Bytes) : Outcome (Option (Buffer F32)) :=
  match blob.dropWhile isSpace with
  | [] => .ub
  | v :: _ => if v = 3 then parseV3 e blob else if v = 2 then parseV2 e blob else .ok none

end WB
