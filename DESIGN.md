# Formal model of WaveletBuffer: design

Source: `/repo` (panda-official/WaveletBuffer), read as text. Proof assistant: Lean 4.33.0 with Mathlib.
`properties.jsonl` lists the properties, `MANIFEST.json` maps each to its theorems, `seeded/LOG.jsonl`
records the attempts to break the theorems with wrong programs.

## Layout of `/verif/lean`

* `Verif/Model/*`  – the model of the code. One definition per C++ function, each with file:lines and simplifications.
* `Verif/Spec/*`   – small independent specifications (what the user means), no dependence on model helpers.
* `Verif/Proof/*`  – helper lemmas.
* `Verif/Props/*`  – the property theorems, each with a concrete `example` meeting its hypotheses.

## Modelling decisions

* **Scalars.** Everything that only moves samples around (layout, padding, views, frames, cache, serializers,
  denoisers) is polymorphic in the scalar type: the theorems hold for IEEE floats as they are, whatever float
  addition does. Properties that are about arithmetic (perfect reconstruction, energy, linearity, bounds) are stated
  over a commutative ring or over the reals; float rounding is then *not* in the model unless the property says so
  (C58 and C85 use the standard model of rounding: `Fl a` are real numbers with the rounded sums and products of an arithmetic `a`, in the order of
  the C++ loops; no fused multiply-add, no extended precision, no overflow. C86 to C88 add overflow: `Ov` has
  one value `none` for the infinities and NaN. For C85 to C88, two dimensions, the loops are inside Blaze and not in the
  repository: an entry of a sparse matrix times a vector is read as the sum of the products in storage order. C121 drops the
  order and admits fused multiply-add: `Sums` keeps the terms of a sum, `SumPlan` says how each is computed).
* **Bits.** The serializers and the CSR conversion are modelled on 32-bit patterns, so "bit exact" means bit exact.
* **Matrices** (`blaze::DynamicMatrix`) are row-major lists with explicit row/column counts. Access is checked:
  an out-of-range element access is the separate outcome `ub`, a blaze exception (`submatrix`, `column`, size
  mismatch) is the outcome `throw`.
* **Outcomes.** `ok`, `throw` (C++ exception) and `ub` (undefined behaviour) are different results. Theorems that
  say "finishes" say `ok`, so they exclude both others.
* **Assertions** are compiled out (release build); a failing `assert` is therefore not an outcome, the code after it is.
* **size_t/int** are 64/32 bit (LP64). Where wrap-around matters (index arithmetic, negative view bounds, negative scale) it is
  modelled; elsewhere natural numbers are used and the definition says so.
* **Serialisation** is modelled on bytes. A read into an uninitialised variable at the end of the stream is `ub` as soon as the
  variable is used; archive reads of vectors and matrices throw. (Blaze's `Archive::operator>>` for single numbers is taken to leave
  checking the stream to its caller; if it threw, more of the cut headers of C31 would be rejected.) Converting a number outside 0..7 to the enum
  `WaveletTypes` is `ub`. Allocation is a parameter (`Ext.alloc`), so "out of memory" and size overflows inside Blaze are
  covered by quantifying over it. The Blaze archive format itself is not in `/repo`; it was taken from the library's
  documented format and agrees with `tests/fixtures/signal_1d_0cl_v2.bin`.
* **Threads.** `Model/Threads` interleaves single steps of any number of threads (lock, lookup, build, insert, unlock, copy from
  a returned reference) under sequential consistency. References into a `std::map` are node positions; that nodes stay where
  they are when others are inserted is the standard guarantee and part of the trusted base. `Model/Clients` lets each thread call the interface
  on buffers of its own: accesses to the matrix cache are the steps of `Model/Threads`, and the work of a call on the thread's own buffers before and
  after them is one step each, since no other thread can see it. `Model/Sharing` adds buffers that all threads see; a call that
  waits for the cache goes on with the buffers as they are then.
* **Denoisers.** `Model/Callback` has denoisers with a state and with exceptions, `Model/Reentrant` denoisers that also call the library (finite scripts of calls); in the
  latter the mutex of the cache is a flag, and locking it twice is undefined behaviour.
* **Before and after `main`.** `Model/Program` adds the construction and the destruction of the static `matrix_cache` as events of a single-threaded
  history. A call that asks the cache when it is not there is undefined behaviour.
* **Colour.** `Model/Color` is over ℝ with exact intermediate results and literals. `Model/ColorFloat` repeats the same operations with every
  result and literal rounded (any IEEE rounding; no overflow, no excess precision, no fused multiply-add). Division by zero is a distinct
  outcome in both. `Model/HslFloat` uses the latter for samples that can overflow, and only for arguments with which no operation in it can
  overflow; for others it takes the result as not finite. `Model/BitsColour` has both conversions on all bit patterns, with the float operations as
  parameters that are specified only where the rounded result is in the range of the numbers. `Model/FusedColour` is `HSLToRGB` on bit patterns with any
  choice of fused products.
* **One buffer, several threads.** `Model/Crew` has one step per assignment to a subband, per visit of a channel by `ComposeImpl` or `CastToBuffer` and per step
  in the cache, interleaved freely. Sequential consistency is what C++ guarantees for programs without data races; that there is none is
  `C122_no_data_race`. The vector of channels and the vectors of subbands themselves are not resized by these calls (only their elements are assigned).
* **Allocation failures.** `Model/CrewFail` adds to C122 steps in which memory runs out: in the cache (building, inserting, copying, transposing), while
  a subband is assigned to, or anywhere between two accesses of a call. An exception thrown by a denoiser is one of the latter. In `Parse`
  allocation is a parameter (`Ext.alloc`); in the rest (`Serialize`, the wrappers) it succeeds; what the language runtime does when an exception cannot be thrown is not modelled.
* **Order of sums in the transform.** The model of C58 to C106 adds products one after the other. `Model/AnyOrder` keeps a sum as a list of
  terms until its value is needed and lets a plan decide how to compute it; a term carries its origin so that the plan can depend on the place. The
  filter coefficients (sources/wavelet.cc:249) and the division by the gain have no sum and stay as in `Model/FloatBits`.
* **Sums inside Blaze.** `blaze::norm` and `blaze::sum` add up in an order that depends on vector registers. `Model/FloatMetrics` takes the order of
  every sum as a tree of additions and C109 holds for all trees that add every term once. `std::pow(x, 2)` is any function with a relative error of at most
  2^-52. `double` has no overflow there: the values come from `float`.
* **Marks.** `Model/FloatFlags` puts a mark beside every bit pattern that an operand that is not finite, an overflow or an underflow went into. The
  marks are not in the program. C146, C147 and C149 use them to say which numbers they except, and prove that the bits beside the marks are those of
  `Model/FloatBits`. That results are rounded to significant bits (`UnitBlind`) is a hypothesis about the processor, also for the division by the gain.
* **Bit patterns.** `Model/FloatBits` runs the transform on the 32-bit patterns the archive stores. What the processor does with them is any
  `FloatOps` that satisfies `FloatOps.Correct`; results outside the range of the numbers are left open.
  `Model/FloatDenoise` adds comparison (false with a NaN), magnitude and the conversions between `size_t` and `float` for the denoisers.
* **Denoisers.** `Model/Transform` takes a denoiser to be a total function. `Model/Callback` repeats the decomposition for a denoiser with any
  state whose calls may throw, and C120 relates the two. It must not access the buffer that is being decomposed.
  `Model/SimpleCall` makes a call of the simple denoiser undefined where the comparison given to `std::nth_element` is no strict weak ordering (C128);
  the older theorems about it suppose that there is no NaN.
* **Pixels.** `Model/Pixel` keeps the two roundings of `p / 255.` and the rounding of `x * 255` as functions; the theorems hold for
  every round-to-nearest (ties open, unbounded exponent range upwards) with 24 and 53 bits.
* **Codecs.** `Model/Codec` has the JPEG library (CImg `load`/`save`) as a parameter and models the copying, the checks and the pixel
  conversion. Reads outside the decoded image are `ub`.
* **Files.** `Model/Image` describes a call's effect on files as a sequence of single effects (empty a file, append a byte), so a crash is
  a prefix of the sequence. The environment decides which files open and how many bytes of a write arrive.
* **Externals** (fpzip, streamvbyte, JPEG, std::nth_element, the file system) are parameters. What the theorems need
  from them is an explicit hypothesis, and a concrete instance shows that the hypotheses can be met.

## Per property plan

| id | plan |
|----|------|
| C01 | decision theorem for `ctor`: `ok` iff arithmetic condition stated with `2^steps*(2t-1) ≤ min`; `Nat.log2` models `floor(log2 x)` |
| C02 | invariant over an inductive type of operations, proved by induction on histories |
| C03 | decision theorem for the two-argument constructor |
| C04 | `padded` is least multiple of `2^steps`; direct arithmetic |
| C05 | `decompose`/`compose` ≠ `throw`/`ub` for accepted parameters; model loops read through checked accessors |
| C06 | shapes of subbands by induction on steps |
| C07 | 1D: synthesis∘analysis identity for filters with `Σ h k h (k+2m) = δ`, induction on steps, crop∘extend |
| C08 | 2D: rows/columns reduction to 1D, same induction |
| C09 | rational filters from the source, autocorrelation error bound by `norm_num`, error recursion over steps |
| C10 | Parseval from W Wᵀ = 1, induction on steps |
| C11 | linearity of every stage, induction on steps |
| C12 | direct |
| C13 | shape computation |
| C14 | induction on steps |
| C15 | from the one-step identity |
| C16 | counterexample theorems (false of the code) + partial |
| C17 | pointwise description of `extend` with clamped index, crop∘extend |
| C18 | pointwise |
| C19 | relational model of nth_element; all outcomes; level 1 counterexample + partial |
| C20 | counterexample + partial (decision by first channel) |
| C21 | determinism + cache invariant over histories |
| C22 | small-step concurrent model with two locks; invariant and progress |
| C23–C26 | view operations on the buffer model; counterexample for negative start |
| C27 | byte-level archive model with 32-bit patterns; decoder∘encoder |
| C28 | codecs as parameters with contracts |
| C29–C33 | byte-level serializer model; counterexample for white-space version byte; header truncation is `ub` |
| C34 | list induction |
| C35 | lexicographic order |
| C36 | heap-free value semantics: store of named buffers, operations on one name frame the others |
| C37–C38 | over ℝ |
| C39 | Haar: bound by induction; DB2: counterexample |
| C40 | all histories |
| C41–C42 | ordered field case analysis |
| C43, C61 | nearest elements of the set of p-bit numbers; finite table for k/255 by kernel evaluation, lifted by monotonicity; counterexample for C61 |
| C62, C64 | counterexample + partial |
| C63 | composition of C43, C44, C08, C45 |
| C44–C46 | codec and file system as parameters; counterexamples for clobbered files/failed writes |
| C47–C50, C52 | legacy compressor, bit level |
| C51 | byte-level archive model |
| C53 | index arithmetic, memory model with strides; counterexample for non-contiguous arrays |
| C54–C56 | direct |
| C57 | counterexample (false of the code) |
| C58 | standard model of rounding, derived from rounding to nearest for `float`; exact and computed values bounded together through the steps |
| C59–C60 | byte-level |

| C65 | decoder applied to archive of streams, induction over channels and subbands; C52 for each stream |
| C66 | direct, bit level |
| C67 | tables agree where the reader looks; counterexample for streams that leave a table out |
| C68 | negations for all inputs without values / with a zero value |
| C69 | linear between powers of two, half a unit of the last place |
| C70 | arithmetic of slice bounds against Python's rule (`Spec.InSlice`); views by C23/C26 |
| C71 | element positions in memory; `ctorWith_ok_iff` |
| C72 | negation for all buffers without channels |
| C73 | entries of the matrix are the periodic kernel of C07; transposed kernel is the synthesis; the case n = 2 computed symbolically |
| C74 | each row summed: the two border sums are the taps outside the signal |
| C75 | exact bound on the length of the filters; first read outside gives `ub` |
| C76 | the rounded shares give groups whose Kraft sum is at most 1 for small tables; filling up ends with exactly 1; explicit runs where it goes wrong |
| C77 | quotients of integers up to 2^32 are never halfway between two `double`s; at code length 32 every pool left is assigned; the filling looks only at the pools in use |
| C78 | the text is a list of (stream, text) pairs; induction over channels; the headings are not empty |
| C79 | the separators do not occur in numbers; decimal digits are injective |
| C80 | finite tables of `float`s next to k / 100, each product enclosed between neighbouring `float`s; NaN compares false |
| C81–C82 | C38 and the memory layout of arrays; counting of subbands |
| C83 | C44 and C53 combined |
| C84 | C45 and C46 combined |
| C85 | as C58; rows and columns of the sparse matrices and of their transposes have `2 order` entries whose absolute values sum up to those of the filter |
| C86 | the proofs of C58 and C85 are for any scalars with a predicate "finite" whose sums and products stay finite below a limit; `Ov` is such; the growth bound of every intermediate result is below the limit |
| C87 | one rounded pass over a matrix is the exact pass plus an error whose entries are bounded by the absolute kernel applied to absolute values; Schur's test bounds the Euclidean norm of that error; the norm of the exact pass is √(1 + deviation from orthogonality); an invariant (norm of the exact part, norm of the error) is carried through all passes, padding and cropping |
| C88 | composition of C43/C61 (pixels), C44 (codecs), C87 and C45; the counterexample is computed operation by operation, each rounding by comparison with the neighbouring floats |
| C89–C90, C93 | the difference of two composed channels is the composition of the difference (C11); one synthesis step is a separable kernel whose norm is √(1 + deviation from orthogonality); energies of the parts add up; cropping only drops squares. C90: C10 for the difference |
| C91 | triangle inequality through the undenoised round trip (C09); number of coefficients equals number of padded samples, level by level |
| C92 | each dropped square is at most each kept one, summed over all pairs; energies of the subbands bounded by that of the padded channel |
| C94 | cutting the bit pattern of a finite float is rounding its magnitude down to a multiple of a power of two; sum of squares over the coefficients, then C89 |
| C95–C98 | every entry of a subband of one step is a double sum of filter taps over samples at positions modulo the side (`stepSub`, for loops and matrices alike); each law holds for one such step and by induction for all |
| C99 | the approximation of a local polynomial is a local polynomial of the same degree and the details are moments of the high-pass filter (`stepSub`, windows as in C98); for the decimals a rational correction with exact moments is subtracted and its size bounded |
| C100 | the kernel of one step is a square matrix; orthonormal columns give orthonormal rows, so analysis after synthesis is the identity, step by step |
| C101 | exchange argument on sets of entries (simple), entry by entry (threshold); C100 and C10 carry both to signals |
| C102 | error bounds operation by operation; the ramps as one 6-Lipschitz function of the hue on the circle; witness rounded by hand |
| C103 | continued steps shown equal to the steps of the decomposition (C73: matrix and filters agree), then as C01 and C100 |
| C104 | largest and smallest component as Lipschitz functions of luminance and saturation, ramps as in C102; pipeline as C88 |
| C105 | the invariant of C87 with the exact result next to the rounded one, for each half; the halves are joined by monotonicity of the error recursion. The division by the gain is any operation within four units in the last place (`DividesByGain`), because how Blaze divides a `float` matrix by a `double` is not modelled |
| C106 | the recursion of C105 for arithmetic on bit patterns (`Model/FloatBits`), C27/C28 for what storing changes; the change is compared with the norm of the float coefficients, which C105 bounds |
| C107 | the denoisers on bit patterns (`Model/FloatDenoise`): the float threshold and the float number of dropped entries bounded by their exact values, then C106 with the coefficients moved twice |
| C108 | induction over the sequence of levels; cutting to `p` bits and then to `q` is cutting to `min p q`, and zeros are the only values for which the sparse form changes the pattern |
| C109 | pairs of a relative and an absolute error that are carried through squares, sums (induction over the tree of additions), root, square and mean; differences of floats are multiples of 2^-149 and squares of floats are exact in `double` |
| C110 | C107 for the samples; a pixel further off than d means a sample further off than d / 255 - 2^-16, so the sum of squares bounds their number; sums of squares of pixels by the triangle inequality |
| C111 | cutting off bits moves a value towards 0, cutting more bits further; every rounding is monotone, so by induction over the tree of additions the computed sums keep the order |
| C112 | triangle inequality over the exact composition of the changed coefficients (C105) and the stability of the exact composition at a scale (C89) |
| C113 | the bit patterns stand for the numbers of `Model/ColorFloat` as long as a bound on the exponent, carried along with each operation, stays below 100; then C104 for the colours and C107 for the samples; a pixel that is far off has an HSL value that is far off, so sums of squares bound their number |
| C114 | every reader is followed backwards from `ub`: the archive readers only throw, so what is left is the fields of the header, the codecs and the positions in `fromCSR` |
| C115 | invariant over schedules: the shared part is that of `Model/Threads` with requests made on the fly, and every thread is where its program would be alone; a potential of at most 15 per call bounds the steps |
| C116 | lengths of everything written are added up, for parsing lengths of everything read; the counterexample is a record with no stored values and large sides |
| C117 | step-by-step simulation by the process of C115 in which every thread has a copy of the common buffers; no call on own buffers reaches an address in front of its own |
| C118 | every transform is a sum over stored entries of a row, so equal entries in the window give equal sums without any law of arithmetic; windows of successive steps are composed modulo the side |
| C119 | the changed archive is the archive of the changed buffer (then C27 and C118); for compressed archives the reader of the layout is followed with an arbitrary outcome for one subband |
| C120 | the run with a stateful denoiser equals a fold over the list of details of the plain decomposition; the store is described as a function of the answers so far |
| C121 | induction on the plan of a sum: n products are off by what n - 1 additions and n products in sequence may be off, however they are bracketed or fused; the bounds of C105 and C106 ask no more of a sum |
| C122 | a call as a tree of accesses; its footprint by recursion over the code; invariant: what a thread has still to do gives on a private copy, which agrees with the buffer on the channels the thread may look at, what the whole call gives alone; step counting against the run alone |
| C123 | no place is assigned to twice in a call (recursion over the code), so what has been assigned is final; the invariants of the cache and of C122 with a flag per thread for a failure on its way out, and an exact count of failures |
| C124 | the fused conversion on reals, each place rounded or not; it stays within 285 rounding errors of the unfused one of C102 and C104, and the bit patterns stand for it; then C121 for the signal and the argument of C113 for the picture |
| C125 | the changed bytes are put right from the front, one coefficient at a time, with C119; then C27 and C118 for the buffer that was reached |
| C126 | outcomes of one synthesis step for all sizes (2D: parts that stick out, cells that no part covers), then induction over the steps; the first trouble in the order of channels and steps decides |
| C127 | everything a reader may return fits its field (also the sides in the old compressed format), then C59 and C27 |
| C128 | a NaN ties with everything, so ties are transitive only if all else ties; then C19 with the promise of the library for such lists, C120 for the calls, C106's bound for the absence of NaN |
| C129 | every call is one of the world of C02 or leaves it alone; invariant: an address that nobody owns is never owned again, and owners are unique; induction over the histories |
| C130 | linear arithmetic over the two conversions to `size_t`; the number of channels behind a reference never changes, so the range stays valid (C129) |
| C131 | roundings are monotone and keep powers of two; a quotient of numbers below 2^46 stays 2^-47 (relative) away from the next power of two, and log(1-x) <= -x |
| C132 | the codec keeps the leading 33 - level bits of the pattern; cutting a pattern is cutting the number toward 0 into a format with 24 - level bits |
| C133 | a pass multiplies by at most the sum of the magnitudes of the filter (2.01) and adds rounding; the threshold is computed with two roundings; C116 for the size |
| C134 | sample i is among the taps of approximation coefficient i/2, and this coefficient is among the summands of sample i; the exponent survives 9 bits of precision. That IEEE operations spread infinities and NaN is a hypothesis (`SpreadsTrouble`) |
| C135 | the relation is carried through every fold of the transform; flipping the sign bit commutes with cutting bits. That IEEE operations do not prefer a sign is a hypothesis (`SignBlind`), derived from a symmetric rounding where results are in range |
| C136 | one Haar step adds pairs (blocks of four) and scales; by induction the approximation of scale s is the sum over a block, and the quotient of Compose makes it a mean. Higher orders have negative taps |
| C137 | invariant over histories and schedules: keys without duplicates, each from a constructor call; counting the entries of the matrices the code builds |
| C138 | a program is a sequence of calls with the birth and death of the cache in it; calls that do not ask the cache depend on the buffers only; induction over the events |
| C139 | the run is a list of questions and stores that does not depend on the denoiser; the process at each question is computed by induction over that list |
| C140 | composing and decomposing returns the denoised subbands (C100), so the second round only applies the denoiser to them; with padding, a computed family of signals and induction over rounds |
| C141 | composition is the adjoint of decomposition (from C100 and equality of distances), so a coefficient is the scalar product with one composed signal and these are orthonormal; integrals of finite sums |
| C142 | one step with the taps c, c and c, -c on reversed rows and columns; synthesis from analysis because both are inverse to each other; centred padding and cropping commute with reversal |
| C143 | per subband: what a threshold removes is removed by a higher one; the largest c coefficients are a best approximation (C101); sums over subbands; orthonormality for the composed signals |
| C144 | energy of one synthesis step (analysis after synthesis, C100), induction over the steps; cropping removes nothing or lowers the energy |
| C145 | composition is the adjoint of decomposition on the padded signal, coefficients of unit signals are orthonormal; previews are approximations of the full composition (C141 on the padded sides); picking and scaling values keeps noise white |
| C146 | bit patterns with marks (`Model/FloatFlags`): the map that forgets the marks respects all operations, hence the whole transform (`Proof/Marks`); the relation "same number in the other unit, or marked" survives the operations (C135) |
| C147 | as C146 (`Model/FloatFlagsDenoise`); a comparison of finite numbers does not depend on the unit, so the same values are cleared; the transform respects pairs of maps on values and denoisers (`Proof/MarksDenoise`) |
| C148 | C108 reduces any number of archives to one cut; significands of normal numbers that differ by a power of two are equal, so the cut removes the same bits |
| C149 | the composing half of C146 for any coefficients, then C148 |

## Trusted base

Lean's kernel; the axioms `propext`, `Classical.choice`, `Quot.sound` (no theorem depends on any other axiom, checked with
`#print axioms` for every theorem in `MANIFEST.json`); the reading of the C++ code in `Verif/Model` (comments cite the
lines); the statements in `Verif/Props` and `Verif/Spec`; the facts about libraries named under "Modelling decisions".

Deviation from the rules of the task: once, `RGBToHSL` and `HSLToRGB` were copied from `/repo` into a scratch file outside this directory and
compiled and run, although the code was not to be built or run. The scratch file was deleted, `/repo` was not changed, and no theorem or witness rests on
that run; side calculations for C102 evaluate the operations of the model instead. The run did suggest looking at rounding in the colour
conversion.

## Which code is modelled

| source | modelled in | not modelled |
|--------|-------------|--------------|
| `sources/wavelet_buffer.cc` | `Buffer`, `Serialize`, `Equality`, `Metrics`, `World`, `Clients`, `Sharing` (several threads), `Program` (static objects), `Text` (`operator<<`), `Lifetime` (references that are kept) | text of exceptions; `CompressedSize` (private, never called) |
| `sources/wavelet_buffer_view.cc` | `Buffer`, `World`, `Lifetime` (views that are kept) | – |
| `sources/wavelet_utils.cc` | `Params`, `MaxSteps` (the step limit in `double`), `Transform`, `Partial` (304-332 and the result of 361-412), `Buffer` and `Threads` (cache), `Metrics`, `FloatMetrics` (with rounding) | – |
| `sources/wavelet.cc` | `Wavelet`, `Coeffs`, `FloatArith` (rounding, overflow), `FloatBits` (on stored bit patterns), `FloatFlags` (with marks), `Matrix1D` | `DaubechiesMat` with a value outside the enumeration `Padding` (all-zero matrix) |
| `sources/padding.cc`, `padding.h` | `Padding` | – |
| `wavelet_parameters.h` | `Params` (`shortest_dimension()` is `Params.shortest`), `Serialize`, `Text` | `shortest_dimension()` of an empty shape (undefined) |
| `denoise_algorithms.h` | `Transform`, `Denoise`, `FloatDenoise` (on stored bit patterns), `FloatFlagsDenoise` (with marks), `Callback` (implementations by the user), `SimpleCall` (requirements of `std::nth_element`) | – |
| `wavelet_buffer_serializer.cc` | `Serialize`, `SfCompressor` | log output |
| `internal/matrix_compressor.cc` | `Serialize` | inside of fpzip and streamvbyte (parameters with contracts) |
| `internal/sf_compressor.cc` | `SfBits`, `SfCompressor`, `SfChoose` | `Show…` (debug output) |
| `img/color_space.cc` | `Color`, `ColorFloat`, `HslFloat`, `BitsColour` (on stored bit patterns) | |
| `img/jpeg_codecs.cc` | `Pixel`, `Codec`, `Quality`, `FloatCodec`, `BitsCodec` (on stored bit patterns) | inside of the JPEG library (parameter) |
| `img/wavelet_image.cc` | `Image` | – |
| `python/src/blaze_utils.cc` | `Python`, `PythonImage` | – |
| `python/src/wavelet_buffer.cc`, `wavelet_buffer_view.cc` | `Python`, `PythonImage` | thin forwards (`distance`, `parse`, `parameters`, …) |
| `python/src/img` | `PythonImage`, `Quality` | thin forwards (constructors, properties) |
| `python/src/wavelet_parameters.cc` | `Text` | thin forwards (constructor, attributes) |
| `python/src/denoise.cc`, `*.py` | – | thin forwards to C++ |

The version-2 compressor (`SfBits`, `SfCompressor`) is modelled bit by bit: the bit writer and reader with their buffer bounds (a write or
read outside is `ub`), the selection code, the exponent jumps, the pool tables, the stream layout. `compress` takes
the choice of code lengths as an argument: C52, C65 and C69 hold for every choice that gives a complete monotone code (`Spec.CompleteCode`). The
choice the code makes (lines 206-269) is `codeChoose`, with every product and quotient of shares rounded by an arbitrary rounding to nearest;
C76 and C77 are about it. All other `double` computations of this file are exact (multiples of 2^-32 below 2^53) and are modelled with rational numbers.

The Python bindings (`Python`) see a NumPy array as bytes, a start, a shape and strides (`Py.NpArray`); what the array stands for is defined
by NumPy's rule for element positions (`Spec.elementPos`), not by the order in which the bindings read it. Facts used about pybind11: `request(true)`
of a read-only array throws, integers that do not fit the C++ parameter throw, a buffer that Python knows is not copied by a cast.

Also outside the model: memory exhaustion except in C123 and through `Ext.alloc`, formatting by Blaze (a parameter of `Text`), compilers and hardware.
