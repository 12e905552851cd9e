{"id": "C01", "title": "Constructor accepts exactly the valid parameters", "statement": "Constructing a buffer from parameters succeeds exactly when the signal has one or two dimensions, every dimension is at least twice the wavelet order, and 2^steps times (2*order-1) does not exceed the shortest dimension (for the 'none' wavelet: exactly when steps is 0). Otherwise it throws. A constructed buffer is empty and reports the parameters it was given.", "quantifier": "all shapes (lists of sizes), all signal counts, all step counts, all wavelet orders", "why_tests_cant": "The parameter space is infinite and the acceptance boundary moves with the wavelet order and the shortest side; tests sample a few shapes.", "anchors": ["sources/wavelet_buffer.cc: WaveletBuffer::Impl::Impl(WaveletParameters)", "sources/wavelet_utils.cc: CalculateMaxDecompositionSteps"]}
{"id": "C02", "title": "Layout is invariant over every history", "statement": "At every point of every history of API calls (constructions, decompositions through the buffer or through views, copies, assignments, whether they succeed, are rejected, or throw) a buffer has exactly signal_number channels, each holding exactly steps*k+1 subbands (k=1 for 1D, 3 for 2D), and its parameters are the ones it was created with.", "quantifier": "all parameters, all finite sequences of operations with arbitrary arguments", "why_tests_cant": "A history can be arbitrarily long and mix failing and succeeding calls; tests exercise a few short histories.", "anchors": ["sources/wavelet_buffer.cc: Impl::Impl, Impl::Decompose", "sources/wavelet_utils.cc: DecomposeImpl, DecompositionSize", "sources/wavelet_buffer_view.cc: Impl::Decompose"]}
{"id": "C03", "title": "Constructor from explicit subbands stores them verbatim or throws", "statement": "Constructing a buffer from parameters and a list of per-channel subband lists succeeds exactly when the parameters are valid, the number of channels equals signal_number and every channel has the number of subbands the parameters prescribe; the stored subbands are then the given ones, unchanged.", "quantifier": "all parameters and all lists of lists of matrices", "why_tests_cant": "The check is a universally quantified condition over channels; tests look at single violations.", "anchors": ["sources/wavelet_buffer.cc: Impl::Impl(WaveletParameters, NWaveletDecomposition)"]}
{"id": "C04", "title": "Padded size is the least multiple of 2^steps", "statement": "For every accepted parameter set each padded dimension is the smallest multiple of 2^steps that is not below the signal dimension; in particular padding never adds 2^steps or more samples, and every decomposition step sees an even size.", "quantifier": "all accepted parameters", "why_tests_cant": "Arithmetic property over all sizes and steps.", "anchors": ["sources/wavelet_utils.cc: CalcPaddedSize"]}
{"id": "C05", "title": "Transform loops never index out of range", "statement": "For every accepted parameter set and every correctly shaped signal of at least one channel, Decompose and every Compose with 0 <= scale <= steps finish without an out-of-range vector or matrix access, without unsigned wrap-around in an index, and every sparse-matrix append happens in strictly increasing column order.", "quantifier": "all accepted parameters, all signals of the declared shape, all denoisers that keep sizes, all scales", "why_tests_cant": "Undefined behaviour need not show up in a test run, and boundary sizes depend on the wavelet order.", "anchors": ["sources/wavelet.cc: dwt, idwt, dwt2, idwt2, DaubechiesMat", "sources/wavelet_utils.cc: DecomposeImpl, ComposeImpl"]}
{"id": "C06", "title": "Shapes of the stored subbands", "statement": "After a successful Decompose the detail subbands of step k (counting from 0) have the padded size divided by 2^(k+1) in every dimension and the last subband has the padded size divided by 2^steps, for every channel.", "quantifier": "all accepted parameters, all signals, all size-preserving denoisers", "why_tests_cant": "Universally quantified over sizes and steps.", "anchors": ["sources/wavelet_utils.cc: DecomposeImpl, CalculateOneSideStep1D, CalculateOneSideStep2D"]}
{"id": "C07", "title": "1D perfect reconstruction", "statement": "For a 1D signal, decomposing with the null denoiser and composing at scale 0 returns exactly the original signal in exact arithmetic, whenever the scaling filter is orthonormal with respect to even shifts; the Haar filter written in the code is such a filter.", "quantifier": "all accepted 1D parameters, all signals over any commutative ring, all orthonormal filters of the right length", "why_tests_cant": "Equality for all signals and all lengths including odd lengths, boundary lengths and several steps.", "anchors": ["sources/wavelet.cc: dwt, idwt, Orthfilt", "sources/wavelet_utils.cc: DecomposeImpl, ComposeImpl", "sources/padding.cc: Extend, Crop"]}
{"id": "C08", "title": "2D perfect reconstruction", "statement": "For an image with any number of channels, decomposing with the null denoiser and composing at scale 0 returns exactly the original image in exact arithmetic whenever the scaling filter is orthonormal; the Haar filter written in the code is such a filter.", "quantifier": "all accepted 2D parameters, all images over any commutative ring, all orthonormal filters of the right length", "why_tests_cant": "Equality for all images, shapes (odd, rectangular) and step counts.", "anchors": ["sources/wavelet.cc: DaubechiesMat, dwt2, idwt2, dwt2s", "sources/wavelet_utils.cc: DecomposeImpl, ComposeImpl"]}
{"id": "C09", "title": "Reconstruction error with the coefficients in the code", "statement": "With the decimal filter coefficients that are written in the code (DB1..DB5) and exact real arithmetic, one decompose/compose round trip changes no sample by more than ((1 + 1.2e-11)^(dimensions*steps) - 1) times the Euclidean length of the padded channel (hence at most that times sqrt(N) times the largest sample magnitude, N being the number of padded samples), for any number of steps accepted by the constructor; for DB1 the change is 0.", "quantifier": "all accepted parameters with DB1..DB5, all real signals", "why_tests_cant": "A worst-case bound over all signals cannot be observed from samples.", "anchors": ["sources/wavelet.cc: dbwavf, Orthfilt, dwt, idwt"]}
{"id": "C10", "title": "Energy is preserved", "statement": "With an orthonormal filter and the null denoiser, the sum of squares of all subbands of a channel equals the sum of squares of the padded signal.", "quantifier": "all accepted parameters, all signals", "why_tests_cant": "Identity over all signals and steps.", "anchors": ["sources/wavelet.cc: dwt, dwt2", "sources/wavelet_utils.cc: DecomposeImpl, EnergyDistribution"]}
{"id": "C11", "title": "Decompose and Compose are linear", "statement": "With the null denoiser, the subbands of a*x+b*y are a times the subbands of x plus b times the subbands of y, and Compose of a linear combination of two buffers is the linear combination of the composed signals, at every scale.", "quantifier": "all accepted parameters, all pairs of signals, all coefficients", "why_tests_cant": "Universally quantified identity.", "anchors": ["sources/wavelet_utils.cc: DecomposeImpl, ComposeImpl"]}
{"id": "C12", "title": "Without decomposition the signal is stored verbatim", "statement": "With wavelet 'none' or zero steps, Decompose stores every channel unchanged as its only subband and Compose at scale 0 returns it unchanged, bit for bit, for every denoiser.", "quantifier": "all shapes (including those not a power of two), all signal values including NaN/inf, all denoisers", "why_tests_cant": "All values and shapes.", "anchors": ["sources/wavelet_utils.cc: DecomposeImpl, ComposeImpl, CalcPaddedSize", "sources/padding.cc: Extend, Crop"]}
{"id": "C13", "title": "Shape of a scaled composition", "statement": "Compose with scale s, 0 <= s <= steps, of a decomposed buffer returns one signal per channel whose every dimension is floor(n / 2^s), where n is the original dimension.", "quantifier": "all accepted parameters, all scales up to steps, all buffer contents with the prescribed shapes", "why_tests_cant": "Rounding depends on size, padding and scale.", "anchors": ["sources/wavelet_utils.cc: ComposeImpl"]}
{"id": "C14", "title": "Constant signals keep their amplitude at every scale", "statement": "If the filter coefficients sum to one and are orthonormal, a constant signal of value c composes to the constant c at every scale 0..steps, and every detail coefficient is zero.", "quantifier": "all accepted parameters, all constants, all scales", "why_tests_cant": "All sizes, steps and scales.", "anchors": ["sources/wavelet_utils.cc: ComposeImpl (factor)", "sources/wavelet.cc: dwt, dwt2"]}
{"id": "C15", "title": "Scaled composition is the coarse approximation", "statement": "Composing a decomposed buffer at scale s yields exactly the approximation an s-step decomposition of the same padded signal has (cropped and divided by the gain), independent of how many further steps were decomposed.", "quantifier": "all accepted parameters, all signals, all s <= steps, orthonormal filters", "why_tests_cant": "Relates two different runs for all inputs.", "anchors": ["sources/wavelet_utils.cc: ComposeImpl"]}
{"id": "C16", "title": "Compose rejects scales it cannot serve", "statement": "Compose with a scale factor larger than the number of decomposition steps, or negative, reports failure.", "quantifier": "all buffers and all scale factors", "why_tests_cant": "Quantifies over all scale factors; in fact false of the code.", "anchors": ["sources/wavelet_utils.cc: ComposeImpl", "sources/wavelet_buffer.cc: Impl::Compose"]}
{"id": "C17", "title": "Padding replicates edges and cropping undoes it", "statement": "Extending a matrix replicates the nearest edge sample (zero-derivative) or fills with zeros (zero padding), never alters original samples, and cropping back to the original size with the same location returns exactly the original matrix.", "quantifier": "all non-empty matrices, all target sizes not smaller than the matrix, both locations, both algorithms", "why_tests_cant": "All matrices and sizes; nine regions whose presence depends on parity.", "anchors": ["sources/padding.cc: Crop, ZeroPaddingAlgorithm::Extend, ZeroDerivativePaddingAlgorithm::Extend"]}
{"id": "C18", "title": "Threshold denoiser semantics", "statement": "The threshold denoiser keeps a coefficient of step s unchanged exactly when its magnitude exceeds a*s+b and otherwise replaces it by zero; it is idempotent, keeps shapes, and after a Decompose every stored detail coefficient is zero or exceeds the threshold of its step while the approximation is that of the undenoised decomposition.", "quantifier": "all signals, all thresholds, all steps", "why_tests_cant": "All values including ties at the threshold.", "anchors": ["wavelet_buffer/denoise_algorithms.h: ThresholdAbsDenoiseAlgorithm", "sources/wavelet_utils.cc: CalculateOneSideStep1D/2D"]}
{"id": "C19", "title": "Simple denoiser keeps the largest coefficients", "statement": "Whatever valid partition std::nth_element produces, the simple denoiser returns a matrix of the same shape in which every entry is the original or zero, exactly n - min(trunc(n*level), n-1) positions are kept, and no kept entry has smaller magnitude than a dropped one. Level 0 changes nothing and level 1 zeroes everything (documented).", "quantifier": "all matrices and vectors, all levels in [0,1], every outcome nth_element is allowed to have", "why_tests_cant": "nth_element is underspecified; a test sees one library's choice.", "anchors": ["wavelet_buffer/denoise_algorithms.h: SimpleDenoiseAlgorithm"]}
{"id": "C20", "title": "Decompose rejects every wrongly shaped signal", "statement": "Decompose returns true exactly when the number of channels and every channel's shape match the buffer's parameters; otherwise it returns false and leaves the buffer unchanged.", "quantifier": "all parameters, all lists of matrices", "why_tests_cant": "Quantifies over all mismatches in all channels; in fact false of the code for channels after the first.", "anchors": ["sources/wavelet_utils.cc: DecomposeImpl"]}
{"id": "C21", "title": "Decompose result does not depend on history", "statement": "The subbands written by a successful Decompose and its return value are a function of parameters, data and denoiser only: previous buffer contents and all previously executed decompositions/compositions in the process (the shared matrix cache) have no influence; two consecutive identical calls give identical buffers.", "quantifier": "all histories of the process, all previous buffer contents", "why_tests_cant": "Histories are unbounded.", "anchors": ["sources/wavelet_utils.cc: WaveletMatrixCache, DecomposeImpl"]}
{"id": "C22", "title": "Shared matrix cache is transparent under every schedule", "statement": "When any number of threads use buffers concurrently, for every interleaving each request for transform matrices returns exactly what a fresh computation would, cached entries never change, and no schedule deadlocks: some thread can always advance until all requests are served.", "quantifier": "all numbers of threads, all request lists, all interleavings of lock/lookup/build/insert/unlock steps", "why_tests_cant": "The number of schedules is unbounded; tests see a handful.", "anchors": ["sources/wavelet_utils.cc: WaveletMatrixCache::GenerateMatrices, GenerateTransMatrices"]}
{"id": "C23", "title": "View decomposition touches only its channels", "statement": "A successful Decompose through a view of channels [start, start+count) changes only these channels, and channel start+i gets exactly the subbands that decomposing data[i] in a buffer of its own would give.", "quantifier": "all parameters, all in-range views, all data, all buffer contents", "why_tests_cant": "Frame property over all channels and views.", "anchors": ["sources/wavelet_buffer_view.cc: Impl::Decompose", "sources/wavelet_utils.cc: DecomposeImpl"]}
{"id": "C24", "title": "Out-of-range views are rejected", "statement": "Decompose or Compose through a view that is not contained in the buffer's channels returns false and changes nothing.", "quantifier": "all integer start/count pairs, all buffers", "why_tests_cant": "Quantifies over all integers; in fact false of the code for negative start.", "anchors": ["sources/wavelet_buffer_view.cc: Impl::CheckChannelRange"]}
{"id": "C25", "title": "Casting a view copies its channels", "statement": "Converting an in-range view to a buffer yields a buffer with the same parameters except signal_number=count, whose channel i equals channel start+i of the viewed buffer, and which is independent of later changes to it.", "quantifier": "all buffers, all in-range views", "why_tests_cant": "All views.", "anchors": ["sources/wavelet_buffer_view.cc: Impl::CastToBuffer"]}
{"id": "C26", "title": "View composition equals the slice of the full composition", "statement": "Compose through an in-range view returns exactly the channels [start, start+count) of what Compose on the whole buffer returns, at the same scale.", "quantifier": "all buffers whose channels all compose, all in-range views, all scales", "why_tests_cant": "Relates two runs for all views.", "anchors": ["sources/wavelet_buffer_view.cc: Impl::Compose", "sources/wavelet_utils.cc: ComposeImpl"]}
{"id": "C27", "title": "Uncompressed serialization round trip is bit exact", "statement": "For every buffer, Serialize with level 0 succeeds and Parse of the result returns a buffer with equal parameters and bit-identical subbands (NaN payloads and signed zeros included), including never-decomposed buffers.", "quantifier": "all valid parameters, all subband contents and shapes representable in 64-bit headers", "why_tests_cant": "All contents; bit-exactness for all 2^32 float patterns.", "anchors": ["sources/wavelet_buffer_serializer.cc: WaveletBufferSerializer::Serialize, Parse", "wavelet_buffer/wavelet_parameters.h: serialize, deserialize"]}
{"id": "C28", "title": "Compressed serialization round trip", "statement": "For every buffer whose subbands are all non-empty and hold fewer than 2^31 values and every level 1..255, Serialize succeeds and Parse of the result returns a buffer with equal parameters and shapes in which every zero is zero again and every nonzero value is the float codec's 33-min(31,level)-bit truncation of it; at level 1 all values are restored exactly (except that -0 becomes +0).", "quantifier": "all contents, all levels", "why_tests_cant": "All sparsity patterns and values.", "anchors": ["sources/wavelet_buffer_serializer.cc: Serialize, Parse", "sources/internal/matrix_compressor.cc: Compress, Decompress, ConvertToCSR, ConvertFromCSR"]}
{"id": "C29", "title": "Compression level saturates and is ignored for empty buffers", "statement": "Levels above 31 produce the same blob as level 31, and a never-decomposed buffer produces the same blob at every level.", "quantifier": "all buffers, all levels 0..255", "why_tests_cant": "All buffers.", "anchors": ["sources/wavelet_buffer_serializer.cc: Serialize"]}
{"id": "C30", "title": "Failed Serialize leaves the output untouched; success condition", "statement": "Serialize never throws; if it returns false the output string still has its previous value. It returns true for every buffer at level 0, and at higher levels exactly when the buffer is entirely empty or no subband is empty (given the codecs do not fail and subbands hold fewer than 2^31 values).", "quantifier": "all buffers, all levels, all previous output values", "why_tests_cant": "All partially filled buffers.", "anchors": ["sources/wavelet_buffer_serializer.cc: Serialize", "sources/internal/matrix_compressor.cc: ConvertToCSR"]}
{"id": "C31", "title": "Truncated blobs are rejected", "statement": "Parse of a proper prefix of a serialized buffer returns null, whatever the cut position.", "quantifier": "all buffers, all cut positions", "why_tests_cant": "All cut positions and contents; in the header the code reads indeterminate values.", "anchors": ["sources/wavelet_buffer_serializer.cc: Parse", "wavelet_buffer/wavelet_parameters.h: deserialize"]}
{"id": "C32", "title": "Trailing bytes are ignored", "statement": "Appending arbitrary bytes to a valid blob does not change what Parse returns.", "quantifier": "all buffers, all levels, all suffixes", "why_tests_cant": "All suffixes.", "anchors": ["sources/wavelet_buffer_serializer.cc: Parse"]}
{"id": "C33", "title": "Only format versions 2 and 3 are accepted", "statement": "Parse returns null for every blob whose first byte is neither 2 nor 3.", "quantifier": "all byte strings", "why_tests_cant": "All byte strings; in fact false of the code, which skips leading white space when it reads the version.", "anchors": ["sources/wavelet_buffer.cc: Impl::Parse", "sources/wavelet_buffer_serializer.cc: Parse"]}
{"id": "C34", "title": "Sparse conversion round trip", "statement": "Converting a non-empty matrix of fewer than 2^31 values to index/value lists and back restores it (up to the sign of zero); indexes are strictly increasing, values are all nonzero, both lists have the number of nonzeros as length.", "quantifier": "all matrices of floats", "why_tests_cant": "All sparsity patterns.", "anchors": ["sources/internal/matrix_compressor.cc: ConvertToCSR, ConvertFromCSR"]}
{"id": "C35", "title": "Parameter comparison is a total order consistent with equality", "statement": "The comparison operators on parameters form a strict total order: irreflexive, transitive, total, with == holding exactly when neither is smaller, and >, <=, >=, != are the derived relations. Hence a cache keyed by it never confuses two different parameter sets.", "quantifier": "all pairs and triples of parameter sets", "why_tests_cant": "All triples.", "anchors": ["wavelet_buffer/wavelet_parameters.h: operator==, operator<, operator>, operator<=, operator>="]}
{"id": "C36", "title": "Copies are independent", "statement": "After copying or copy-assigning a buffer, any sequence of operations on one of the two leaves the other unchanged, and right after the copy both are equal.", "quantifier": "all buffers, all later operation sequences", "why_tests_cant": "Unbounded histories.", "anchors": ["sources/wavelet_buffer.cc: WaveletBuffer(const WaveletBuffer&), operator="]}
{"id": "C37", "title": "Distance behaves like a squared metric", "statement": "Distance of a buffer to itself is 0, it is symmetric and never negative, it is 0 only for identical subbands, satisfies the parallelogram-type triangle bound, and is NaN exactly when the step counts differ (for non-degenerate sizes).", "quantifier": "all pairs of buffers of equal form", "why_tests_cant": "All pairs.", "anchors": ["sources/wavelet_utils.cc: Distance"]}
{"id": "C38", "title": "Energy distribution", "statement": "EnergyDistribution of a non-empty buffer has one non-negative entry per channel and subband equal to that subband's sum of squares, zero exactly when the subband is all zero; for an empty buffer it is empty. With a null-denoised orthonormal decomposition each channel's entries sum to the padded signal's energy.", "quantifier": "all buffers", "why_tests_cant": "All contents.", "anchors": ["sources/wavelet_utils.cc: EnergyDistribution"]}
{"id": "C39", "title": "Advertised value ranges contain the subband values", "statement": "If all samples of the signal lie in [0, M], every value of subband i of the decomposition lies in [M*lo, M*hi] where (lo, hi) = GetValueRange(i).", "quantifier": "all accepted parameters, all signals in [0, M], all subbands", "why_tests_cant": "Worst case over all signals; in fact false for DB2 and above.", "anchors": ["sources/wavelet_buffer.cc: Impl::GetValueRange"]}
{"id": "C40", "title": "IsEmpty means no stored samples", "statement": "IsEmpty is true exactly when no subband of any channel holds a sample: true after construction, false after any successful Decompose of at least one channel of a signal with positive sides.", "quantifier": "all buffers and histories", "why_tests_cant": "All histories.", "anchors": ["sources/wavelet_buffer.cc: Impl::IsEmpty"]}
{"id": "C41", "title": "RGB to HSL to RGB round trip", "statement": "Converting any colour with components in [0,1] to HSL and back changes no component by more than 0.001 in exact arithmetic, and not at all when the colour is not nearly gray and has an unambiguous maximum.", "quantifier": "all real colours in the unit cube", "why_tests_cant": "Continuum of colours with many branch boundaries.", "anchors": ["sources/img/color_space.cc: RGBToHSL, HSLToRGB"]}
{"id": "C42", "title": "Colour conversions stay in range", "statement": "RGBToHSL maps the unit cube into the unit cube without division by zero and HSLToRGB maps the unit cube into the unit cube.", "quantifier": "all real colours", "why_tests_cant": "Continuum.", "anchors": ["sources/img/color_space.cc: RGBToHSL, HSLToRGB"]}
{"id": "C43", "title": "8-bit pixels survive the float representation", "statement": "A pixel decoded to a float and encoded again by the codecs gives back the same 8-bit value, and encoding clamps everything else into 0..255 monotonically.", "quantifier": "all 256 pixel values; all real sample values", "why_tests_cant": "Float rounding of k/255 and of the product has to be right for every value.", "anchors": ["sources/img/jpeg_codecs.cc: ToPixel, RgbJpegCodec::Decode"]}
{"id": "C44", "title": "Codec channel checks", "statement": "Encode fails without touching the output exactly when a needed channel is missing, the needed channels differ in shape, or the image has no pixels; Decode of an empty blob fails and leaves the image untouched; channels outside the decoded range are not modified.", "quantifier": "all images, all start channels, all blobs", "why_tests_cant": "All images and start channels.", "anchors": ["sources/img/jpeg_codecs.cc: checkChannelsShape, Decode, Encode"]}
{"id": "C45", "title": "Image import/export report failures and do not damage the buffer", "statement": "ImportFromString/ImportFromFile return kOk exactly when decoding and decomposition succeed; when they return anything else the stored buffer is unchanged; on kOk only the imported channels change. ExportToFile that does not return kOk leaves the previous file untouched.", "quantifier": "all buffers, all codecs, all file contents, all start channels", "why_tests_cant": "All codecs and failures; the last sentence is in fact false of the code.", "anchors": ["sources/img/wavelet_image.cc: ImportFromString, ImportFromFile, ExportToString, ExportToFile"]}
{"id": "C46", "title": "Save then Load restores the image", "statement": "If Save returns kOk, a subsequent Load of the same path returns an image with an equal buffer, also across a crash or a full disk.", "quantifier": "all buffers, all file systems behaviours and crash points", "why_tests_cant": "Crash points and write failures; in fact false when the write fails or is cut short.", "anchors": ["sources/img/wavelet_image.cc: Save, Load"]}
{"id": "C47", "title": "Legacy bit stream reader inverts the writer", "statement": "In the version-2 compressor, writing any sequence of (bit count, value) fields with value < 2^bits and reading with the same bit counts returns the same values, at any bit offset, and the writer never disturbs earlier fields.", "quantifier": "all field sequences (1..32 bits each)", "why_tests_cant": "All bit offsets and lengths.", "anchors": ["sources/internal/sf_compressor.cc: Bitstream, FromBitstream"]}
{"id": "C48", "title": "Legacy selection code is a prefix-free bijection", "statement": "Encoding a choice among n possibilities with the phase-in code and decoding returns the choice and consumes exactly the bits written, for every n and choice.", "quantifier": "all n >= 1 and all choices below n", "why_tests_cant": "All n.", "anchors": ["sources/internal/sf_compressor.cc: SevenOfNine, NineOfSeven"]}
{"id": "C49", "title": "Legacy exponent differences decode to the exponents", "statement": "For any sequence of 8-bit exponents, decoding the encoded sequence of exponent jumps returns the exponents.", "quantifier": "all sequences of bytes", "why_tests_cant": "All sequences.", "anchors": ["sources/internal/sf_compressor.cc: Compress (exponent jumps), Decompress"]}
{"id": "C50", "title": "Legacy pool search finds the right pool", "statement": "For every pool table built by the code and every number in its range the bisection returns the unique pool whose interval contains the number.", "quantifier": "all numbers up to 2^31, all three pool tables", "why_tests_cant": "2^31 numbers.", "anchors": ["sources/internal/sf_compressor.cc: findPoolNr, setPoolSearch"]}
{"id": "C51", "title": "Version-2 uncompressed blobs parse to the buffer they encode", "statement": "Parse of the version-2 uncompressed encoding of a buffer returns that buffer.", "quantifier": "all buffers", "why_tests_cant": "All contents; one fixture is tested.", "anchors": ["sources/wavelet_buffer_serializer.cc: WaveletBufferSerializerLegacy::Parse"]}
{"id": "C52", "title": "Version-2 compressed subbands decode to what was encoded", "statement": "Decompress of a stream produced by the version-2 compressor returns the indexes that were compressed and their values rounded to the requested number of fraction bits, whenever the code-length table chosen by the compressor is a complete monotone code.", "quantifier": "all strictly increasing index sequences, all value sequences, all complete monotone code-length tables", "why_tests_cant": "All inputs.", "anchors": ["sources/internal/sf_compressor.cc: Compress, Decompress"]}
{"id": "C53", "title": "Python arrays convert to signals without loss", "statement": "The Python conversion of a C-contiguous float32 array to channels and back returns the same array, element for element, in the same positions; other memory layouts give the logical array too.", "quantifier": "all shapes, all contents, all dtypes/strides", "why_tests_cant": "All shapes and strides; the last clause is in fact false of the code.", "anchors": ["python/src/blaze_utils.cc: PyArrayToSignalN2D, SignalN2DToPyArray"]}
{"id": "C54", "title": "Equality of buffers", "statement": "Buffer equality is reflexive and symmetric whenever scalar comparison is, differs from inequality, and equal buffers have equal parameters and shapes.", "quantifier": "all pairs of buffers, all scalar comparisons", "why_tests_cant": "All pairs.", "anchors": ["sources/wavelet_buffer.cc: operator==, operator!="]}
{"id": "C55", "title": "Channels do not influence each other", "statement": "Each channel's subbands depend only on that channel's samples: changing the other channels of the decomposed signal, their number or their order does not change them.", "quantifier": "all parameters, all signals, all channels", "why_tests_cant": "Non-interference relates pairs of runs.", "anchors": ["sources/wavelet_utils.cc: DecomposeImpl"]}
{"id": "C56", "title": "Vector and matrix interfaces agree in 1D", "statement": "For a one-channel 1D buffer, decomposing a vector equals decomposing the same samples as an n x 1 matrix, and composing to a vector returns the first column of what composing to matrices returns. For buffers with more channels the vector interface affects only channel 0.", "quantifier": "all accepted 1D parameters, all vectors", "why_tests_cant": "All vectors.", "anchors": ["sources/wavelet_buffer.cc: Impl::Decompose(const Signal1D&), Impl::Compose(Signal1D*)"]}
{"id": "C57", "title": "Legacy Parse never writes outside its buffers", "statement": "Parsing any version-2 blob does not write outside the memory allocated for a subband.", "quantifier": "all byte strings", "why_tests_cant": "All byte strings; in fact false of the code.", "anchors": ["sources/wavelet_buffer_serializer.cc: ParseCompressedSubbands, GetMemorySizeForSfCompressor", "sources/internal/sf_compressor.cc: Decompress"]}
{"id": "C58", "title": "Rounding error of a round trip", "statement": "If every float operation has relative error at most u (standard model), a decompose/compose round trip in 1D changes no sample by more than an explicit bound that is linear in u (to first order) times the largest sample magnitude.", "quantifier": "all accepted 1D parameters, all signals, all rounding functions obeying the standard model", "why_tests_cant": "Worst case over all signals and rounding patterns.", "anchors": ["sources/wavelet.cc: dwt, idwt"]}
{"id": "C59", "title": "Matching parameters are required for parsing", "statement": "Parse returns a buffer only if the encoded parameters would be accepted by the constructor, and the buffer it returns has exactly the channel/subband layout of these parameters.", "quantifier": "all byte strings for which parsing does not read past the header", "why_tests_cant": "All byte strings.", "anchors": ["sources/wavelet_buffer_serializer.cc: Parse", "sources/wavelet_buffer.cc: Impl::Impl"]}
{"id": "C60", "title": "Python level argument is reduced modulo 256", "statement": "Serializing from Python with level l behaves as the C++ call with l mod 256, so levels that are multiples of 256 switch compression off.", "quantifier": "all integers", "why_tests_cant": "All integers.", "anchors": ["python/src/wavelet_buffer.cc: serialize"]}
{"id": "C61", "title": "Small noise does not change encoded pixels", "statement": "A sample that differs from k/255 by less than half a pixel step (1/510) is encoded to the pixel value k.", "quantifier": "all 256 pixel values, all samples within the distance, all roundings to nearest", "why_tests_cant": "All real samples near all pixels; in fact false of the code, which truncates.", "anchors": ["sources/img/jpeg_codecs.cc: ToPixel"]}
{"id": "C62", "title": "Decoding reads only the decoded image", "statement": "Decode never reads outside the image returned by the JPEG library, whatever number of channels the file has.", "quantifier": "all codecs, all files the library can decode, all start channels", "why_tests_cant": "All files; undefined behaviour need not show in a test. In fact false of the code.", "anchors": ["sources/img/jpeg_codecs.cc: RgbJpegCodec::Decode, HslJpegCodec::Decode"]}
{"id": "C63", "title": "Import followed by export keeps the pixels", "statement": "Importing a JPEG picture with the RGB or gray codec into a WaveletImage of its size without denoising and exporting it with the same codec hands the JPEG encoder exactly the pixels that the JPEG decoder produced.", "quantifier": "all pictures, all sizes, all step counts, all IEEE roundings of the pixel conversions; transform in exact arithmetic", "why_tests_cant": "All pictures and sizes; truncation in the encoder makes it sensitive to any error.", "anchors": ["sources/img/wavelet_image.cc: ImportFromString, ExportToString", "sources/img/jpeg_codecs.cc: Decode, Encode"]}
{"id": "C64", "title": "Every picture size can be held", "statement": "WaveletImage(channels, w, h) can be constructed for every picture with at least one pixel.", "quantifier": "all channel numbers and sizes", "why_tests_cant": "All sizes; in fact false of the code for pictures one pixel wide or high.", "anchors": ["sources/img/wavelet_image.cc: WaveletImage::WaveletImage(size_t, size_t, size_t)"]}
{"id": "C65", "title": "Old compressed files give back their buffer", "statement": "A version-2 file with compression, whose streams were made by the version-2 compressor from the subbands of a buffer and fit the memory set aside by the parser, is parsed to that buffer with its nonzero samples rounded to the number of fraction bits kept.", "quantifier": "all buffers, all compression levels, all numbers of fraction bits supported, all code tables", "why_tests_cant": "All buffers; the repository has a handful of old files.", "anchors": ["sources/wavelet_buffer_serializer.cc: WaveletBufferSerializerLegacy::Parse, ParseCompressedSubbands", "sources/internal/sf_compressor.cc: Decompress"]}
{"id": "C66", "title": "Old streams of all-zero subbands decode", "statement": "The stream of a matrix without nonzero samples, decompressed with a new object in zeroed memory with 6 bytes more than the stream, gives the sizes and no values.", "quantifier": "all sizes below 2^31 elements", "why_tests_cant": "All sizes.", "anchors": ["sources/internal/sf_compressor.cc: Compress (343-371), Decompress"]}
{"id": "C67", "title": "A decompressor object can be used again", "statement": "Decompressing a stream gives the same result with a new SfCompressor and with one that has decompressed other streams before.", "quantifier": "all streams, all histories of the object", "why_tests_cant": "All histories of an object; in fact false of the code for streams that leave a code table out.", "anchors": ["sources/internal/sf_compressor.cc: Decompress"]}
{"id": "C68", "title": "The version-2 compressor handles every matrix", "statement": "Compress returns a stream or reports failure for every input, also without values or with zero values, without undefined behaviour.", "quantifier": "all inputs", "why_tests_cant": "All inputs; in fact false of the code.", "anchors": ["sources/internal/sf_compressor.cc: Compress"]}
{"id": "C69", "title": "Error of the version-2 compressor", "statement": "Compressing and decompressing keeps the positions and changes each value by at most the factor 2^-(frag+1) (subnormal values: by at most 2^-126).", "quantifier": "all inputs with finite values that stay finite when rounded, frag from 7 to 23 except 22", "why_tests_cant": "All 32-bit patterns and numbers of fraction bits.", "anchors": ["sources/internal/sf_compressor.cc: Compress, Decompress"]}
{"id": "C70", "title": "Slices of a Python buffer are views of the selected channels", "statement": "b[i:j] selects exactly the channels that Python's rules for sequences select (negative bounds count from the end, bounds beyond the end are cut); composing the slice gives these channels of the composed buffer; other steps and slices that select nothing are rejected.", "quantifier": "all buffers, all integer or missing bounds, all steps", "why_tests_cant": "All integers; the clause about empty slices is in fact false of the code.", "anchors": ["python/src/wavelet_buffer.cc: __getitem__", "python/src/wavelet_buffer_view.cc: ComposeN2DSignal, DecomposeN2DSignal"]}
{"id": "C71", "title": "Subbands read in Python rebuild the buffer", "statement": "WaveletBuffer(parameters of b, decompositions=b.decompositions) equals b, bit for bit, and the arrays read are the subbands element for element; subband arrays of any memory layout are accepted as the array they stand for.", "quantifier": "all valid buffers with sides below 2^31, all layouts", "why_tests_cant": "All buffers and strides; the clause about layouts is in fact false of the code.", "anchors": ["python/src/blaze_utils.cc: NWaveletDecompositionToNPy, NPyDecompositionToNW", "python/src/wavelet_buffer.cc: WrapWaveletBuffer"]}
{"id": "C72", "title": "Composing a buffer without channels from Python", "statement": "compose() of a valid buffer with zero channels returns an empty array or raises an exception.", "quantifier": "all valid buffers with zero channels, all scales", "why_tests_cant": "All shapes and scales; in fact false of the code (undefined behaviour).", "anchors": ["python/src/blaze_utils.cc: SignalN2DToPyArray"]}
{"id": "C73", "title": "Matrix form and filter form of the 1D transforms agree", "statement": "dwt(x, DaubechiesMat(n, 2t)) returns the periodic convolutions of x with the scaling filter and its mirrored filter, the same as dwt with the two filters; idwt with the transposed matrix returns the same as idwt with the reversed filters; with an orthonormal filter idwt undoes dwt.", "quantifier": "all even n >= 2t, all filters, all signals of n samples", "why_tests_cant": "All sizes, filters and samples; in fact false of the code for n = 2.", "anchors": ["sources/wavelet.cc: DaubechiesMat, dwt, idwt"]}
{"id": "C74", "title": "Zero-derivative matrix continues the signal by its border samples", "statement": "DaubechiesMat(n, 2t, ZeroDerivative) is an n x n matrix; dwt with it gives the scaling filter and its mirrored filter, centred at every second sample, applied to the signal whose first and last samples are repeated outside; constants give constant outputs.", "quantifier": "all n (odd, even, also smaller than the filter), all filters, all signals", "why_tests_cant": "All sizes, filters and samples.", "anchors": ["sources/wavelet.cc: DaubechiesMat (Padding::ZeroDerivative), dwt"]}
{"id": "C75", "title": "1D transforms with arguments of the wrong size", "statement": "dwt and idwt with a matrix or filter pair that does not fit the signal return empty vectors or throw, and never read outside their arguments.", "quantifier": "all signals, matrices and filter pairs", "why_tests_cant": "All sizes; in fact false of the code for long filters (the checks are asserts).", "anchors": ["sources/wavelet.cc: dwt, idwt"]}
{"id": "C76", "title": "The code lengths that the version-2 compressor chooses work", "statement": "Compress of the version-2 compressor always finishes its choice of code lengths with a complete prefix code, so that Decompress of its stream returns the indexes and the rounded values, whatever the double rounding and whatever was compressed with the object before.", "quantifier": "all strictly increasing index sequences in matrices of fewer than 2^31 elements, all nonzero finite values, all roundings to nearest, all earlier contents of the object", "why_tests_cant": "All frequency tables; the loops compare rounded quotients. In fact false of the code: code lengths of 32 occur in matrices of 1024 x 1024 elements, and runs of several hundred million zeros overfill the code.", "anchors": ["sources/internal/sf_compressor.cc: Compress (lines 189-269)"]}
{"id": "C77", "title": "Version-2 streams are reproducible", "statement": "The bytes that Compress of the version-2 compressor writes, or its failure, depend only on the matrix and the buffer size: not on how the machine breaks ties when rounding doubles, and not on what the same object compressed before.", "quantifier": "all matrices, index and value sequences, buffer sizes, all pairs of roundings to nearest, all pairs of earlier contents of the object", "why_tests_cant": "All inputs and all tie-breaking rules; needs that no quotient compared is ever halfway between two doubles, and that every code length in use is assigned anew.", "anchors": ["sources/internal/sf_compressor.cc: Compress (lines 189-269)"]}
{"id": "C78", "title": "Printing a buffer goes to the stream given", "statement": "Writing a buffer to a stream with operator<< puts the whole text into that stream and writes nothing anywhere else.", "quantifier": "all buffers, all ways Blaze may write vectors and matrices", "why_tests_cant": "All buffers; tests look at the stream given, not at the standard output. In fact false for every buffer with a channel: the headings of the channels always go to std::cout.", "anchors": ["sources/wavelet_buffer.cc: operator<< (lines 398-419)", "wavelet_buffer/wavelet_parameters.h: operator<< (lines 68-81)"]}
{"id": "C79", "title": "The Python repr identifies the parameters", "statement": "Two sets of parameters (or two buffers) whose repr in Python is the same text have the same shape, number of channels, number of steps and wavelet type.", "quantifier": "all pairs of parameters with a wavelet type of the enumeration; the sizes for all wavelet types", "why_tests_cant": "All pairs of parameters.", "anchors": ["python/src/wavelet_parameters.cc: WaveletTypeRepr, WaveletParametersRepr"]}
{"id": "C80", "title": "The quality of a JPEG codec is passed on", "statement": "A codec is created exactly for qualities from 0 to 1; with a quality of k percent the JPEG library is told the quality k; larger qualities never give smaller percentages.", "quantifier": "all floats including NaN and infinities, all IEEE roundings, all whole percentages", "why_tests_cant": "All floats; needs the rounding of float products. In fact false: 53 and 59 percent give 52 and 58, and NaN is accepted and makes Encode undefined.", "anchors": ["sources/img/jpeg_codecs.cc: CheckRangeQuality (20-24), Encode (94-95, 245-246)"]}
{"id": "C81", "title": "energy_distribution in Python", "statement": "energy_distribution returns an array with the energy of every subband of every channel.", "quantifier": "all buffers", "why_tests_cant": "All buffers; in fact false: for every empty buffer (so for every new one) it reads the first element of an empty vector, and for one-dimensional signals with several channels only the first channel is returned.", "anchors": ["python/src/wavelet_buffer.cc: energy_distribution (125-132)", "python/src/blaze_utils.cc: VecVecToPyArray"]}
{"id": "C82", "title": "decomposition_size in Python", "statement": "decomposition_size(shape, steps) is the number of subbands that each channel of a buffer of that shape and number of steps has.", "quantifier": "all buffers the API can produce, all channels", "why_tests_cant": "All shapes, steps and histories of buffers.", "anchors": ["python/src/wavelet_buffer/wavelet_buffer.py: decomposition_size", "python/src/wavelet_buffer.cc: lines 158-170"]}
{"id": "C83", "title": "JPEG codecs in Python", "statement": "decode returns the decoded picture as an array or raises an exception; encode of that array hands the JPEG library the same pixels; encode of an array it cannot handle raises an exception.", "quantifier": "all blobs, all JPEG libraries, all arrays", "why_tests_cant": "All libraries, pictures and arrays; the last clause is in fact false: arrays with fewer than three dimensions and arrays of bytes are undefined behaviour.", "anchors": ["python/src/img/codecs.cc: decode, encode"]}
{"id": "C84", "title": "Images in Python raise exceptions for failures", "statement": "import_from_string, import_from_file, export_to_string, export_to_file and save return exactly when they succeeded; when they raise an exception the image and the file are what they were; what save wrote, load reads.", "quantifier": "all images, codecs, file systems and data", "why_tests_cant": "All codecs and failures of the file system; in fact false for export_to_file (the file is emptied before the image is composed) and for save (a full disk goes unnoticed).", "anchors": ["python/src/img/wavelet_image.cc"]}
{"id": "C85", "title": "Rounding error of a round trip for pictures", "statement": "If every float operation has relative error at most u (standard model), a decompose/compose round trip in 2D changes no sample of any channel by more than an explicit bound that is linear in u (to first order) times the largest sample magnitude; for the program's own coefficients the bound is stated with numbers.", "quantifier": "all accepted 2D parameters, any number of channels, all signals, all rounding functions obeying the standard model", "why_tests_cant": "Worst case over all pictures and rounding patterns.", "anchors": ["sources/wavelet.cc: dwt2s, dwt2, idwt2, DaubechiesMat", "sources/wavelet_utils.cc: DecomposeImpl, ComposeImpl"]}
{"id": "C86", "title": "A round trip does not overflow", "statement": "If all samples are finite floats of magnitude at most M and 2.01^(2 dim steps) (3 M + 1) is at most the largest float (dim = 1 or 2), then Decompose without denoising and Compose produce no infinity and no NaN: all coefficients and all samples that come back are finite, and the samples are within the bounds of C58 and C85. Near the largest float this is not so: two equal samples of the largest float come back as infinities or NaN.", "quantifier": "all IEEE roundings to nearest, wavelets none and DB1..DB5, all accepted 1D and 2D parameters with at most 500000 (1D) or 250000 (2D) steps, all signals", "why_tests_cant": "Overflow occurs in intermediate sums for special sign patterns; tests only see the samples they try.", "anchors": ["sources/wavelet.cc: dwt, idwt, dwt2s, idwt2, dbwavf, Orthfilt", "sources/wavelet_utils.cc: DecomposeImpl, ComposeImpl"]}
{"id": "C87", "title": "Rounding errors of a round trip grow only in proportion to the steps", "statement": "Let N be the number of samples of the padded signal and let all samples be finite floats of magnitude at most M with sqrt(N) (3 M + 1) at most the largest float. Then Decompose without denoising and Compose produce no infinity and no NaN, and the error of each channel (root of the sum of squared differences between the samples that come back and those that went in), hence also the error of each sample, is at most sqrt(N) (9 (t+2) dim steps / 2^24 M + 9 t dim steps / 2^150) for wavelet DBt. Without padding, the root mean square error is at most 9 (t+2) dim steps / 2^24 M + 9 t dim steps / 2^150, whatever the number of samples.", "quantifier": "all IEEE roundings to nearest, wavelets none and DB1..DB5, all accepted 1D and 2D parameters with at most 2000 steps, all signals", "why_tests_cant": "C58 and C85 bound the error by a factor that doubles with every pass; that the errors do not really build up this way holds for all signals and cannot be seen from samples.", "anchors": ["sources/wavelet.cc: dwt, idwt, dwt2s, idwt2, dbwavf, Orthfilt", "sources/wavelet_utils.cc: DecomposeImpl, ComposeImpl"]}
{"id": "C88", "title": "Importing and exporting a picture in float changes pixels only a little, but does change them", "statement": "A JPEG picture is imported with the RGB or gray codec into an image of its size without denoising and exported again, all in float arithmetic. Let d >= 1 be such that the error bound of C87 for samples up to 1 is at most d/255 - 2^-16. Then the import and the export succeed, nothing overflows, and every pixel handed to the JPEG library is at most d below and less than d above the pixel that came from it; for d = 1 it stays or decreases by one. The pixels are not always the same: an all-white 2 x 2 picture comes back with 254 in every pixel (DB1, one step).", "quantifier": "all IEEE roundings to nearest, RGB and gray codec, wavelets none and DB1..DB5, at most 2000 steps, all pictures", "why_tests_cant": "Which pixels change depends on the rounding of every intermediate result; tests compare pictures with a tolerance found by trial.", "anchors": ["sources/img/jpeg_codecs.cc: ToPixel, Decode, Encode", "sources/img/wavelet_image.cc: ImportFromString, ExportToString", "sources/wavelet.cc: dwt2s, idwt2", "sources/wavelet_utils.cc: DecomposeImpl, ComposeImpl"]}
{"id": "C89", "title": "Compose does not amplify changes of the coefficients", "statement": "Take two buffers with the same parameters and subbands of the prescribed sizes. Compose succeeds on both, and for every channel the sum of the squared differences of the composed samples at scale s is at most the sum of the squared differences of the subbands, times (1 + 1.2e-11)^(dim (steps - s)) / 2^(dim s); the factor (1 + 1.2e-11)^... is exactly 1 for a filter that is orthonormal under even shifts. Hence the mean squared difference of all samples composed at full scale is at most (1 + 1.2e-11)^(dim steps) times Distance of the two buffers.", "quantifier": "all accepted parameters with wavelet none or DB1..DB5, all pairs of coefficient sets of the prescribed sizes, all scales up to the number of steps, real arithmetic", "why_tests_cant": "It bounds the effect of every possible change of the coefficients (denoising, lossy compression, editing through the data() accessor), an unbounded set.", "anchors": ["sources/wavelet_utils.cc: ComposeImpl", "sources/wavelet.cc: idwt, idwt2", "sources/wavelet_buffer.cc: Compose", "sources/wavelet_utils.cc: Distance"]}
{"id": "C90", "title": "Distance of decomposed signals is the distance of the signals, padding included", "statement": "Decompose two signals of the same parameters without denoising, with a filter that is orthonormal under even shifts. Distance of the two buffers is the sum over the channels of the squared differences of the padded signals, divided by the number of samples without padding. If all sides are multiples of 2^steps this is the mean squared difference of the signals. Otherwise it need not be: for 0,0,1 and 0,0,0 and one DB1 step the mean squared difference is 1/3 but Distance is 2/3.", "quantifier": "all accepted parameters, all filters orthonormal under even shifts, all pairs of signals", "why_tests_cant": "An identity between a sum over coefficients and a sum over samples for all signals; the tests compare only buffers with themselves and a few fixed ones.", "anchors": ["sources/wavelet_buffer.cc: Decompose", "sources/wavelet_utils.cc: DecomposeImpl", "sources/wavelet_utils.cc: Distance"]}
{"id": "C91", "title": "Denoising moves the composed signal no further than it moves the coefficients", "statement": "Decompose a signal with any denoiser that keeps sizes and compose it. The Euclidean distance of a composed channel from the signal is at most (1 + 1.2e-11)^(dim steps / 2) times that of its coefficients from the coefficients without denoising, plus ((1 + 1.2e-11)^(dim steps) - 1) times the length of the padded channel; with an orthonormal filter it is at most the distance of the coefficients. For the threshold denoiser whose thresholds a s + b are at most T >= 0 in every step s, the distance of the coefficients is at most T sqrt(N), N the number of samples of the padded channel, so the root mean square error is at most T, up to the same factors.", "quantifier": "all accepted parameters with wavelet none or DB1..DB5, all signals, all size-keeping denoisers, all a, b, T, real arithmetic", "why_tests_cant": "The tests check denoised pictures against a tolerance; that no signal can do worse than the threshold is a statement about all signals.", "anchors": ["wavelet_buffer/denoise_algorithms.h: ThresholdAbsDenoiseAlgorithm", "sources/wavelet_utils.cc: DecomposeImpl, ComposeImpl"]}
{"id": "C92", "title": "The simple denoiser loses at most the share level of the energy", "statement": "Decompose a signal with SimpleDenoiseAlgorithm(level), 0 <= level <= 1, and compose it. With an orthonormal filter the squared error of every channel is at most level times the sum of the squares of the padded channel. With the decimals of DB1..DB5 in the code the error is at most ((1 + 1.2e-11)^(dim steps) sqrt(level) + (1 + 1.2e-11)^(dim steps) - 1) times the Euclidean length of the padded channel.", "quantifier": "all accepted parameters with wavelet none or DB1..DB5 and fewer than 2^64 padded samples, all signals, all levels in [0, 1], any nth_element meeting its contract, real arithmetic", "why_tests_cant": "It holds for all signals and whatever order nth_element leaves; tests only look at the number of zeros.", "anchors": ["wavelet_buffer/denoise_algorithms.h: SimpleDenoiseAlgorithm", "sources/wavelet_utils.cc: DecomposeImpl, ComposeImpl"]}
{"id": "C93", "title": "Distance lies between 0 (same) and 1 (absolutely different)", "statement": "Distance of two decomposed signals lies between 0 and 1, and 1 means that all samples are as different as they can be. This holds if all samples lie between 0 and 1, all sides are multiples of 2^steps and the filter is orthonormal under even shifts: then Distance is 1 exactly if every pair of samples differs by 1. It is false in general: with padding, black and white signals of three samples and one DB1 step have Distance 4/3; without a limit on the samples Distance has no upper limit.", "quantifier": "all pairs of signals of the same parameters", "why_tests_cant": "The documented range is a statement about all buffers; the tests compare a few.", "anchors": ["wavelet_buffer/wavelet_utils.h: Distance (documentation)", "sources/wavelet_utils.cc: Distance"]}
{"id": "C94", "title": "Error of a lossy Serialize, Parse, Compose as a function of the compression level", "statement": "Serialize with compression level 1 to 24, Parse and Compose at any scale give channels whose Euclidean distance to the channels composed from the original buffer is at most 2^(level-24) times the Euclidean norm of the coefficients (plus 2^(level-150) per coefficient for subnormal numbers), divided by 2^(dimension*scale/2) and up to 12e-12 per step for the decimals of the filters; no value becomes infinite. At every level the error is at most that of losing all coefficients. From level 31 on only the values 0, 2 and -2 are left. Without the assumption that all values are finite it is false: from level 2 on a NaN can come back as infinity.", "quantifier": "all buffers of finite values with filters DB1 to DB5, all compression levels, all scales; float codecs that cut values to the leading bits asked for", "why_tests_cant": "The tests compress a few signals with a few levels and compare with a fixed tolerance; the bound is over all values and levels.", "anchors": ["sources/wavelet_buffer_serializer.cc: Serialize, Parse", "sources/internal/matrix_compressor.cc: Compress, CompressValues", "wavelet_buffer/wavelet_buffer.h: Serialize (documentation of sf_compression)"]}
{"id": "C95", "title": "Decomposing a circularly shifted signal", "statement": "If all sides are multiples of 2^steps, Decompose of a signal shifted circularly by multiples of 2^steps gives the subbands of the original, shifted circularly by that shift divided by 2^(s+1) for the details of step s and by 2^steps for the approximation, and nothing else changes.", "quantifier": "all valid parameters with sides that are multiples of 2^steps, all signals, all shifts by multiples of 2^steps, any filter", "why_tests_cant": "A statement about all signals and shifts; a wrong wrap-around in one branch of one transform shows only in few coefficients.", "anchors": ["sources/wavelet.cc: dwt, dwt2s, DaubechiesMat", "sources/wavelet_buffer.cc: Decompose"]}
{"id": "C96", "title": "An image that is the product of two signals decomposes into products", "statement": "If every channel of an image is the product u v^T of two signals, the approximation is the product of the approximations of u and v and the diagonal details of every step are the product of their details, padding included. If the sides are multiples of 2^steps, the mixed details of step s are the products of the details of one signal with the approximation of the other after s+1 steps. The image is processed by matrices, the signals by filter loops, so this ties the two implementations together.", "quantifier": "all valid parameters, all pairs of signals, any number of channels and steps, any filter", "why_tests_cant": "The 1D and 2D transforms are different code; tests compare each with itself only.", "anchors": ["sources/wavelet.cc: dwt, dwt2s, DaubechiesMat", "sources/padding.cc: ZeroDerivativePaddingAlgorithm::Extend", "sources/wavelet_buffer.cc: Decompose"]}
{"id": "C97", "title": "Decomposing a transposed image", "statement": "Decompose of the transposed image, with width and height exchanged in the parameters, gives the transposed subbands of the original, where the two mixed details of every step have changed places. Padding is included.", "quantifier": "all valid parameters of images, all images, any filter", "why_tests_cant": "A statement about all images; an asymmetric treatment of rows and columns shows only for special shapes.", "anchors": ["sources/wavelet.cc: dwt2s, DaubechiesMat", "sources/padding.cc: ZeroDerivativePaddingAlgorithm::Extend", "sources/wavelet_buffer.cc: Decompose"]}
{"id": "C98", "title": "A coefficient depends only on nearby samples", "statement": "If two signals, after padding, have the same samples in the window of (2*order-1)(2^(s+1)-1)+1 samples in each direction that starts at 2^(s+1) times a position (wrapping round at the end), the details of step s at that position are the same for both signals, whatever the other samples are. Likewise for the approximation with steps in place of s+1.", "quantifier": "all valid parameters, all pairs of signals, all positions of all subbands, any filter", "why_tests_cant": "Non-interference is a statement about pairs of signals that differ anywhere else.", "anchors": ["sources/wavelet.cc: dwt, dwt2s, DaubechiesMat", "sources/wavelet_buffer.cc: Decompose"]}
{"id": "C99", "title": "Details of a locally polynomial signal are zero", "statement": "Where the padded signal is, inside the window of samples a detail coefficient depends on, a polynomial of degree less than the order of the wavelet (in each coordinate), that coefficient is zero for every filter with vanishing moments. With the decimals in the code for DB1 to DB5 it is at most 2e-12*(9/4)^(dimension*(s+1)) times the largest sample of the window; it is not exactly zero (a ramp under DB2).", "quantifier": "all valid parameters, all signals, all steps, subbands, positions and polynomials", "why_tests_cant": "polynomials, positions and depths are unbounded; a test sees one ramp", "anchors": ["sources/wavelet.cc: dbwavf, dwt, dwt2s, DaubechiesMat", "sources/wavelet_buffer.cc: Decompose"]}
{"id": "C100", "title": "Every set of subbands is the decomposition of the signal it composes", "statement": "If the sides are multiples of 2^steps and the filter is orthonormal, then for a buffer whose subbands have the prescribed sizes and any values, Compose followed by Decompose (into any buffer with the same parameters) gives back exactly these subbands; their energy is the energy of the composed signal, and two buffers that compose to the same signal are equal. With padding this is false: for 3 samples the last Haar detail of any signal is zero.", "quantifier": "all valid parameters without padding, all subbands, any orthonormal filter over any commutative ring", "why_tests_cant": "Tests only compose what came from Decompose; here the subbands are arbitrary (edited by hand, denoised, read from a file).", "anchors": ["sources/wavelet_buffer.cc: Compose, Decompose", "sources/wavelet.cc: dwt, idwt, DaubechiesMat"]}
{"id": "C101", "title": "The denoisers give best approximations", "statement": "For the simple denoiser at a level in [0,1], no matrix with at most as many nonzero coefficients as it keeps is closer to the subband. For the threshold denoiser with threshold t >= 0, nothing has a smaller sum of squared distance and t^2 times the number of nonzero coefficients. If the filter is orthonormal and no padding is needed the same holds for the signals after Decompose and Compose: among all signals that can be composed from such details, the denoised one is the closest to the input (simple), or the one with the smallest sum of squared distance and price (threshold).", "quantifier": "all subbands and competing matrices; all valid parameters without padding, all signals and all competing buffers, levels and thresholds", "why_tests_cant": "Optimality is a comparison with all other approximations, which cannot be enumerated.", "anchors": ["wavelet_buffer/denoise_algorithms.h: SimpleDenoiseAlgorithm, ThresholdAbsDenoiseAlgorithm", "sources/wavelet_buffer.cc: Decompose, Compose"]}
{"id": "C102", "title": "The HSL codec keeps the pixels", "statement": "In float arithmetic a colour with components in [0,1] is converted to HSL and back without a division by zero and changes by at most 0.0011 in any component, by at most 1/15000 unless it is nearly gray or has a component just below the largest. Importing a JPEG picture with the HSL codec and exporting it again hands the JPEG encoder the pixels that the decoder produced. The last part is false: a component can become one less (bytes 3, 0, 3 become 2, 0, 3), but never anything else.", "quantifier": "all colours in the unit cube, all pictures, all IEEE roundings of the pixel and colour conversions; transform in exact arithmetic", "why_tests_cant": "A continuum of colours, 2^24 pixels for every rounding mode, all pictures; a test with a few pictures need not contain a colour that changes.", "anchors": ["sources/img/color_space.cc: RGBToHSL, HSLToRGB", "sources/img/jpeg_codecs.cc: HslJpegCodec::Decode, HslJpegCodec::Encode"]}
{"id": "C103", "title": "A decomposition can be continued and partly undone", "statement": "The functions for partial decomposition and partial composition fit the rest. A decomposition of a signal with s steps, continued by the missing steps, is the decomposition with all steps, for every denoiser that keeps sizes. Undoing the steps after the first s gives the decomposition with s steps, if the filter is orthonormal and nothing was denoised; for every buffer the result stands for the same signal, at every scale up to s. Undoing and continuing gives back any buffer whose subbands have the prescribed sizes. The statements that compare with a decomposition with s steps are false when the two pad the signal to different sizes: continuing then ends normally with empty subbands.", "quantifier": "all valid parameters, step counts, signals or subbands; all size-keeping denoisers for the first part", "why_tests_cant": "Equality for all signals, sizes and step counts; the functions have no tests at all in the repository, and the failure with padding raises no error.", "anchors": ["wavelet_buffer/wavelet_utils.h: DecomposeImpl (partial decompose), ComposeImpl (partial compose)", "sources/wavelet_utils.cc:304-332, 361-412"]}
{"id": "C104", "title": "Changed HSL values change the colours little", "statement": "If the hue, saturation and luminance of a pixel each change by at most e (e at most 1/100), by rounding, denoising or lossy compression, the colour they are converted back to in float differs from the pixel by at most 9 e + 1/10000 in every component. This includes hues that leave [0,1], the jump of the hue at red and saturations that fall below the threshold for gray. A factor of at least 6 is unavoidable. As a consequence, importing a JPEG picture with the HSL codec without denoising and exporting it again, with pixels, colours and transforms all computed in float, overflows nowhere and changes every byte by at most d, where d/255 is ten times the rounding error bound of the transform.", "quantifier": "all pixels, all changes up to 1/100, all pictures, sizes, wavelets and step counts within the error bound, all IEEE roundings", "why_tests_cant": "A continuum of changed values around each of 2^24 pixels; the sensitive places are discontinuities of the conversion (hue near 0 and 1, gray threshold) that a few pictures need not hit.", "anchors": ["sources/img/color_space.cc: RGBToHSL, HSLToRGB", "sources/img/jpeg_codecs.cc: HslJpegCodec::Decode, HslJpegCodec::Encode", "sources/img/wavelet_image.cc: ImportFromString, ExportToString"]}
{"id": "C105", "title": "Rounding error of decomposition and composition taken separately", "statement": "In float, with IEEE rounding and overflow: (1) the coefficients Decompose stores differ from those of exact arithmetic by at most sqrt(N) (4.5 (t+2) D K / 2^24 M + 4.5 t D K / 2^150), as the root of the sum of squares over all coefficients of a channel (samples of magnitude at most M, N padded samples, D dimensions, K steps, wavelet t). (2) For any finite stored coefficients, including ones no signal was decomposed to, Compose at any scale differs from exact composition of the same numbers by a bound of the same kind, and the division by the gain may be done by dividing or by multiplying with a reciprocal, in float or double. (3) If the coefficients are changed between Decompose and Compose by at most P (root of the sum of squares per channel), the samples change by at most the rounding error of the unchanged round trip plus 1.01 P. Nothing overflows in any of the three as long as the stated magnitudes fit.", "quantifier": "all parameters up to 2000 steps, all wavelets without or up to DB5, all finite samples and coefficients within the magnitude limits, all changes, all IEEE roundings, all scales", "why_tests_cant": "A continuum of inputs; whether a change of coefficients and rounding errors add up or amplify each other depends on all intermediate results together.", "anchors": ["sources/wavelet_utils.cc: DecomposeImpl, ComposeImpl, 414-440", "sources/wavelet.cc: dwt, idwt, dbwavf, Orthfilt", "sources/wavelet_buffer.cc: Decompose, Compose"]}
{"id": "C106", "title": "The whole way through the archive in float", "statement": "Decompose, Serialize with a compression level up to 24, Parse and Compose, one after the other on the stored 32-bit patterns with every operation in IEEE float: every call succeeds, no infinity or NaN appears, sizes are kept, and the samples that come out differ from those that went in by at most sqrt(N) (9 (t+2) D K / 2^24 M + 9 t D K / 2^150 + L (1.03 M + 2^-124)), as the root of the sum of squares over a channel, where L is 0 for levels 0 and 1 and 2^(level-24) above (samples of magnitude at most M, N padded samples, D dimensions, K steps, wavelet t).", "quantifier": "all parameters up to 2000 steps, no wavelet or DB1 to DB5, all finite samples within the magnitude limit, all compression levels up to 24, all IEEE roundings, all codecs that meet the stated contracts, fewer than 2^31 padded samples per channel and enough memory", "why_tests_cant": "A continuum of signals; rounding and truncation of coefficients interact and the bound must hold for every combination of shape, wavelet, step count and level.", "anchors": ["sources/wavelet_buffer.cc: Decompose, Compose, Serialize, Parse", "sources/wavelet_buffer_serializer.cc", "sources/internal/matrix_compressor.cc", "sources/wavelet_utils.cc: DecomposeImpl, ComposeImpl"]}
{"id": "C107", "title": "Denoising in float, through the archive and back", "statement": "Decompose with ThresholdAbsDenoiseAlgorithm<float>(a, b) or SimpleDenoiseAlgorithm<float>(l), Serialize with a compression level up to 24, Parse and Compose, all on the stored 32-bit patterns with every operation (thresholds, comparisons and the number of dropped entries included) in IEEE float: every call succeeds, no infinity or NaN appears, sizes are kept, and the samples that come out differ from those that went in by at most sqrt(N) times the sum of the rounding error of an undisturbed round trip (C105), what the denoiser removes (1.04 T per entry for a largest threshold T; a share sqrt(l) of the signal for the simple denoiser) and what the archive removes from the rest (C106). The same holds for every denoiser that keeps sizes and finite numbers and moves a subband by at most a share A of its norm and B per entry.", "quantifier": "all parameters up to 2000 steps, no wavelet or DB1 to DB5, all finite samples within the magnitude limit, all finite a and b, all finite l from 0 to 1, all compression levels up to 24, all IEEE roundings, every std::nth_element that meets its contract on numbers, all codecs that meet the stated contracts, fewer than 2^31 padded samples per channel and enough memory", "why_tests_cant": "A continuum of signals and denoiser parameters, and std::nth_element may order ties in any way; rounding of the threshold and of the number of dropped entries, rounding of the transform and truncation in the archive interact.", "anchors": ["wavelet_buffer/denoise_algorithms.h", "sources/wavelet_utils.cc: DecomposeImpl, ComposeImpl", "sources/wavelet_buffer.cc: Decompose, Compose, Serialize, Parse"]}
{"id": "C108", "title": "Archiving again and again loses nothing more", "statement": "However often a buffer is written with Serialize and read again with Parse, with whatever sequence of compression levels, its parameters and sizes stay and its values are those of the original cut once to the number of bits of the highest level, up to signs of zeros. So copies of copies with the same level are as good as the first copy; two sequences of levels with the same highest level give the same values. Bit by bit, the third copy with a level equals the second (with level 1 the second equals the first, with level 0 the first equals the original), but the second can differ from the first in the sign of a zero.", "quantifier": "all buffers without empty subbands and with fewer than 2^31 values per subband, all sequences of compression levels of any length, all contents of the output strings, all codecs that meet the stated contracts", "why_tests_cant": "Sequences of levels of any length and all float bit patterns (infinities and NaN included); the order of truncation, the dropping of zeros in the sparse form and the level 0 without compression interact.", "anchors": ["sources/wavelet_buffer.cc: Serialize, Parse", "sources/wavelet_buffer_serializer.cc", "sources/internal/matrix_compressor.cc"]}
{"id": "C109", "title": "Computed distances and energies are close to the exact ones", "statement": "Distance of two buffers of equal form and finite values, as computed in float and double and in whatever order the values of a subband are added up, differs from the exact mean of the squared differences by at most a share that depends only on the longest chain of additions k and the number of subbands (at most (k + 11) / 2^23 in ordinary cases) plus a few units of the least float, and does not overflow for values up to 2^40. The computed distance of a buffer of finite values to itself is exactly 0, and it does not depend on which buffer comes first. But it can be 0 for different buffers. Every entry of EnergyDistribution differs from the energy of its subband by a share of at most (1 + 2^-24)(1 + 2^-52)^k - 1 plus about two units of the least float.", "quantifier": "all buffers of equal form with finite values, all correctly rounding float and double arithmetics, all orders of summation, all implementations of pow(x, 2) with a relative error of at most 2^-52", "why_tests_cant": "Blaze may add up in any order (vector registers, partial sums); the bound has to hold for all orders, sizes and values, subnormal ones included.", "anchors": ["sources/wavelet_utils.cc: Distance", "sources/wavelet_utils.cc: EnergyDistribution"]}
{"id": "C110", "title": "What a JPEG picture looks like after import, archive and export", "statement": "A JPEG picture (RGB or gray) that is imported with any of the denoisers, serialized with a level up to 24, parsed and exported again passes every step, and the picture handed to the JPEG library has the same size and channels. How many of its pixels are darker by more than d or brighter by d or more, and the root mean square of the pixel differences, are bounded by the rounding of the transform, what the denoiser removes and what the archive cuts off. Whatever the stored value (NaN and infinities included), Encode turns it into a pixel: 255 for NaN and +inf, 0 for -inf.", "quantifier": "all pictures, all Daubechies wavelets and numbers of steps, all compression levels up to 24, all denoiser settings, all correctly rounding float arithmetics, all codecs that meet their contracts, every JPEG library, fewer than 2^31 padded samples per channel and enough memory", "why_tests_cant": "All pictures and settings, and every rounding on the way through decomposition, denoiser, archive, composition and pixel conversion at once.", "anchors": ["sources/img/jpeg_codecs.cc: ToPixel, Decode, Encode", "sources/img/wavelet_image.cc: ImportFromString, ExportToString", "sources/wavelet_buffer.cc: Serialize, Parse"]}
{"id": "C111", "title": "A higher compression level never gives a better copy", "statement": "Of two copies of a buffer of finite values, written with Serialize and read with Parse, the one written with the higher level is at least as far from the original: every value of the copy with the lower level lies between 0 and the original value, every value of the copy with the higher level between 0 and that of the other copy. So the Distance to the original is not smaller for the higher level, exactly and as computed in float in whatever order the sums are taken, and the energy of every subband is not larger.", "quantifier": "all buffers of finite values without empty subbands and with fewer than 2^31 values per subband, all pairs of levels, all correctly rounding arithmetics, all orders of summation, all codecs that meet the stated contracts", "why_tests_cant": "Pairs of levels times all float bit patterns; rounding in the computed distance could reverse the order for some values.", "anchors": ["sources/wavelet_buffer.cc: Serialize, Parse", "sources/internal/matrix_compressor.cc", "sources/wavelet_utils.cc: Distance, EnergyDistribution"]}
{"id": "C112", "title": "Previews from the archive", "statement": "A signal is decomposed in float with any of the denoisers, serialized with a level up to 24, parsed and composed at any scale up to the number of steps. Every step succeeds, the preview has the declared shape divided by 2^scale, its values are finite, and it differs from the preview that exact arithmetic computes from the signal itself, in the root mean square, by no more than the bound for the whole signal (rounding, denoiser, archive) and 2^-22 of the size of the samples for the division by the gain.", "quantifier": "all finite signals of any shape, all Daubechies wavelets, numbers of steps, scales, levels up to 24 and denoiser settings, all correctly rounding float arithmetics, all codecs that meet their contracts, fewer than 2^31 padded samples per channel and enough memory", "why_tests_cant": "All signals, scales and settings; there is no second implementation in exact arithmetic to compare with.", "anchors": ["sources/wavelet_buffer.cc: Decompose, Compose, Serialize, Parse", "sources/wavelet_utils.cc: Compose", "wavelet_buffer/denoise_algorithms.h"]}
{"id": "C113", "title": "Colours on stored bit patterns and HSL pictures through the archive", "statement": "The HSL values that Decode stores for a pixel are finite numbers up to 1.001, and if they are changed by at most e <= 0.01 the colour they are converted back to is finite and within 9 e + 0.0001 of the pixel. Encode accepts every image of the right shape whatever bit patterns its samples have (NaN and infinities included); its result is that of the JPEG library. A JPEG picture imported with the HSL codec and any of the denoisers, serialized with a level up to 24, parsed and exported passes every step, and the number of pixels in which a byte is darker by more than d or brighter by d or more is bounded by rounding, denoiser and archive.", "quantifier": "all pixels and pictures, all bit patterns of the samples, all Daubechies wavelets and numbers of steps, all levels up to 24, all denoiser settings, all correctly rounding float arithmetics (with any behaviour outside the range of the numbers), all codecs that meet their contracts, every JPEG library, fewer than 2^31 padded samples per channel and enough memory", "why_tests_cant": "2^96 triples of samples per pixel; thresholds and wrap-around in the conversions amplify small changes, and few pictures hit them.", "anchors": ["sources/img/color_space.cc: RGBToHSL, HSLToRGB", "sources/img/jpeg_codecs.cc: Decode, Encode", "sources/img/wavelet_image.cc: ImportFromString, ExportToString", "sources/wavelet_buffer.cc: Serialize, Parse"]}
{"id": "C114", "title": "Parse of arbitrary bytes", "statement": "Parse is meant to answer any blob with a buffer or with nullptr. It does so for every blob with a complete header that names an existing wavelet and is not marked as compressed, whatever bytes follow. For compressed blobs of the present version the only causes of undefined behaviour are a record on which one of the two codecs has undefined behaviour and a record whose numbers contradict each other. The property fails for compressed blobs with a stored position outside the subband, for wavelet numbers that do not exist and for empty or blank blobs.", "quantifier": "all byte strings after the header, all parameters that fit the fields of the header, valid or not, versions 2 and 3, all codecs, all behaviours of the allocator", "why_tests_cant": "The blobs are all byte strings; tests feed archives made by the library and a few cut ones.", "anchors": ["sources/wavelet_buffer.cc: Parse", "sources/internal/matrix_compressor.cc: Decompress", "sources/wavelet_buffer_serializer.cc: WaveletBufferSerializer::Parse, WaveletBufferSerializerLegacy::Parse"]}
{"id": "C115", "title": "Threads that keep to their own buffers do not notice each other", "statement": "When each thread creates, decomposes, composes, assigns and reads only buffers of its own, then at every moment the buffers a thread has and the replies it has got are those of its program running alone in a process of its own; undefined behaviour occurs only where it occurs alone; nobody waits for ever; if every program ends when run alone, all end together with the same results, after at most 15 steps for every call and thread; no two threads touch a map of the matrix cache at the same time.", "quantifier": "all numbers of threads, all programs (the next call may depend on everything the thread has seen), all schedules, all numbers (any ring-like arithmetic with any Kit of constants)", "why_tests_cant": "The schedules are infinitely many; a race shows in very few of them.", "anchors": ["sources/wavelet_utils.cc: WaveletMatrixCache::GenerateMatrices, GenerateTransMatrices, DecomposeImpl, ComposeImpl", "sources/wavelet_buffer.cc: Decompose, Compose", "sources/wavelet.cc"]}
{"id": "C116", "title": "Size of archives and of the buffers made from them", "statement": "An archive written with level 0, or of a buffer without values, has exactly 30 + 8 dim + 28 (number of subbands) + 4 (number of values) bytes; with compression it has at most 30 + 8 dim bytes and 1104 + 8 z + (z + 3)/4 for every subband with z values that are not zero. A buffer parsed from an uncompressed blob of the present version needs no more values than the blob has room for. The latter fails for compressed blobs: blobs of one and the same length are parsed as buffers of any size that memory can hold.", "quantifier": "all buffers, all levels, all contents of the blob, all codecs that stay within the memory the code gives them", "why_tests_cant": "A formula over all shapes, numbers of steps and values; tests compare sizes for a few signals.", "anchors": ["sources/wavelet_buffer.cc: Serialize, Parse", "sources/internal/matrix_compressor.cc: Compress, CompressIndexes, CompressValues"]}
{"id": "C117", "title": "Threads may share buffers that they only read", "statement": "A program makes buffers and then starts threads. When the threads call only const member functions on these buffers (Compose, copy, read-only views, casts of views) and anything on buffers of their own, then in every schedule the common buffers stay as they are, the buffers a thread can name and the replies it has got are those of its program running alone in the process, undefined behaviour occurs only where it occurs alone, nobody waits for ever, and programs that end alone end together with the same results. A thread that breaks the rule can make another one run into undefined behaviour.", "quantifier": "all numbers of threads, all programs that keep to the rule, all preparations, all schedules", "why_tests_cant": "The schedules are infinitely many; const member functions use the shared matrix cache, and a fault there shows in few schedules.", "anchors": ["sources/wavelet_utils.cc: WaveletMatrixCache::GenerateMatrices, GenerateTransMatrices, DecomposeImpl, ComposeImpl", "sources/wavelet_buffer.cc: Compose, copy constructor", "sources/wavelet_buffer_view.cc: Compose", "sources/wavelet_utils.cc: ComposeImpl"]}
{"id": "C118", "title": "What is wrong with a sample stays near it", "statement": "In any arithmetic, in particular in floating point with NaN and infinities: a coefficient depends only on the padded samples in its window, at every scale a composed sample depends only on the coefficients that reach it, and after Decompose (with a denoiser that treats every coefficient on its own) and Compose a sample depends only on the padded samples at most (2*order-1)(2^steps-1) away in each direction, round the end of the signal. So a NaN or a changed sample cannot affect anything farther away.", "quantifier": "all valid parameters, all pairs of signals or of decompositions, all positions, all scales, any filter, any scalar type with no laws assumed, all pointwise denoisers", "why_tests_cant": "Non-interference is a statement about pairs of signals that differ anywhere else; NaN spreads through sums with zero factors, so a test on finite samples says nothing about it.", "anchors": ["sources/wavelet.cc: dwt, idwt, dwt2s, idwt2, DaubechiesMat", "sources/wavelet_utils.cc: ComposeImpl", "sources/wavelet_buffer.cc: Decompose, Compose", "wavelet_buffer/denoise_algorithms.h: ThresholdAbsDenoiseAlgorithm, NullDenoiseAlgorithm"]}
{"id": "C119", "title": "Damage in an archive stays where it is", "statement": "In an archive without compression every coefficient is four bytes, least significant first, at an offset computed from the parameters and the sizes of the subbands before it. If only these four bytes change, to whatever values, Parse returns a buffer that differs from the original in that coefficient alone, which has the new bytes; and at every scale the samples composed from it are bit for bit the same in all other channels and wherever the coefficient does not reach, in any floating point arithmetic. In a compressed archive the payloads of a subband are what the codecs made of the positions and values of its nonzero coefficients; if only these bytes change, Parse returns a buffer with all other subbands and all sizes unchanged, or null, or a codec leaves defined behaviour.", "quantifier": "all buffers, all levels, all coefficients and subbands, all replacements of the bytes", "why_tests_cant": "There are 2^32 replacements for one coefficient and unboundedly many for a payload, for each of unboundedly many archives.", "anchors": ["sources/wavelet_buffer_serializer.cc: Serialize, Parse", "sources/internal/matrix_compressor.cc: Compress, Decompress, ConvertToCSR, ConvertFromCSR", "sources/wavelet_buffer.cc: Compose", "sources/wavelet_utils.cc: ComposeImpl"]}
{"id": "C120", "title": "Denoisers written by the user may keep state and may throw", "statement": "Decompose with any implementation of DenoiseAlgorithm, with any state of its own, calls it once for each detail subband of the decomposition without denoising, channel by channel, step by step, in the order of the subbands and with the number of the step; what it is given does not depend on what it answers. If a call throws (or in one dimension returns a vector of another length), the exception reaches the caller, no further call is made, the answers before it are stored, the approximation of a channel is stored only when all its details are, every other subband keeps its contents and the buffer keeps its layout; channels outside of a view are never touched. A later Decompose gives what it would give had the failed one never happened. For a denoiser without state that does not throw, this is the Decompose of the other properties.", "quantifier": "all denoisers with any state, all buffers, views, signals, and all points at which an exception is thrown", "why_tests_cant": "A denoiser is an arbitrary function of its history, and the exception can come at any of the calls.", "anchors": ["wavelet_buffer/denoise_algorithms.h: DenoiseAlgorithm, Denoise", "sources/wavelet_utils.cc: DecomposeImpl, CalculateOneSideStep1D, CalculateOneSideStep2D", "sources/wavelet_buffer.cc: Decompose", "sources/wavelet_buffer_view.cc: Decompose"]}
{"id": "C121", "title": "The rounding bounds hold for any order of summation and with fused multiply-add", "statement": "The sums of products inside Decompose and Compose may be added up in any order and with any brackets, the additions may be fused with multiplications (one rounding instead of two), and all this may differ from sum to sum, from place to place and with the values: the coefficients, the composed samples at every scale and the samples that come back through the archive stay finite and within the bounds of C105 and C106. The program that writes an archive and the one that reads it may differ in this respect. In the order of the loops as they are written, with nothing fused, a sum has the value it has in C106.", "quantifier": "all orders, brackets and uses of fused multiply-add for every sum, all parameters up to 2000 steps, no wavelet or DB1 to DB5, all finite samples and coefficients within the magnitude limits, all compression levels up to 24, all IEEE roundings, all codecs that meet the stated contracts", "why_tests_cant": "What the compiler and Blaze make of a sum depends on the compiler, its flags, the processor and the length of the vector; a test sees the one build it runs in.", "anchors": ["sources/wavelet.cc: dwt, idwt, dwt2s", "sources/wavelet_utils.cc: DecomposeImpl, ComposeImpl", "sources/wavelet_buffer.cc: Decompose, Compose, Serialize, Parse"]}
{"id": "C122", "title": "Threads may work on different channels of one buffer at the same time", "statement": "Any number of threads use one buffer: they call Decompose and Compose of the buffer and of views of it, convert views to buffers, read channels and assign to subbands. As long as no thread looks at or assigns to a channel that another thread may assign to, there is no data race, every thread gets the replies (values and exceptions) and finds the content it would get and find as the only user of the buffer, runs into undefined behaviour only if it would then too, and channels nobody assigns to stay as they are; there is no deadlock, and if every program ends alone, together they end. In particular, when the channels are divided into views and every thread decomposes its part of the signal through its view, every schedule ends with the content Decompose of the whole signal gives.", "quantifier": "all numbers of threads, all programs (each call decided from the replies so far), all schedules at the level of single accesses to subbands, channels, mutexes and cache entries, all earlier histories of the cache, all parameters, data, views and denoisers, all scalar types", "why_tests_cant": "The number of schedules is unbounded and a test sees few of them; a call that touched a neighbouring channel would go unnoticed in almost all of them.", "anchors": ["sources/wavelet_buffer_view.cc: Decompose, Compose, CastToBuffer, CheckChannelRange", "sources/wavelet_utils.cc: DecomposeImpl, ComposeImpl, CalculateOneSideStep1D, CalculateOneSideStep2D, GenerateMatrices, GenerateTransMatrices", "sources/wavelet_buffer.cc: Decompose, Compose"]}
{"id": "C123", "title": "Running out of memory in the middle of a call does limited and repairable damage", "statement": "Memory may run out (std::bad_alloc) at any point of any call of Decompose, Compose or CastToBuffer, in any thread and any number of times. The call ends with an exception; no mutex of the matrix cache stays locked and the cache keeps giving correct matrices; no channel or subband is lost or added; channels the call does not assign to are unchanged, and in the others every subband except the one being assigned to is either the old one or the one the complete call stores. Threads in which memory does not run out do not notice. A later Decompose gives exactly what it would have given without the failure. Decompose is not all or nothing: a failed call can leave the details of the new signal with the approximation of the old one.", "quantifier": "all numbers of threads, all programs, all schedules at the level of single accesses, all sets of points at which memory runs out, all earlier histories of the cache, all parameters, data, views and denoisers, all scalar types", "why_tests_cant": "Allocation failures cannot be produced at every point of every interleaving by a test; a mutex left locked or a half built cache entry would show only in later calls.", "anchors": ["sources/wavelet_utils.cc: DecomposeImpl, ComposeImpl, CalculateOneSideStep1D, CalculateOneSideStep2D, GenerateMatrices, GenerateTransMatrices, lock_guard, insert", "sources/wavelet_buffer_view.cc: Decompose, Compose, CastToBuffer", "sources/wavelet_buffer.cc: Decompose, Compose"]}
{"id": "C124", "title": "Colours survive the HSL detour also where the compiler fuses multiplications and additions", "statement": "On processors with fused multiply-add (the ARM builds) the compiler may leave out the rounding of products in HSLToRGB and in the transform and may order the sums of the transform as it likes. Still: if the HSL values of a pixel are changed by at most eps, the colour they are converted back to differs from the pixel by at most 9 eps + 1/7400, wherever products are fused; a JPEG picture decoded as HSL, decomposed, serialized on one such build and parsed, composed and encoded on another one comes back with all steps succeeding and with at most 3 N (bound/eps)^2 pixels that differ by more than a stated number of grey levels; Encode succeeds for every image, NaN and infinities included; and where nothing is fused the conversion is that of C113.", "quantifier": "all IEEE roundings, all choices of fused products (for each colour its own), all orders of summation on either side, all pixels, all changes up to 1/100, all pictures, sizes, wavelets, numbers of steps and levels up to 24, all behaviours of the operations outside the range of the numbers", "why_tests_cant": "The tests run on one machine with one compiler and see one choice of fused products; they check a few colours with tolerances.", "anchors": ["sources/img/color_space.cc: HSLToRGB, RGBToHSL, temp1, temp2", "sources/img/jpeg_codecs.cc: HslJpegCodec", "sources/wavelet_utils.cc: DecomposeImpl, ComposeImpl", ".github/workflows/ci.yml: armv8"]}
{"id": "C125", "title": "The coefficients of an uncompressed archive may be any bytes", "statement": "If any number of coefficient bytes of an uncompressed archive are changed, to whatever values, and no other bytes, Parse still returns a buffer with the same parameters and subbands of the same sizes; every coefficient is the float whose four bytes are found at its place; serializing this buffer gives exactly the changed bytes. Every sample composed from it, at every scale, is bit for bit the sample of the original wherever the bytes of all coefficients that reach it are unchanged. Two buffers with the same uncompressed archive are the same.", "quantifier": "all buffers, all sets of changed bytes and all new values (NaN and infinities included), all float arithmetics, all wavelets, scales and sizes", "why_tests_cant": "A test can change a few bytes in a few archives. Where the coefficients are and how far they reach depends on all sizes, channels and steps, and the new bytes are arbitrary.", "anchors": ["sources/wavelet_buffer_serializer.cc: Serialize, Parse, archive >> subband", "sources/wavelet_utils.cc: ComposeImpl"]}
{"id": "C126", "title": "Compose of subbands that do not have the prescribed sizes", "statement": "When the subbands of a buffer do not have the sizes the parameters prescribe (a buffer that has just been constructed, subbands replaced by the user, an archive from elsewhere: Parse does not check the sizes), Compose either returns a signal of the declared size over 2^scale, or reports the problem; it never reads memory that does not belong to the subbands or was never written.", "quantifier": "all valid parameters, all sizes of all subbands, all scales up to the number of steps, all scalar types and filter tables", "why_tests_cant": "The sizes of every subband of every channel are free. A read behind the end of a short detail or of a cell that was never written need not be noticed by a test that is run: it gives some number.", "anchors": ["sources/wavelet_utils.cc: ComposeImpl, ComposeStep", "sources/wavelet.cc: idwt, idwt2", "sources/padding.cc: Crop"]}
{"id": "C127", "title": "What Parse returns can be archived again without loss", "statement": "Whatever bytes Parse is given, a buffer it returns can be serialised again without compression: Serialize succeeds, writes the present format, the bytes depend on the buffer only, and Parse of the new archive returns the same buffer bit by bit. This is how files of the old format are brought to the present one. The only exception are uncompressed archives of the old format whose subbands do not have the layout of their parameters: Parse returns a buffer for them, but Serialize throws for every level.", "quantifier": "all byte strings, all levels, all previous contents of the output; enough memory; Blaze's readers for encodings never written here return matrices with sides of 64 bits", "why_tests_cant": "The archives include all that no Serialize has written, with any numbers in any fields; a field that does not fit its place in the new format would be cut silently.", "anchors": ["sources/wavelet_buffer.cc: Parse, Serialize", "sources/wavelet_buffer_serializer.cc: Parse, Serialize, ParseCompressedSubbands", "sources/internal/sf_compressor.cc: Decompress"]}
{"id": "C128", "title": "SimpleDenoiseAlgorithm and NaN", "statement": "SimpleDenoiseAlgorithm<float> hands std::nth_element the comparison of magnitudes, which is a strict weak ordering, as the library requires, only if there is no NaN among the samples or those that are not NaN all have the same magnitude. In these cases a call with a level from 0 to 1 is defined, and it drops at most that share of the samples and none larger than one it keeps; in all others it is undefined. Decompose with this denoiser is therefore defined for finite samples that do not overflow the transform (it succeeds, cuts off every detail in this way and leaves the approximations alone), but not for all samples: there are six samples with one NaN for which it is undefined at every level, while Decompose without a denoiser succeeds.", "quantifier": "all samples, sizes up to 2^32, levels, implementations of std::nth_element that keep the library's promise, orders of the wavelet up to 5 (finite samples) or 10; the counterexample for arithmetic in which NaN spreads", "why_tests_cant": "What undefined behaviour does on one machine shows nothing about it; that finite samples never lead to it is a claim about all signals, with rounding.", "anchors": ["wavelet_buffer/denoise_algorithms.h: SimpleDenoiseAlgorithm, Denoise", "sources/wavelet_utils.cc: CalculateOneSideStep1D, CalculateOneSideStep2D, DecomposeImpl"]}
{"id": "C129", "title": "Lifetime of views and references", "statement": "A WaveletBufferView that is kept leads to its WaveletBuffer object, whatever that contains at the time of the call: Decompose, Compose and the conversion of the view act on the present contents as they would on a fresh view of them, also after other values were assigned to the object; they are undefined while the object is moved from or after it was destroyed. References returned by parameters(), decompositions() and operator[] lead to the contents instead. They stay usable, and show and change the present values, however other objects are used, and when the contents are moved to another object they go along with them. They dangle for good after the object that has the contents is destroyed or assigned to; copy assignment of an object to itself changes no values but makes them dangle, move assignment to itself does not. Every reference ever taken either follows exactly one object or dangles.", "quantifier": "all histories of calls on any number of objects, views and references, all samples, views, denoisers and scales", "why_tests_cant": "Use of a dangling reference may seem to work in a test; which of all histories keep a view or a reference usable is a statement about every sequence of calls.", "anchors": ["sources/wavelet_buffer_view.cc: WaveletBufferView, Decompose, Compose, CastToBuffer", "sources/wavelet_buffer.cc: operator=, operator(), parameters, decompositions"]}
{"id": "C130", "title": "decompositions() of a view", "statement": "decompositions() of a view of a mutable buffer throws exactly for the ranges for which Decompose and Compose of that view return false. For a range of channels that the buffer has, the result has one element per channel of the range; the elements are these channels of the buffer, for reading and for writing, also when the result is kept while the buffer is changed through other calls or its contents are moved to another object, and they are what the conversion of the view to a buffer copies. For a range with a negative bound whose sum is a number of channels the buffer has, the call succeeds although the result cannot be iterated over, and with a negative start its first element cannot be accessed. For a view of a const buffer the call is undefined whatever the range.", "quantifier": "all int arguments of the view, numbers of channels below 2^63, contents and histories of calls", "why_tests_cant": "The arguments are 2^64 pairs of ints with two wrap-arounds of size_t; access outside of the vector may seem to work in a test.", "anchors": ["sources/wavelet_buffer_view.cc: decompositions, CheckChannelRange, CastToBuffer", "wavelet_buffer/wavelet_buffer_view.h: NWaveletDecompositionView"]}
{"id": "C131", "title": "The step limit computed in double", "statement": "The constructor computes the greatest allowed number of steps with a conversion to double, a division and std::log2. With rounding to nearest and a log2 that is exact at powers of two, monotone and at most 2^-47 too large, it accepts exactly the valid parameters (those of C01).", "quantifier": "all parameters, all roundings to nearest, all implementations of log2 of that accuracy", "why_tests_cant": "Whether a rounded logarithm reaches the next whole number depends on every single size; there are 2^64 of them for each wavelet. In fact false of the code for sides of 2^55 and more.", "anchors": ["sources/wavelet_utils.cc: CalculateMaxDecompositionSteps, log2, floor", "sources/wavelet_buffer.cc: max_decomposition_steps, CalculateMinSignalSize"]}
{"id": "C132", "title": "Size of the mantissa that a compression level leaves", "statement": "The tutorial gives for every compression level from 1 to 16 the number of bits of the mantissa (23, 21, 20, ... 7, the last being bfloat). A value archived with that level and parsed again is the value cut toward zero into such a float: values that fit come back unchanged, and every value that comes back fits.", "quantifier": "all buffers of finite values, all levels, all codecs that work", "why_tests_cant": "A test with a tolerance cannot tell 21 bits from 22. The table is in fact off by one bit for levels 2 to 16: the code passes 33 - level bits to the codec, which leaves a mantissa of 24 - level bits, so an archive of level 16 holds values that are not bfloats.", "anchors": ["sources/wavelet_buffer_serializer.cc: Serialize, sf_compression", "docs/tutorials/wavelet_buffer_in_a_nutshell.md: bfloat, mantissa"]}
{"id": "C133", "title": "Quiet signals leave next to nothing", "statement": "No coefficient of a float decomposition exceeds 2.02^(dimensions * step) times the largest sample (plus 2^-145 for underflow). If the threshold of ThresholdAbsDenoiseAlgorithm, as the program computes it, is above 2.03^(dimensions * step) times the largest sample at every step, all details are zero, and the compressed archive has room for nothing but the approximations: at most 1104 bytes for a subband and 8 1/4 for a value of an approximation.", "quantifier": "all parameters with wavelets up to DB5, all signals, all roundings to nearest, all thresholds, all codecs within their documented sizes", "why_tests_cant": "The largest growth is reached by one signal for each wavelet and number of steps, and it is rounded in every addition; samples of noise stay far below it.", "anchors": ["sources/wavelet.cc: dwt", "wavelet_buffer/denoise_algorithms.h: ThresholdAbsDenoiseAlgorithm, GetThreshold", "sources/wavelet_buffer_serializer.cc: Serialize", "docs/tutorials/wavelet_buffer_in_a_nutshell.md: noise"]}
{"id": "C134", "title": "Infinities and NaN in the samples are not hidden", "statement": "A sample that is infinite or NaN is infinite or NaN at the same place after Decompose and Compose, at every scale, whatever the denoiser does to the details, also when the buffer was archived and read again in between.", "quantifier": "all parameters, all signals, all denoisers that keep sizes, all scales, all compression levels, any arithmetic that spreads infinities and NaN", "why_tests_cant": "Denoisers replace NaN details by zeros (C18, C128), so the claim depends on every position being covered by some approximation coefficient on the way down and up, for all sizes, wavelets and steps. In fact false from compression level 25 on, where the exponent is cut and infinity comes back as a number.", "anchors": ["sources/wavelet_buffer.cc: Decompose, Compose", "sources/wavelet.cc: dwt, idwt, DaubechiesMat", "sources/wavelet_buffer_serializer.cc: sf_compression"]}
{"id": "C135", "title": "Opposite signals have opposite coefficients", "statement": "If every sample is replaced by its opposite, Decompose (without denoising or with a threshold denoiser) yields the opposite coefficients and Compose the opposite samples at every scale, to the last bit of the floats; so do archives of the same level. The sign of zeros is not counted. More generally every relation between two signals that survives sums, products with a factor and quotients is carried over to coefficients and back.", "quantifier": "all parameters, all signals (infinities and NaN included), all thresholds, all scales, all compression levels, any float arithmetic without a preferred sign", "why_tests_cant": "Rounding errors, cut mantissas and thresholds would have to be symmetric for all samples; a test compares a few signals, mostly up to a tolerance.", "anchors": ["sources/wavelet_buffer.cc: Decompose, Compose", "sources/wavelet.cc: dwt, idwt", "wavelet_buffer/denoise_algorithms.h: ThresholdAbsDenoiseAlgorithm, GetThreshold", "sources/wavelet_buffer_serializer.cc: sf_compression"]}
{"id": "C136", "title": "Previews are averages and stay in the range of the samples", "statement": "Without denoising, Compose(scale) of a decomposed signal yields the mean of the 2^scale samples (2^scale by 2^scale in two dimensions) each value stands for, borders being repeated where the signal is padded; so if all samples lie in an interval (0 to 1, say), all values of all previews do, and previews from archives, computed in float, leave it by no more than the error of the archive.", "quantifier": "all Haar buffers, all signals, all scales; refuted for DB2, DB3, DB4 and DB5", "why_tests_cant": "The normalisation per scale, the padding and the alignment of the crop interact for every size; a test of a few sizes does not show that no preview of any picture leaves the range of its samples.", "anchors": ["sources/wavelet_buffer.cc: Compose, Decompose", "sources/wavelet.cc: dwt, dwt2", "sources/padding.cc: Crop, Extend"]}
{"id": "C137", "title": "Memory of the matrix cache", "statement": "The process-wide cache of transform matrices does not grow with the number of calls: it has at most one entry per map for each set of parameters of a picture buffer that was constructed (or made from a view), a call adds at most one to each and none if there is one already, and an entry holds at most 4 times the wavelet type numbers per row and per column of the padded picture, whatever the number of steps. Only decomposing and composing pictures adds entries. Nothing is ever released, also when all buffers are gone. Buffers that differ in the number of channels do not share entries although the matrices are the same. Threads do not make duplicates.", "quantifier": "all histories of calls, all parameters, all schedules of any number of threads", "why_tests_cant": "Memory over the life of a process is a matter of all histories; a test sees the results of calls, which do not depend on what the cache holds.", "anchors": ["sources/wavelet_utils.cc: WaveletMatrixCache, GenerateMatrices, GenerateTransMatrices, matrix_cache", "sources/wavelet.cc: DaubechiesMat", "wavelet_buffer/wavelet_parameters.h: operator<"]}
{"id": "C138", "title": "Calls before and after main", "statement": "Buffers may be constructed, copied, moved, written, converted and destroyed by static objects of other translation units, before the library's matrix cache is constructed and after it is destroyed, and buffers for 1D signals may also be decomposed and composed there: every reply and every buffer is what it is in main, and a program that does no more than that outside main cannot tell when the cache is constructed and destroyed. Calling Decompose with a picture of the right size, or Compose, on a buffer for pictures is undefined behaviour there, always; and only calls that decompose or compose pictures, through a buffer or a view, can behave differently from main.", "quantifier": "all programs: all sequences of calls, with the construction and the destruction of the cache anywhere in them", "why_tests_cant": "The order of construction of static objects in different translation units is up to the linker; a test has one order, and using the dead cache may appear to work.", "anchors": ["sources/wavelet_utils.cc: matrix_cache, GenerateMatrices, GenerateTransMatrices, ComposeImpl", "sources/wavelet_buffer.cc: Decompose, Compose"]}
{"id": "C139", "title": "Denoisers may call the library", "statement": "A denoiser may itself construct, decompose, compose, copy and destroy other buffers while Decompose runs, also buffers with the same parameters, and it may read the buffer that is being decomposed: its calls never wait for a mutex that Decompose holds and do what they do at any other time, it is asked about the same details in the same order as any denoiser, and the decomposition stores its answers. What it reads of the buffer is the answers given so far, the approximations of the complete channels, and the old content for the rest. Destroying the buffer from its own denoiser is undefined behaviour.", "quantifier": "all reachable states, all buffers and signals, all denoisers whose calls of the library depend in any way on their state, on what they are given and on replies", "why_tests_cant": "Whether inner calls can deadlock or disturb the outer one depends on what the denoiser calls and when; tests use denoisers that call nothing.", "anchors": ["sources/wavelet_utils.cc: DecomposeImpl, CalculateOneSideStep1D, CalculateOneSideStep2D, GenerateMatrices, mutex_, lock_guard", "wavelet_buffer/denoise_algorithms.h: DenoiseAlgorithm, Denoise", "sources/wavelet_buffer.cc: Decompose"]}
{"id": "C140", "title": "Denoising again changes nothing", "statement": "Decomposing with a denoiser and composing gives a signal that a further round with the same denoiser leaves as it is, and of two rounds with different thresholds only the stricter threshold counts, whichever comes first; likewise for the simple denoiser with the same or a lower level in the second round.", "quantifier": "all signals and images, numbers of channels and steps, orthonormal filters, thresholds and levels; any denoisers that merge into one on every subband", "why_tests_cant": "Tests denoise once and with few thresholds. That repeated rounds are stable depends on the signal, and with padding it fails: rounds can then move samples without bound, by an equal amount each time.", "anchors": ["wavelet_buffer/denoise_algorithms.h: ThresholdAbsDenoiseAlgorithm, SimpleDenoiseAlgorithm, Denoise", "sources/wavelet_utils.cc: DecomposeImpl, ComposeImpl"]}
{"id": "C141", "title": "White noise in the samples is white noise in the coefficients", "statement": "Decomposing noise whose samples are uncorrelated with equal mean squares gives coefficients that are uncorrelated with the same mean square, over all subbands, steps and channels; the mean energy of a subband is its size times the variance, and a coefficient of step s survives the threshold denoiser with at most the probability variance / (a s + b)^2. This is what makes one threshold meaningful for all subbands.", "quantifier": "all probability distributions (measures) of signals and images, all channel counts, steps, orthonormal filters and thresholds", "why_tests_cant": "Correlations are statements about distributions of signals; a test sees a sample of them. With padding it is false, by repeated samples at the border.", "anchors": ["sources/wavelet_utils.cc: DecomposeImpl, CalculateOneSideStep1D, CalculateOneSideStep2D", "wavelet_buffer/denoise_algorithms.h: ThresholdAbsDenoiseAlgorithm, Denoise", "sources/wavelet_buffer.cc: Decompose"]}
{"id": "C142", "title": "Mirrored signals and pictures have mirrored subbands, previews and reconstructions", "statement": "Decompose of a signal or picture whose rows, columns or both are in reverse order gives the subbands of the original in reverse order, where those details that are differences in a reversed direction have the opposite sign and nothing else changes. A denoiser that treats all places and both signs alike (none, threshold) does not disturb this, and what is composed afterwards, at full size or as a preview, is the mirrored reconstruction.", "quantifier": "all signals and images, all sizes, channel counts, steps and thresholds, the four ways to mirror", "why_tests_cant": "A statement about all signals and sizes; an index that is off by one at one border breaks it for few coefficients. It is false for odd sides, where the padding is on one side only, and for wavelets of higher order, which are not symmetric.", "anchors": ["sources/wavelet_utils.cc: DecomposeImpl, ComposeImpl, CalculateOneSideStep1D, CalculateOneSideStep2D", "sources/padding.cc: Extend", "wavelet_buffer/denoise_algorithms.h: ThresholdAbsDenoiseAlgorithm", "sources/wavelet_buffer.cc: Decompose, Compose"]}
{"id": "C143", "title": "A higher threshold and a higher denoising level keep no more and give no better copy", "statement": "If one threshold is at least as high as another at every step, or one level of SimpleDenoiseAlgorithm at least as high as another, the stronger denoiser leaves no more coefficients in any detail subband, its buffer is no closer (Distance) to the buffer without denoising, and, with an orthonormal filter and nothing padded, what is composed from it is no closer to the input in any channel. For thresholds the coefficients are even nested: each one is as with the lower threshold or zero, in any arithmetic.", "quantifier": "all signals and images, sizes, channel counts, steps, thresholds in order, levels in order from 0 to 1", "why_tests_cant": "Order between two runs for every input; a cut that is off by one, a threshold compared with the wrong step or a kept coefficient that is not among the largest breaks it only for special data.", "anchors": ["wavelet_buffer/denoise_algorithms.h: ThresholdAbsDenoiseAlgorithm, SimpleDenoiseAlgorithm", "sources/wavelet_buffer.cc: Decompose, Compose"]}
{"id": "C144", "title": "A preview holds the energy of the subbands it is made of and fades with the scale", "statement": "What Compose returns at a scale, whatever stands in the subbands (also after denoising or editing), has exactly the energy of the last subband and of the details it reads, divided by the square of the gain; if the sides are padded it has at most that. With nothing padded the mean square of the samples therefore never rises from one scale to the next, and the loss is the energy of the details left out, per sample of the signal.", "quantifier": "all buffers with subbands of the prescribed sizes, all scales, signals and images, any orthonormal filter", "why_tests_cant": "An identity over all subband contents and scales; a wrong gain or a detail read from the wrong step shows in a test only for the sizes tried. With padding the fading is false, which no positive test shows.", "anchors": ["sources/wavelet_utils.cc: ComposeImpl", "sources/wavelet_buffer.cc: Compose"]}
{"id": "C145", "title": "Noise in the coefficients is equally spread noise in the composed samples, weaker in previews", "statement": "If the coefficients of a buffer (all subbands of all channels) are white noise - uncorrelated, all of the same mean square v - then the samples that Compose returns at any scale are white noise, whether or not the sides are padded: no sample, no border and no channel gets more of it than another. The mean square is v at full size and is divided by 2 per scale for signals and by 4 per scale for images.", "quantifier": "all random buffers with subbands of the prescribed sizes over any measure space, all scales, signals and images, any orthonormal filter", "why_tests_cant": "A statement about averages over all random inputs; a test can only sample them, and correlation between distant samples or a border with more noise stays below the spread of the sample.", "anchors": ["sources/wavelet_utils.cc: ComposeImpl", "sources/wavelet_buffer.cc: Compose"]}
{"id": "C146", "title": "Samples in a unit that differs by a power of two have the same coefficients in that unit", "statement": "If all samples of a signal or image are multiplied by a power of two (8-bit values as numbers from 0 to 255 or divided by 256, for example), every coefficient Decompose computes and every sample Compose returns from them, at every scale, is multiplied by the same power of two exactly: rounding adds no difference. The exception are numbers that an overflow or an underflow went into, and only those.", "quantifier": "all buffers with Daubechies wavelets 1 to 5 or none, all finite samples, all powers of two, all scales, all IEEE 754 arithmetics that round to a number of significant bits, null denoiser", "why_tests_cant": "The claim is exact equality after rounding for all inputs and all powers of two; the numbers it excepts depend on every intermediate result, which a test cannot see.", "anchors": ["sources/wavelet.cc: dbwavf, Orthfilt", "sources/wavelet_utils.cc: ComposeImpl", "sources/wavelet_buffer.cc: Decompose, Compose"]}
{"id": "C147", "title": "Thresholds in the unit of the samples keep the same coefficients", "statement": "If the samples and both parameters of ThresholdAbsDenoiseAlgorithm are multiplied by the same power of two (8-bit values with threshold 10, or the values divided by 256 with threshold 10/256, for example), Decompose keeps the same coefficients and sets the same ones to zero, and every coefficient and every sample Compose returns, at every scale, is multiplied by that power of two exactly. The exception are numbers that an overflow or an underflow went into, and only those.", "quantifier": "all buffers with Daubechies wavelets 1 to 5 or none, all finite samples, all parameters a and b whose thresholds a * step + b are computed without overflow and underflow, all powers of two, all scales, all IEEE 754 arithmetics that round to a number of significant bits", "why_tests_cant": "A coefficient next to the threshold is kept or not depending on the last bit of a long computation; that no choice of samples and parameters makes the two units decide differently is a statement about all of them.", "anchors": ["wavelet_buffer/denoise_algorithms.h: ThresholdAbsDenoiseAlgorithm, GetThreshold", "sources/wavelet_utils.cc: ComposeImpl", "sources/wavelet_buffer.cc: Decompose, Compose"]}
{"id": "C148", "title": "What an archive loses does not depend on the unit of the samples", "statement": "If the coefficients of two buffers differ only by a power of two, the buffers read back from their archives differ by exactly that power of two, for all compression levels up to 24 and also after archiving again and again: the values that become zero or are cut are the same ones and are cut in the same place. The coefficients are zero or normal numbers in both units. 24 is the highest such level: level 25 keeps 2 and turns 1 into 1/2.", "quantifier": "all buffers, all powers of two, all lists of compression levels up to 24, all codecs that work (fpzip cuts to the bits asked for, the integer codec is lossless), coefficients zero or normal in both units", "why_tests_cant": "A test compares a few values at a few levels. That the loss follows the unit for all values and powers of two, and that this ends at level 24, is a statement about all bit patterns.", "anchors": ["sources/wavelet_buffer_serializer.cc: Serialize, Parse", "sources/internal/matrix_compressor.cc: Compress"]}
{"id": "C149", "title": "Signals composed from coefficients or archives follow the unit", "statement": "If the coefficients of two buffers differ only by a power of two - because they were decomposed, read from archives or put together that way -, the signals and previews Compose returns differ by exactly that power of two, at every scale. In particular this holds for what is composed from archives of such buffers, written and read any number of times with compression levels up to 24. The exception are numbers that an overflow or an underflow went into, and only those.", "quantifier": "all buffers with Daubechies wavelets 1 to 5 or none and subbands of the prescribed sizes, all finite coefficients (zero or normal for archives), all powers of two, all scales, all lists of levels up to 24, all IEEE 754 arithmetics that round to a number of significant bits, all codecs that work", "why_tests_cant": "The claim is exact equality after rounding for all coefficients, all powers of two and all ways through archives; the numbers it excepts depend on every intermediate result.", "anchors": ["sources/wavelet_buffer.cc: Compose", "sources/wavelet_utils.cc: ComposeImpl", "sources/wavelet_buffer_serializer.cc: Serialize, Parse"]}
