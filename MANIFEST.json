{
 "claims": [
  {
   "property": "C01",
   "status": "proved",
   "theorems": [
    "WB.Props.C01_constructor_accepts_exactly_valid"
   ],
   "note": ""
  },
  {
   "property": "C02",
   "status": "proved",
   "theorems": [
    "WB.Props.C02_layout_invariant"
   ],
   "note": "Histories of every length over constructors, copies, moves, assignments, destruction, views, casts, subband writes, decompositions."
  },
  {
   "property": "C03",
   "status": "proved",
   "theorems": [
    "WB.Props.C03_constructor_with_subbands"
   ],
   "note": ""
  },
  {
   "property": "C04",
   "status": "proved",
   "theorems": [
    "WB.Props.C04_padded_size_least_multiple"
   ],
   "note": ""
  },
  {
   "property": "C05",
   "status": "proved",
   "theorems": [
    "WB.Props.C05_transforms_stay_in_range",
    "WB.Props.C05_zero_channels"
   ],
   "note": "Any arithmetic. A signal with zero channels is excluded: the second theorem shows that the shape check then reads data[0] of an empty list."
  },
  {
   "property": "C06",
   "status": "proved",
   "theorems": [
    "WB.Props.C06_subband_shapes"
   ],
   "note": ""
  },
  {
   "property": "C07",
   "status": "proved",
   "theorems": [
    "WB.Props.C07_perfect_reconstruction_1D",
    "WB.Props.C07_C08_haar_exact"
   ],
   "note": "Over every commutative ring; for the real filters the hypothesis is exact orthonormality, discharged for DB1; C09 covers the rounded decimals."
  },
  {
   "property": "C08",
   "status": "proved",
   "theorems": [
    "WB.Props.C08_perfect_reconstruction_2D",
    "WB.Props.C07_C08_haar_exact"
   ],
   "note": ""
  },
  {
   "property": "C09",
   "status": "proved",
   "theorems": [
    "WB.Props.C09_reconstruction_error",
    "WB.Props.C09_error_by_largest_sample",
    "WB.Props.C09_haar_no_error"
   ],
   "note": ""
  },
  {
   "property": "C10",
   "status": "proved",
   "theorems": [
    "WB.Props.C10_energy_preserved",
    "WB.Props.C10_energy_preserved_unpadded"
   ],
   "note": ""
  },
  {
   "property": "C100",
   "status": "partial",
   "theorems": [
    "WB.Props.C100_subbands_of_the_composed_signal",
    "WB.Props.C100_composition_is_injective",
    "WB.Props.C100_padding_counterexample"
   ],
   "note": "Proved when the sides are multiples of 2^steps; false with padding (counterexample proved). Exact arithmetic, orthonormal filter."
  },
  {
   "property": "C101",
   "status": "proved",
   "theorems": [
    "WB.Props.C101_simple_subband",
    "WB.Props.C101_simple_subband_1D",
    "WB.Props.C101_threshold_subband",
    "WB.Props.C101_threshold_signal",
    "WB.Props.C101_simple_signal"
   ],
   "note": "Real arithmetic; std::nth_element by its contract. The statements about signals are for orthonormal filters and sides that are multiples of 2^steps."
  },
  {
   "property": "C102",
   "status": "partial",
   "theorems": [
    "WB.Props.C102_colour_round_trip",
    "WB.Props.C102_clear_colour",
    "WB.Props.C102_pixel_partial",
    "WB.Props.C102_import_export_partial",
    "WB.Props.C102_pixel_counterexample"
   ],
   "note": "The bound on colours is proved. That pixels are kept is false (counterexample proved); proved instead that each byte is the same or one less. The wavelet transform is in exact arithmetic, the colour and pixel conversions are rounded."
  },
  {
   "property": "C103",
   "status": "partial",
   "theorems": [
    "WB.Props.C103_continue_partial",
    "WB.Props.C103_undo_partial",
    "WB.Props.C103_there_and_back",
    "WB.Props.C103_same_signal_partial",
    "WB.Props.C103_channels",
    "WB.Props.C103_padding_counterexample"
   ],
   "note": "Exact arithmetic. The three parts that compare with the decomposition with fewer steps need equal padded sizes; without that the first is false (counterexample proved for every signal of six samples). There-and-back holds without this condition. composeImpl_partial shows that the composition of signals is the partial composition followed by crop and normalisation, for all arguments."
  },
  {
   "property": "C104",
   "status": "proved",
   "theorems": [
    "WB.Props.C104_changed_values",
    "WB.Props.C104_pixels_in_float",
    "WB.Props.C104_amplified"
   ],
   "note": "Pixels, colours and transforms in float with any IEEE rounding. Colour conversions of values for which an operation could overflow are taken as not finite; the theorem shows that such values do not occur."
  },
  {
   "property": "C105",
   "status": "proved",
   "theorems": [
    "WB.Props.C105_decompose",
    "WB.Props.C105_compose",
    "WB.Props.C105_changed"
   ],
   "note": "IEEE float with overflow, exact arithmetic on the coefficients of codeKit as reference. The division by the gain is any operation within four units in the last place."
  },
  {
   "property": "C106",
   "status": "proved",
   "theorems": [
    "WB.Props.C106_archive_in_float"
   ],
   "note": "Samples are bit patterns. The float operations are any that satisfy FloatOps.Correct (IEEE rounding of every single operation; NaN, infinities and signs of zeros left open); fpzip and streamvbyte are parameters with the contract of C28. fpzip is taken to cut off bits (truncBits), as in C94."
  },
  {
   "property": "C107",
   "status": "proved",
   "theorems": [
    "WB.Props.C107_any_denoiser",
    "WB.Props.C107_threshold",
    "WB.Props.C107_simple"
   ],
   "note": "Same float operations and codec contracts as C106. std::nth_element is any function that meets its contract when no key is NaN. The simple denoiser is any size-keeping Denoiser that returns what the model of SimpleDenoiseAlgorithm returns on finite subbands with fewer than 2^32 entries (on others the run may be undefined)."
  },
  {
   "property": "C108",
   "status": "proved",
   "theorems": [
    "WB.Props.C108_generations",
    "WB.Props.C108_same_values",
    "WB.Props.C108_copies_settle",
    "WB.Props.C108_second_copy_differs"
   ],
   "note": "fpzip is taken to cut off bits (truncBits), as in C94; codecs are parameters with the contract of C28. C108_second_copy_differs is the witness for the exception about signs of zeros."
  },
  {
   "property": "C109",
   "status": "proved",
   "theorems": [
    "WB.Props.C109_distance",
    "WB.Props.C109_distance_relative",
    "WB.Props.C109_distance_self",
    "WB.Props.C109_distance_symmetric",
    "WB.Props.C109_zero_for_different",
    "WB.Props.C109_energy"
   ],
   "note": "Order of the sums inside Blaze and std::pow are parameters. C109_zero_for_different is the witness that, unlike in C37, the computed distance can be 0 for different buffers. Symmetry assumes that rounding treats both signs alike."
  },
  {
   "property": "C11",
   "status": "proved",
   "theorems": [
    "WB.Props.C11_decomposition_linear",
    "WB.Props.C11_composition_linear"
   ],
   "note": ""
  },
  {
   "property": "C110",
   "status": "proved",
   "theorems": [
    "WB.Props.C110_no_denoiser",
    "WB.Props.C110_any_denoiser",
    "WB.Props.C110_threshold",
    "WB.Props.C110_simple",
    "WB.Props.C110_every_sample"
   ],
   "note": "RGB and gray codecs; the HSL codec is C113. The JPEG library is a parameter: the claim is about the picture it hands in and the one it is handed. Float operations and codec contracts as in C106 and C107."
  },
  {
   "property": "C111",
   "status": "proved",
   "theorems": [
    "WB.Props.C111_values",
    "WB.Props.C111_distance",
    "WB.Props.C111_computed_distance",
    "WB.Props.C111_energies"
   ],
   "note": "fpzip is taken to cut off bits (truncBits), as in C94. For the computed distance std::pow(x, 2) is any nonnegative monotone function. No order is claimed for computed energies: the stored entries of the copies differ in number, so Blaze may add them in different orders."
  },
  {
   "property": "C112",
   "status": "proved",
   "theorems": [
    "WB.Props.C112_any_denoiser",
    "WB.Props.C112_no_denoiser",
    "WB.Props.C112_threshold",
    "WB.Props.C112_simple"
   ],
   "note": "Float operations and codec contracts as in C106 and C107; the comparison is with the same operations in exact arithmetic with the coefficients of the code."
  },
  {
   "property": "C113",
   "status": "proved",
   "theorems": [
    "WB.Props.C113_changed_values",
    "WB.Props.C113_every_image",
    "WB.Props.C113_no_denoiser",
    "WB.Props.C113_any_denoiser",
    "WB.Props.C113_threshold",
    "WB.Props.C113_simple"
   ],
   "note": "RGBToHSL and HSLToRGB are modelled on all bit patterns; the float operations are parameters, specified where the rounded result is in the range of the numbers. Otherwise as C110."
  },
  {
   "property": "C114",
   "status": "partial",
   "theorems": [
    "WB.Props.C114_uncompressed_partial",
    "WB.Props.C114_only_causes_partial",
    "WB.Props.C114_position_counterexample",
    "WB.Props.C114_wavelet_counterexample",
    "WB.Props.C114_blank_counterexample"
   ],
   "note": "The full claim (no undefined behaviour for any byte string) is false of the code; the counterexamples are proved. The positive part covers all uncompressed blobs with a complete header of versions 2 and 3 and names the causes for compressed blobs of version 3."
  },
  {
   "property": "C115",
   "status": "proved",
   "theorems": [
    "WB.Props.C115_isolated",
    "WB.Props.C115_crash",
    "WB.Props.C115_no_deadlock",
    "WB.Props.C115_steps",
    "WB.Props.C115_all_finish",
    "WB.Props.C115_no_data_race"
   ],
   "note": "Sequentially consistent interleaving; the calls are those of Model/World; accesses to the matrix cache are single steps, what a call does with its own buffers before and after them is one step. Buffers shared between threads are C117."
  },
  {
   "property": "C116",
   "status": "partial",
   "theorems": [
    "WB.Props.C116_plain_size",
    "WB.Props.C116_packed_size",
    "WB.Props.C116_parsed_size_partial",
    "WB.Props.C116_counterexample"
   ],
   "note": "That the length of a blob bounds the buffer is proved for uncompressed blobs of version 3 and false for compressed ones (counterexample proved for every codec). Blaze's encodings of sparse matrices, which are never written, are excluded in the partial theorem."
  },
  {
   "property": "C117",
   "status": "proved",
   "theorems": [
    "WB.Props.C117_isolated",
    "WB.Props.C117_crash",
    "WB.Props.C117_all_finish",
    "WB.Props.C117_no_deadlock",
    "WB.Props.C117_no_data_race",
    "WB.Props.C117_rule_needed"
   ],
   "note": "As C115, with common buffers made by a program before the threads start. Sequentially consistent interleaving; the part of a call before and the part after the accesses to the matrix cache is one step each."
  },
  {
   "property": "C118",
   "status": "proved",
   "theorems": [
    "WB.Props.C118_coefficients",
    "WB.Props.C118_samples",
    "WB.Props.C118_round_trip"
   ],
   "note": "Scalars are any type with zero, sum, product and negation and no laws. The products of sparse matrices visit stored entries only, as in Blaze; the order of summation is that of the model, which decides no statement here."
  },
  {
   "property": "C119",
   "status": "proved",
   "theorems": [
    "WB.Props.C119_place",
    "WB.Props.C119_damage",
    "WB.Props.C119_samples",
    "WB.Props.C119_packed"
   ],
   "note": "The codecs are parameters: nothing is assumed about what they do with bytes they did not write. The containers of the archive fit into memory (Room)."
  },
  {
   "property": "C12",
   "status": "proved",
   "theorems": [
    "WB.Props.C12_no_decomposition_is_verbatim"
   ],
   "note": ""
  },
  {
   "property": "C120",
   "status": "proved",
   "theorems": [
    "WB.Props.C120_pure",
    "WB.Props.C120_calls",
    "WB.Props.C120_view",
    "WB.Props.C120_notes",
    "WB.Props.C120_again"
   ],
   "note": "The denoiser does not access the buffer that is being decomposed. Exceptions from memory allocation are not modelled."
  },
  {
   "property": "C121",
   "status": "proved",
   "theorems": [
    "WB.Props.C121_decompose",
    "WB.Props.C121_compose",
    "WB.Props.C121_archive",
    "WB.Props.C121_in_order"
   ],
   "note": "Every sum is computed by a plan in which each product is used once (SumPlan); the plan may depend on the terms and on where they come from. No excess precision; additions not fused with a product round to float. C121_in_order is about single sums, the other theorems about the whole calls."
  },
  {
   "property": "C122",
   "status": "proved",
   "theorems": [
    "WB.Props.C122_as_alone",
    "WB.Props.C122_no_data_race",
    "WB.Props.C122_crash",
    "WB.Props.C122_all_finish",
    "WB.Props.C122_no_deadlock",
    "WB.Props.C122_decompose_in_parallel",
    "WB.Props.C122_rule_needed"
   ],
   "note": "Model/Crew writes every call as the sequence of its accesses to the common decomposition and the cache; alone it is the call of the other theorems (run_call). The buffer stays alive and its parameters are not changed; denoisers do not access the buffer. C122_rule_needed: without the rule two calls can both return true and leave a mixture."
  },
  {
   "property": "C123",
   "status": "proved",
   "theorems": [
    "WB.Props.C123_as_alone",
    "WB.Props.C123_others_spared",
    "WB.Props.C123_no_data_race",
    "WB.Props.C123_no_deadlock",
    "WB.Props.C123_crash",
    "WB.Props.C123_cache_sound",
    "WB.Props.C123_try_again",
    "WB.Props.C123_not_atomic"
   ],
   "note": "Assumed of the libraries: std::lock_guard unlocks on the way out, a std::map::insert that throws has no effect, an assignment to a subband that throws leaves some matrix in its place (basic guarantee). CutShort in Spec/CrewFail says what a failed call can leave. C123_not_atomic: the strong guarantee does not hold for Decompose."
  },
  {
   "property": "C124",
   "status": "proved",
   "theorems": [
    "WB.Props.C124_unfused",
    "WB.Props.C124_changed_values",
    "WB.Props.C124_every_image",
    "WB.Props.C124_picture"
   ],
   "note": "Fusion in Model/FusedColour lists the places where a product is added in HSLToRGB; RGBToHSL has none. Without denoising; division is correctly rounded. The bound of C124_picture is that of C113 with 1/6000 instead of 1/8000."
  },
  {
   "property": "C125",
   "status": "proved",
   "theorems": [
    "WB.Props.C125_any_bytes",
    "WB.Props.C125_samples",
    "WB.Props.C125_one_to_one"
   ],
   "note": "Extends C119, which changes one coefficient, to any set of them. The bytes that frame the coefficients (headers of archive and subbands) are unchanged by assumption."
  },
  {
   "property": "C126",
   "status": "partial",
   "theorems": [
    "WB.Props.C126_outcome",
    "WB.Props.C126_result_size_partial",
    "WB.Props.C126_vector_partial",
    "WB.Props.C126_picture_partial",
    "WB.Props.C126_vector_short",
    "WB.Props.C126_fresh_picture",
    "WB.Props.C126_fresh_vector",
    "WB.Props.C126_archive"
   ],
   "note": "The last sentence is false of the code: a fresh buffer for pictures with at least one step is composed from memory that was never written (C126_fresh_picture), a detail that is too short is read behind its end (C126_vector_short), and for all parameters there are archives that Parse accepts with this effect (C126_archive). Proved instead: for all sizes of all subbands, 1D and 2D, and all scales, which of normal return, exception and undefined behaviour happens (C126_outcome); a normal return gives the declared size."
  },
  {
   "property": "C127",
   "status": "proved",
   "theorems": [
    "WB.Props.C127_parsed_fits",
    "WB.Props.C127_rewrite",
    "WB.Props.C127_old_plain"
   ],
   "note": "The decoder of the old compression is the one of Model/SfCompressor. That such archives with a wrong layout exist is C59_version2_layout_unchecked."
  },
  {
   "property": "C128",
   "status": "partial",
   "theorems": [
    "WB.Props.C128_call",
    "WB.Props.C128_decompose",
    "WB.Props.C128_finite",
    "WB.Props.C128_nan_counterexample"
   ],
   "note": "Partial: that Decompose with this denoiser is defined for all samples is false (C128_nan_counterexample). C128_call and C128_decompose say exactly when it is defined, for levels from 0 to 1. With level 0 common implementations of std::nth_element return before they compare; the library does not exempt that case and neither does the model."
  },
  {
   "property": "C129",
   "status": "proved",
   "theorems": [
    "WB.Props.C129_reference",
    "WB.Props.C129_dangling",
    "WB.Props.C129_classified",
    "WB.Props.C129_view",
    "WB.Props.C129_moved",
    "WB.Props.C129_selfAssigned"
   ],
   "note": "Memory is not reused in the model: a dangling reference is undefined to use even where an allocator would put a new object at the address. The user does not resize the lists of subbands through the references (that would end references to single subbands earlier)."
  },
  {
   "property": "C13",
   "status": "proved",
   "theorems": [
    "WB.Props.C13_scaled_shape"
   ],
   "note": ""
  },
  {
   "property": "C130",
   "status": "proved",
   "theorems": [
    "WB.Props.C130_accepts",
    "WB.Props.C130_covers",
    "WB.Props.C130_const",
    "WB.Props.C130_negative_counterexample",
    "WB.Props.C130_cast",
    "WB.Props.C130_kept"
   ],
   "note": "blaze::subvector is read as: throw if offset + size, computed in size_t, exceeds the size of the vector; element access unchecked. Sums of int arguments that overflow make Decompose and Compose undefined, decompositions() not."
  },
  {
   "property": "C131",
   "status": "partial",
   "theorems": [
    "WB.Props.C131_constructor_partial",
    "WB.Props.C131_accepts_valid",
    "WB.Props.C131_at_most_one_more",
    "WB.Props.C131_huge_counterexample"
   ],
   "note": "Partial: true when some side is shorter than 2^46 samples; false for longer ones (C131_huge_counterexample). For all sizes valid parameters are accepted (C131_accepts_valid) and at most one step too many is (C131_at_most_one_more). Missing: nothing is said about which sides from 2^46 to 2^55 are decided wrongly."
  },
  {
   "property": "C132",
   "status": "partial",
   "theorems": [
    "WB.Props.C132_container",
    "WB.Props.C132_survives",
    "WB.Props.C132_table_partial",
    "WB.Props.C132_table_counterexample"
   ],
   "note": "Partial: values that fit the documented mantissa survive, but the table is off by one bit for levels 2 to 16 (C132_table_counterexample). What the levels 1 to 24 really do is proved in full: the mantissa has 24 - level bits (C132_container, C132_survives)."
  },
  {
   "property": "C133",
   "status": "proved",
   "theorems": [
    "WB.Props.C133_coefficients",
    "WB.Props.C133_quiet",
    "WB.Props.C133_archive"
   ],
   "note": "Floats on bit patterns, any correct rounding to nearest, null denoiser and ThresholdAbsDenoiseAlgorithm. Summation from left to right as in the scalar kernel (see C110 for other orders)."
  },
  {
   "property": "C134",
   "status": "partial",
   "theorems": [
    "WB.Props.C134_round_trip",
    "WB.Props.C134_same_place",
    "WB.Props.C134_archive_partial",
    "WB.Props.C134_level_counterexample"
   ],
   "note": "Partial: proved in full without an archive (C134_round_trip, C134_same_place; any arithmetic in which bad values infect sums, products and quotients) and for compression levels up to 24; false from level 25 on (C134_level_counterexample)."
  },
  {
   "property": "C135",
   "status": "proved",
   "theorems": [
    "WB.Props.C135_transform",
    "WB.Props.C135_polarity",
    "WB.Props.C135_archive",
    "WB.Props.C135_blind"
   ],
   "note": "C135_transform: any relation, any arithmetic, any denoiser that keeps the relation. C135_polarity: floats, null and threshold denoisers. C135_archive: finite coefficients. C135_blind: where in-range IEEE operations do not prefer a sign follows from a symmetric rounding. The simple denoiser is not covered (std::nth_element may choose differently among NaNs)."
  },
  {
   "property": "C136",
   "status": "partial",
   "theorems": [
    "WB.Props.C136_means",
    "WB.Props.C136_range_partial",
    "WB.Props.C136_archive",
    "WB.Props.C136_false_above_haar"
   ],
   "note": "True for Haar: C136_means and C136_range_partial in exact arithmetic, C136_archive for floats out of an archive with any bound of C112. False for DB2 to DB5: C136_false_above_haar gives, for each of them, a signal in [0, 1] whose preview of scale 1 has a value below 0."
  },
  {
   "property": "C137",
   "status": "proved",
   "theorems": [
    "WB.Props.C137_entries",
    "WB.Props.C137_call",
    "WB.Props.C137_kept",
    "WB.Props.C137_memory",
    "WB.Props.C137_channels",
    "WB.Props.C137_stored_twice",
    "WB.Props.C137_threads"
   ],
   "note": "Counted are entries and stored numbers, not bytes of the nodes of std::map. C137_stored_twice: a history after which the same matrices are stored under two keys."
  },
  {
   "property": "C138",
   "status": "proved",
   "theorems": [
    "WB.Props.C138_decompose",
    "WB.Props.C138_compose",
    "WB.Props.C138_others",
    "WB.Props.C138_only_pictures",
    "WB.Props.C138_program"
   ],
   "note": "Undefined behaviour is use of an object outside its lifetime; serialization is not among the calls of this model (it does not touch the cache)."
  },
  {
   "property": "C139",
   "status": "proved",
   "theorems": [
    "WB.Props.C139_conversation",
    "WB.Props.C139_quiet",
    "WB.Props.C139_destroyed"
   ],
   "note": "Denoisers passed in inner calls are ordinary ones (no calls of their own). Denoisers that change or move the buffer that is being decomposed are in the model, but the theorem about conversations does not cover them. Scripts are finite; a denoiser that never returns is not considered."
  },
  {
   "property": "C14",
   "status": "proved",
   "theorems": [
    "WB.Props.C14_constants_keep_amplitude",
    "WB.Props.C14_code_filters"
   ],
   "note": ""
  },
  {
   "property": "C140",
   "status": "partial",
   "theorems": [
    "WB.Props.C140_two_passes",
    "WB.Props.C140_rounds",
    "WB.Props.C140_thresholds",
    "WB.Props.C140_threshold_again",
    "WB.Props.C140_simple_again",
    "WB.Props.C140_padding_drifts"
   ],
   "note": "Proved when nothing is padded (every side divisible by 2^steps), in exact arithmetic with an orthonormal filter. With padding the claim is false of the code: C140_padding_drifts gives a signal of five samples whose last two samples fall by 1/2 in every round."
  },
  {
   "property": "C141",
   "status": "partial",
   "theorems": [
    "WB.Props.C141_white_noise",
    "WB.Props.C141_subband_energy",
    "WB.Props.C141_threshold_passes",
    "WB.Props.C141_padding_counterexample"
   ],
   "note": "Proved when nothing is padded, in exact arithmetic with an orthonormal filter. With padding the claim is false of the code: C141_padding_counterexample (three samples, the last detail is always zero)."
  },
  {
   "property": "C142",
   "status": "partial",
   "theorems": [
    "WB.Props.C142_mirror",
    "WB.Props.C142_composed",
    "WB.Props.C142_even_sides",
    "WB.Props.C142_null",
    "WB.Props.C142_threshold",
    "WB.Props.C142_odd_side",
    "WB.Props.C142_order_two"
   ],
   "note": "Proved for the Haar wavelet (filter [c, c]) in exact arithmetic if the padding is the same on both sides (Centred; at full size that holds for even sides, C142_even_sides). Otherwise the claim is false of the code: C142_odd_side (three samples) and C142_order_two (order 2, six samples, nothing padded). SimpleDenoiseAlgorithm is not covered: with ties it depends on places."
  },
  {
   "property": "C143",
   "status": "proved",
   "theorems": [
    "WB.Props.C143_thresholds",
    "WB.Props.C143_levels",
    "WB.Props.C143_nested",
    "WB.Props.C143_padding_counterexample"
   ],
   "note": "KeepsNoMore states the conclusion for both denoisers. Exact arithmetic, except C143_nested (any arithmetic). For levels std::nth_element and the cast to size_t by contract. That nothing is padded is needed for the composed signals: C143_padding_counterexample (eleven samples, three steps)."
  },
  {
   "property": "C144",
   "status": "proved",
   "theorems": [
    "WB.Props.C144_preview_energy",
    "WB.Props.C144_fading",
    "WB.Props.C144_padding_counterexample"
   ],
   "note": "Exact arithmetic, any orthonormal filter. The fading is stated for sides that need no padding; with padding it is false of the code (C144_padding_counterexample, three samples)."
  },
  {
   "property": "C145",
   "status": "proved",
   "theorems": [
    "WB.Props.C145_white_composition",
    "WB.Props.C145_mean_energy"
   ],
   "note": "Exact arithmetic, any orthonormal filter, padding included. White noise means: products of values are integrable, the integral of a product of two different values is 0 and that of a square is v."
  },
  {
   "property": "C146",
   "status": "proved",
   "theorems": [
    "WB.Props.C146_units"
   ],
   "note": "On 32-bit patterns. Marks follow the operations of the program (Marked: bits and a mark, set by operands that are not finite, overflow and underflow); the bits are those that the transform on plain patterns computes, which is part of the theorem. The arithmetic is FloatOps.Correct, and UnitBlind says that it rounds to significant bits; that such an arithmetic exists is proved (unit_blind_exist). Products and sums in the order of the sources, each rounded on its own. Thresholds are not multiplied along, hence the null denoiser."
  },
  {
   "property": "C147",
   "status": "proved",
   "theorems": [
    "WB.Props.C147_thresholds"
   ],
   "note": "On 32-bit patterns with marks as in C146; a value that is set to zero leaves its mark behind, since it decided. The bits are those that the transform on plain patterns with the threshold denoiser computes, which is part of the theorem. That the thresholds are computed without overflow and underflow is a hypothesis, met by constant thresholds (example). UnitBlind as in C146."
  },
  {
   "property": "C148",
   "status": "proved",
   "theorems": [
    "WB.Props.C148_archives",
    "WB.Props.C148_beyond"
   ],
   "note": "Codecs are parameters as in C28 and C108 (CodecsWork with truncBits). Subnormal coefficients are excepted: they have fewer bits to cut. C148_beyond shows that the bound 24 on the level cannot be raised."
  },
  {
   "property": "C149",
   "status": "proved",
   "theorems": [
    "WB.Props.C149_compose",
    "WB.Props.C149_archived"
   ],
   "note": "On 32-bit patterns with marks as in C146; the bits are those that Compose on plain patterns computes, which is part of the theorems. Overflow and underflow before the coefficients are not followed here: the marks start at the coefficients. UnitBlind as in C146, codecs as in C148."
  },
  {
   "property": "C15",
   "status": "proved",
   "theorems": [
    "WB.Props.C15_scaled_composition_is_coarse_approximation"
   ],
   "note": ""
  },
  {
   "property": "C16",
   "status": "partial",
   "theorems": [
    "WB.Props.C16_negative_scales_partial",
    "WB.Props.C16_large_scales_accepted",
    "WB.Props.C16_minus_one_1D"
   ],
   "note": "The property is false of the code: every scale above the number of steps is accepted (C16_large_scales_accepted); scale -1 in 1D is undefined behaviour."
  },
  {
   "property": "C17",
   "status": "proved",
   "theorems": [
    "WB.Props.C17_buffer_crop_undoes_padding",
    "WB.Props.C17_extend_replicates_edges",
    "WB.Props.C17_zero_padding"
   ],
   "note": ""
  },
  {
   "property": "C18",
   "status": "proved",
   "theorems": [
    "WB.Props.C18_threshold_entries",
    "WB.Props.C18_threshold_entries_1D",
    "WB.Props.C18_threshold_after_decompose"
   ],
   "note": ""
  },
  {
   "property": "C19",
   "status": "partial",
   "theorems": [
    "WB.Props.C19_simple_2D_partial",
    "WB.Props.C19_simple_1D_partial",
    "WB.Props.C19_simple_levels_partial",
    "WB.Props.C19_level_one_keeps_one"
   ],
   "note": "The clause for level 1 is false: one coefficient survives (C19_level_one_keeps_one). std::nth_element is a parameter with its standard contract."
  },
  {
   "property": "C20",
   "status": "partial",
   "theorems": [
    "WB.Props.C20_rejects_wrong_first_channel_partial",
    "WB.Props.C20_wrong_later_channels"
   ],
   "note": "The property is false of the code for channels after the first and for the channel count in 1D (C20_wrong_later_channels)."
  },
  {
   "property": "C21",
   "status": "proved",
   "theorems": [
    "WB.Props.C21_history_independent",
    "WB.Props.C21_repeat_identical"
   ],
   "note": ""
  },
  {
   "property": "C22",
   "status": "proved",
   "theorems": [
    "WB.Props.C22_answers_are_fresh",
    "WB.Props.C22_all_answers",
    "WB.Props.C22_entries_never_change",
    "WB.Props.C22_no_deadlock",
    "WB.Props.C22_schedules_end",
    "WB.Props.C22_can_finish",
    "WB.Props.C22_no_data_race",
    "WB.Props.C22_requests_have_answers"
   ],
   "note": "Sequentially consistent interleavings of lock, lookup, build, insert, unlock and copy steps; stability of std::map nodes is assumed (positions)."
  },
  {
   "property": "C23",
   "status": "proved",
   "theorems": [
    "WB.Props.C23_view_decomposition_local"
   ],
   "note": ""
  },
  {
   "property": "C24",
   "status": "partial",
   "theorems": [
    "WB.Props.C24_rejects_beyond_end_partial",
    "WB.Props.C24_negative_start_accepted",
    "WB.Props.C24_end_overflow"
   ],
   "note": "The property is false of the code for negative starts (C24_negative_start_accepted) and when start+count overflows int."
  },
  {
   "property": "C25",
   "status": "proved",
   "theorems": [
    "WB.Props.C25_cast_copies_channels"
   ],
   "note": ""
  },
  {
   "property": "C26",
   "status": "proved",
   "theorems": [
    "WB.Props.C26_view_composition_is_slice"
   ],
   "note": ""
  },
  {
   "property": "C27",
   "status": "proved",
   "theorems": [
    "WB.Props.C27_uncompressed_round_trip"
   ],
   "note": "Hypotheses: sizes fit the 64-bit fields, memory for the containers can be had."
  },
  {
   "property": "C28",
   "status": "proved",
   "theorems": [
    "WB.Props.C28_compressed_round_trip",
    "WB.Props.C28_level_one_exact"
   ],
   "note": "streamvbyte and fpzip are parameters with the contract CodecsWork; exExt_works shows it can be met."
  },
  {
   "property": "C29",
   "status": "proved",
   "theorems": [
    "WB.Props.C29_level_saturates"
   ],
   "note": ""
  },
  {
   "property": "C30",
   "status": "proved",
   "theorems": [
    "WB.Props.C30_failure_leaves_output",
    "WB.Props.C30_success_condition"
   ],
   "note": ""
  },
  {
   "property": "C31",
   "status": "partial",
   "theorems": [
    "WB.Props.C31_cut_body_rejected_partial",
    "WB.Props.C31_cut_header_undefined"
   ],
   "note": "False for cuts inside the header (uninitialised fields are used): C31_cut_header_undefined gives the exact outcome of every such cut."
  },
  {
   "property": "C32",
   "status": "proved",
   "theorems": [
    "WB.Props.C32_trailing_bytes_ignored"
   ],
   "note": ""
  },
  {
   "property": "C33",
   "status": "partial",
   "theorems": [
    "WB.Props.C33_other_versions_rejected_partial",
    "WB.Props.C33_white_space_accepted"
   ],
   "note": "False for blobs that start with white space: C33_white_space_accepted."
  },
  {
   "property": "C34",
   "status": "proved",
   "theorems": [
    "WB.Props.C34_sparse_round_trip"
   ],
   "note": ""
  },
  {
   "property": "C35",
   "status": "proved",
   "theorems": [
    "WB.Props.C35_params_total_order"
   ],
   "note": ""
  },
  {
   "property": "C36",
   "status": "proved",
   "theorems": [
    "WB.Props.C36_copies_independent"
   ],
   "note": ""
  },
  {
   "property": "C37",
   "status": "proved",
   "theorems": [
    "WB.Props.C37_distance_formula",
    "WB.Props.C37_distance",
    "WB.Props.C37_distance_self",
    "WB.Props.C37_triangle"
   ],
   "note": "Over the reals; for buffers of equal form with at least one sample and fewer than 2^31 samples per channel."
  },
  {
   "property": "C38",
   "status": "proved",
   "theorems": [
    "WB.Props.C38_energy_distribution",
    "WB.Props.C38_sum_is_signal_energy"
   ],
   "note": "Over the reals."
  },
  {
   "property": "C39",
   "status": "partial",
   "theorems": [
    "WB.Props.C39_value_ranges_partial",
    "WB.Props.C39_one_dimensional_partial",
    "WB.Props.C39_false_above_haar"
   ],
   "note": "True for no wavelet and order 1; for one-dimensional signals of orders up to 4 everything but the lower end of the approximation; false above order 1: C39_false_above_haar."
  },
  {
   "property": "C40",
   "status": "proved",
   "theorems": [
    "WB.Props.C40_is_empty"
   ],
   "note": ""
  },
  {
   "property": "C41",
   "status": "proved",
   "theorems": [
    "WB.Props.C41_round_trip",
    "WB.Props.C41_exact",
    "WB.Props.C41_image"
   ],
   "note": "Exact real arithmetic, including the literals; also for whole images through ConvertRgbToHsl/ConvertHslToRgb."
  },
  {
   "property": "C42",
   "status": "proved",
   "theorems": [
    "WB.Props.C42_rgb_to_hsl",
    "WB.Props.C42_hsl_to_rgb"
   ],
   "note": "Exact real arithmetic; a division by zero would be a distinct outcome."
  },
  {
   "property": "C43",
   "status": "proved",
   "theorems": [
    "WB.Props.C43_pixels_survive",
    "WB.Props.C43_clamped_and_monotone"
   ],
   "note": "For every round-to-nearest (ties open) to binary32/binary64; the literal 255 is exact."
  },
  {
   "property": "C44",
   "status": "proved",
   "theorems": [
    "WB.Props.C44_encode_rejects",
    "WB.Props.C44_encode_accepts",
    "WB.Props.C44_decode_rejects",
    "WB.Props.C44_decode"
   ],
   "note": "The JPEG library is a parameter; start_channel + 3 does not wrap around 2^64. Images with fewer channels than the codec needs: see C62."
  },
  {
   "property": "C45",
   "status": "partial",
   "theorems": [
    "WB.Props.C45_failed_import_changes_nothing",
    "WB.Props.C45_import_changes_only_its_channels",
    "WB.Props.C45_rejected_data",
    "WB.Props.C45_import_partial",
    "WB.Props.C45_export_to_string",
    "WB.Props.C45_export_to_file_partial",
    "WB.Props.C45_start_channel_wraps",
    "WB.Props.C45_failed_export_destroys_file"
   ],
   "note": "The import clauses hold for start channels that fit in an int (C45_start_channel_wraps shows what happens otherwise). The last clause is false: C45_failed_export_destroys_file."
  },
  {
   "property": "C46",
   "status": "partial",
   "theorems": [
    "WB.Props.C46_save_load_partial",
    "WB.Props.C46_cut_write_unnoticed",
    "WB.Props.C46_crash_loses_file"
   ],
   "note": "Holds when all bytes reach the file; false for cut writes and crashes."
  },
  {
   "property": "C47",
   "status": "proved",
   "theorems": [
    "WB.Props.C47_reader_inverts_writer"
   ],
   "note": "All field sequences up to 32 bits per field; also fixes the bytes produced. Needs room in the output buffer, which the code does not check (without it: undefined)."
  },
  {
   "property": "C48",
   "status": "partial",
   "theorems": [
    "WB.Props.C48_selection_code_partial",
    "WB.Props.C48_prefix_free_partial",
    "WB.Props.C48_false_above_limit"
   ],
   "note": "Proved for 1 to 2^31 possibilities. False for 2^31+1 (a matrix of 2^31 elements): counterexample proved."
  },
  {
   "property": "C49",
   "status": "proved",
   "theorems": [
    "WB.Props.C49_exponents_decode"
   ],
   "note": ""
  },
  {
   "property": "C50",
   "status": "proved",
   "theorems": [
    "WB.Props.C50_search_in_table",
    "WB.Props.C50_constructor_tables"
   ],
   "note": "The general theorem also covers the output tables built at run time."
  },
  {
   "property": "C51",
   "status": "proved",
   "theorems": [
    "WB.Props.C51_version2_uncompressed"
   ],
   "note": ""
  },
  {
   "property": "C52",
   "status": "proved",
   "theorems": [
    "WB.Props.C52_decompress_of_compress"
   ],
   "note": "For 7 to 23 fraction bits except 22 (rejected by the code's format), nonzero values finite after rounding, fewer than 2^31 elements, enough room in the output buffer."
  },
  {
   "property": "C53",
   "status": "partial",
   "theorems": [
    "WB.Props.C53_from_numpy_partial",
    "WB.Props.C53_to_numpy",
    "WB.Props.C53_round_trip",
    "WB.Props.C53_decompose",
    "WB.Props.C53_compose",
    "WB.Props.C53_wrong_shape",
    "WB.Props.C53_one_dimensional",
    "WB.Props.C53_layout_matters",
    "WB.Props.C53_read_only",
    "WB.Props.C53_element_type",
    "WB.Props.C53_byte_arrays"
   ],
   "note": "Proved for writable C-contiguous float32 arrays (any strides in one dimension). False of the code otherwise: for every other layout there are contents that are misread, read-only arrays are rejected, other element types are reinterpreted."
  },
  {
   "property": "C54",
   "status": "proved",
   "theorems": [
    "WB.Props.C54_equality_meaning",
    "WB.Props.C54_reflexive_symmetric"
   ],
   "note": "The comparison of two samples is a parameter (Blaze uses a tolerance)."
  },
  {
   "property": "C55",
   "status": "proved",
   "theorems": [
    "WB.Props.C55_channels_independent"
   ],
   "note": ""
  },
  {
   "property": "C56",
   "status": "proved",
   "theorems": [
    "WB.Props.C56_vector_interface"
   ],
   "note": ""
  },
  {
   "property": "C57",
   "status": "partial",
   "theorems": [
    "WB.Props.C57_legacy_overflow",
    "WB.Props.C57_legacy_overflow_genuine",
    "WB.Props.C65_version2_compressed"
   ],
   "note": "False of the code: undefined behaviour for every blob whose first stream is longer than the memory set aside, also for an untampered blob. C65 gives the part that holds (streams that fit)."
  },
  {
   "property": "C58",
   "status": "proved",
   "theorems": [
    "WB.Props.C58_rounding_error",
    "WB.Props.C58_orthonormal",
    "WB.Props.C58_code"
   ],
   "note": "One dimension, products and sums in the order of the loops, no fused multiply-add, no overflow. C58_code: IEEE float and double, DB1..DB5, linear bound plus the error of the decimals (C09)."
  },
  {
   "property": "C59",
   "status": "partial",
   "theorems": [
    "WB.Props.C59_parsed_parameters_valid_partial",
    "WB.Props.C59_version2_layout_unchecked"
   ],
   "note": "False for version 2 without compression, whose layout is not checked: C59_version2_layout_unchecked."
  },
  {
   "property": "C60",
   "status": "proved",
   "theorems": [
    "WB.Props.C60_level_mod_256",
    "WB.Props.C60_multiples_of_256",
    "WB.Props.C60_no_int"
   ],
   "note": "Levels that do not fit an int are rejected."
  },
  {
   "property": "C61",
   "status": "partial",
   "theorems": [
    "WB.Props.C61_noise_above_partial",
    "WB.Props.C61_noise_below_changes_pixel"
   ],
   "note": "ToPixel truncates, so noise below changes the pixel: C61_noise_below_changes_pixel. Noise above is harmless."
  },
  {
   "property": "C62",
   "status": "partial",
   "theorems": [
    "WB.Props.C62_enough_channels_partial",
    "WB.Props.C62_gray_file_read_as_colour"
   ],
   "note": "False for files with fewer than three channels read through the RGB or HSL codec: C62_gray_file_read_as_colour."
  },
  {
   "property": "C63",
   "status": "proved",
   "theorems": [
    "WB.Props.C63_pixels_survive_import_export"
   ],
   "note": "RGB and gray codecs; pixel conversion with IEEE rounding, transform in exact arithmetic (or none)."
  },
  {
   "property": "C64",
   "status": "partial",
   "theorems": [
    "WB.Props.C64_small_pictures_rejected",
    "WB.Props.C64_pictures_partial"
   ],
   "note": "False: pictures one pixel wide or high are rejected. The theorem gives the exact condition."
  },
  {
   "property": "C65",
   "status": "proved",
   "theorems": [
    "WB.Props.C65_version2_compressed"
   ],
   "note": ""
  },
  {
   "property": "C66",
   "status": "proved",
   "theorems": [
    "WB.Props.C66_empty_matrix"
   ],
   "note": ""
  },
  {
   "property": "C67",
   "status": "partial",
   "theorems": [
    "WB.Props.C67_reuse_partial",
    "WB.Props.C67_reuse_counterexample"
   ],
   "note": "Holds for streams with both code tables; false otherwise, counterexample proved."
  },
  {
   "property": "C68",
   "status": "partial",
   "theorems": [
    "WB.Props.C68_no_values",
    "WB.Props.C68_zero_value",
    "WB.Props.C52_decompress_of_compress"
   ],
   "note": "False: undefined behaviour for every input without values or with a zero value. C52 gives the part that holds."
  },
  {
   "property": "C69",
   "status": "proved",
   "theorems": [
    "WB.Props.C69_rounding_error"
   ],
   "note": ""
  },
  {
   "property": "C70",
   "status": "partial",
   "theorems": [
    "WB.Props.C70_slice_channels",
    "WB.Props.C70_slice_compose",
    "WB.Props.C70_slice_decompose",
    "WB.Props.C70_beyond",
    "WB.Props.C70_step",
    "WB.Props.C70_empty_partial",
    "WB.Props.C70_empty_accepted"
   ],
   "note": "All but one clause proved. Empty slices with start above stop are accepted (counterexample proved); every use of such a view is an exception."
  },
  {
   "property": "C71",
   "status": "partial",
   "theorems": [
    "WB.Props.C71_rebuild",
    "WB.Props.C71_read",
    "WB.Props.C71_layout_matters"
   ],
   "note": "Proved for the arrays returned by the property; false for other layouts, counterexample proved."
  },
  {
   "property": "C72",
   "status": "partial",
   "theorems": [
    "WB.Props.C72_no_channels"
   ],
   "note": "False of the code: undefined behaviour for every such buffer."
  },
  {
   "property": "C73",
   "status": "partial",
   "theorems": [
    "WB.Props.C73_forward",
    "WB.Props.C73_backward_partial",
    "WB.Props.C73_two_samples_swapped",
    "WB.Props.C73_code_two_samples"
   ],
   "note": "Forward direction in full. Backward direction for n >= 4; for n = 2 the property is false of the code: the 2 x 2 matrix is taken for a pair of filters and the two samples come back swapped."
  },
  {
   "property": "C74",
   "status": "proved",
   "theorems": [
    "WB.Props.C74_zero_derivative",
    "WB.Props.C74_constants"
   ],
   "note": "Any commutative ring, any filter table; sizes below 2^31."
  },
  {
   "property": "C75",
   "status": "partial",
   "theorems": [
    "WB.Props.C75_matrix_size_partial",
    "WB.Props.C75_long_filter",
    "WB.Props.C75_long_filter_inverse"
   ],
   "note": "True for matrices with other than two rows. False for pairs of filters: the exact length up to which the calls return is proved, and that longer filters read outside the signal."
  },
  {
   "property": "C76",
   "status": "partial",
   "theorems": [
    "WB.Props.C76_round_trip_partial",
    "WB.Props.C76_small_matrix",
    "WB.Props.C76_own_stream",
    "WB.Props.C76_table_bound_counterexample",
    "WB.Props.C76_code_overflow_counterexample"
   ],
   "note": "Proved for every matrix of up to 65536 elements, and for larger ones with runs of at most 65536 zeros and at most 65534 values (more values if the runs are shorter). False otherwise: Compress reads outside an array for a matrix of 1024 x 1024 elements with 4104 ones (a code length of 32); with runs of several hundred million zeros the code lengths overfill the code space and the stream cannot be decompressed."
  },
  {
   "property": "C77",
   "status": "proved",
   "theorems": [
    "WB.Props.C77_stream_determined"
   ],
   "note": "For every origin, buffer size, pair of roundings to nearest and pair of earlier code lengths."
  },
  {
   "property": "C78",
   "status": "partial",
   "theorems": [
    "WB.Props.C78_where_the_text_goes",
    "WB.Props.C78_counterexample",
    "WB.Props.C78_print_partial"
   ],
   "note": "False of the code for every buffer with at least one channel; holds for buffers without channels. What goes where is determined for all buffers."
  },
  {
   "property": "C79",
   "status": "proved",
   "theorems": [
    "WB.Props.C79_repr_determines",
    "WB.Props.C79_sizes"
   ],
   "note": "For the wavelet types of the enumeration; the sizes for all types."
  },
  {
   "property": "C80",
   "status": "partial",
   "theorems": [
    "WB.Props.C80_range",
    "WB.Props.C80_percent_in_range",
    "WB.Props.C80_percent_partial",
    "WB.Props.C80_percent_counterexample",
    "WB.Props.C80_nan",
    "WB.Props.C80_encode"
   ],
   "note": "Holds for all whole percentages except 53 and 59, which become 52 and 58. False for NaN: accepted, and encoding is undefined behaviour. Rounding to nearest; ties to even where products lie in the middle of two floats."
  },
  {
   "property": "C81",
   "status": "partial",
   "theorems": [
    "WB.Props.C81_energies_partial",
    "WB.Props.C81_empty_counterexample",
    "WB.Props.C81_new_counterexample",
    "WB.Props.C81_channels_lost_counterexample"
   ],
   "note": "Proved for non-empty two-dimensional buffers and for the first channel of one-dimensional ones. False of the code for every empty buffer (undefined behaviour) and for further channels of one-dimensional signals."
  },
  {
   "property": "C82",
   "status": "proved",
   "theorems": [
    "WB.Props.C82_decomposition_size"
   ],
   "note": "Sides below 2^64."
  },
  {
   "property": "C83",
   "status": "partial",
   "theorems": [
    "WB.Props.C83_decode_raises",
    "WB.Props.C83_decode",
    "WB.Props.C83_encode_partial",
    "WB.Props.C83_round_trip",
    "WB.Props.C83_encode_counterexample"
   ],
   "note": "decode and the round trip (RGB and gray codecs) are proved. encode is proved for writable C-contiguous float32 arrays with three dimensions; false of the code for fewer dimensions and for arrays of bytes."
  },
  {
   "property": "C84",
   "status": "partial",
   "theorems": [
    "WB.Props.C84_import",
    "WB.Props.C84_export_to_string",
    "WB.Props.C84_export_counterexample",
    "WB.Props.C84_save_counterexample",
    "WB.Props.C84_save_partial",
    "WB.Props.C84_not_writable"
   ],
   "note": "Imports and export_to_string as stated. False of the code for export_to_file (file lost) and save (cut write unnoticed)."
  },
  {
   "property": "C85",
   "status": "proved",
   "theorems": [
    "WB.Props.C85_rounding_error",
    "WB.Props.C85_orthonormal",
    "WB.Props.C85_code"
   ],
   "note": "Two dimensions, any number of channels; products summed in storage order, no fused multiply-add, no overflow. C85_code: IEEE float and double, DB1..DB5, linear bound plus the error of the decimals (C09)."
  },
  {
   "property": "C86",
   "status": "proved",
   "theorems": [
    "WB.Props.C86_one_dimension",
    "WB.Props.C86_two_dimensions",
    "WB.Props.C86_overflow_counterexample"
   ],
   "note": "IEEE float with overflow (one value none for infinities and NaN), any number of channels; no fused multiply-add. C86_overflow_counterexample: two samples equal to the largest float overflow with DB1 and one step."
  },
  {
   "property": "C87",
   "status": "proved",
   "theorems": [
    "WB.Props.C87_code",
    "WB.Props.C87_samples",
    "WB.Props.C87_mean_square"
   ],
   "note": "IEEE float with overflow (one value none for infinities and NaN), both dimensions, any number of channels; no fused multiply-add."
  },
  {
   "property": "C88",
   "status": "proved",
   "theorems": [
    "WB.Props.C88_pixels_in_float",
    "WB.Props.C88_white_counterexample"
   ],
   "note": "IEEE float with overflow, no fused multiply-add; the JPEG library is a parameter. C88_white_counterexample shows that pixels do change."
  },
  {
   "property": "C89",
   "status": "proved",
   "theorems": [
    "WB.Props.C89_compose_is_stable",
    "WB.Props.C89_compose_is_stable_orthonormal",
    "WB.Props.C89_distance_bounds_error"
   ],
   "note": "Real arithmetic; the decimals of DB1..DB5 as in the code, or any filter orthonormal under even shifts."
  },
  {
   "property": "C90",
   "status": "proved",
   "theorems": [
    "WB.Props.C90_distance_of_decomposed",
    "WB.Props.C90_distance_is_mean_square",
    "WB.Props.C90_padding_counterexample"
   ],
   "note": "Real arithmetic. C90_padding_counterexample: with padding Distance is not the mean squared difference of the signals."
  },
  {
   "property": "C91",
   "status": "proved",
   "theorems": [
    "WB.Props.C91_denoised_error",
    "WB.Props.C91_denoised_error_orthonormal",
    "WB.Props.C91_threshold_error",
    "WB.Props.C91_threshold_error_orthonormal"
   ],
   "note": "Real arithmetic; any size-keeping denoiser."
  },
  {
   "property": "C92",
   "status": "proved",
   "theorems": [
    "WB.Props.C92_simple_error",
    "WB.Props.C92_simple_error_orthonormal"
   ],
   "note": "Real arithmetic; std::nth_element and the conversion to size_t are parameters with their contracts."
  },
  {
   "property": "C93",
   "status": "partial",
   "theorems": [
    "WB.Props.C93_distance_range_partial",
    "WB.Props.C93_padding_counterexample",
    "WB.Props.C93_unbounded"
   ],
   "note": "The documented range is false in general (both counterexamples proved); proved for samples in [0, 1] and sides that need no padding. Real arithmetic."
  },
  {
   "property": "C94",
   "status": "proved",
   "theorems": [
    "WB.Props.C94_lossy_error",
    "WB.Props.C94_any_level",
    "WB.Props.C94_highest_level",
    "WB.Props.C94_nan_counterexample"
   ],
   "note": "fpzip is a parameter assumed to cut values to the leading bits asked for (its documented behaviour); Compose in real arithmetic on the decimals of DB1..DB5. C94_nan_counterexample shows why values must be finite."
  },
  {
   "property": "C95",
   "status": "proved",
   "theorems": [
    "WB.Props.C95_circular_shift"
   ],
   "note": "Exact arithmetic in any commutative ring, any filter."
  },
  {
   "property": "C96",
   "status": "proved",
   "theorems": [
    "WB.Props.C96_product_image",
    "WB.Props.C96_mixed_details"
   ],
   "note": "Exact arithmetic in any commutative ring, any filter. C96_mixed_details is for sides that need no padding."
  },
  {
   "property": "C97",
   "status": "proved",
   "theorems": [
    "WB.Props.C97_transposed_image"
   ],
   "note": "Exact arithmetic in any commutative ring, any filter."
  },
  {
   "property": "C98",
   "status": "proved",
   "theorems": [
    "WB.Props.C98_locality"
   ],
   "note": "Exact arithmetic in any commutative ring, any filter."
  },
  {
   "property": "C99",
   "status": "partial",
   "theorems": [
    "WB.Props.C99_polynomials_have_no_details",
    "WB.Props.C99_code_filters",
    "WB.Props.C99_decimals_counterexample"
   ],
   "note": "Exact for filters with vanishing moments; for the decimals in the code a bound for DB1 to DB5 and a counterexample to exactness. Details are computed in exact real arithmetic."
  }
 ]
}