{
 "claims": [
  {
   "property": "C01",
   "status": "proved",
   "theorems": [
    "Ebi.Props.c01_bit_stream_round_trip"
   ],
   "note": ""
  },
  {
   "property": "C02",
   "status": "proved",
   "theorems": [
    "Ebi.Props.c02_writer_length"
   ],
   "note": ""
  },
  {
   "property": "C03",
   "status": "proved",
   "theorems": [
    "Ebi.Props.c03_read_bits",
    "Ebi.Props.c03_read_bit",
    "Ebi.Props.c03_read_byte",
    "Ebi.Props.c03_peek",
    "Ebi.Props.c03_reachable",
    "Ebi.Props.c03_skip_past_end_panics"
   ],
   "note": "Holds for every reader whose cursor is inside the buffer (an invariant of all reads); after skip_bits past the end read_bits panics: witness c03_skip_past_end_panics."
  },
  {
   "property": "C04",
   "status": "proved",
   "theorems": [
    "Ebi.Props.c04_truncate"
   ],
   "note": ""
  },
  {
   "property": "C05",
   "status": "proved",
   "theorems": [
    "Ebi.Props.c05_gorilla_lossless",
    "Ebi.Props.c05_gorilla_nan_cuts"
   ],
   "note": ""
  },
  {
   "property": "C06",
   "status": "proved",
   "theorems": [
    "Ebi.Props.c06_chimp_lossless",
    "Ebi.Props.c06_chimp_nan_cuts"
   ],
   "note": ""
  },
  {
   "property": "C07",
   "status": "proved",
   "theorems": [
    "Ebi.Props.c07_chimp128_lossless",
    "Ebi.Props.c07_chimp128_nan_cuts",
    "Ebi.Props.c07_no_underflow"
   ],
   "note": ""
  },
  {
   "property": "C08",
   "status": "proved",
   "theorems": [
    "Ebi.Props.c08_elf_xor_lossless",
    "Ebi.Props.c08_elf_xor_nan_cuts",
    "Ebi.Props.c08_debug_shift_overflow",
    "Ebi.Props.c08_debug_shift_overflow_only"
   ],
   "note": "Release-build shift semantics; debug builds panic exactly on sign-bit-only differences (c08_debug_*)."
  },
  {
   "property": "C09",
   "status": "partial",
   "theorems": [
    "Ebi.Props.c09_elf_partial",
    "Ebi.Props.c09_elf_on_chimp_partial",
    "Ebi.Props.c09_elf_wide_partial",
    "Ebi.Props.c09_elf_on_chimp_wide_partial",
    "Ebi.Props.c09_elf_nan_cuts",
    "Ebi.Props.c09_elf_on_chimp_nan_cuts",
    "Ebi.Props.c09_elf_lossy",
    "Ebi.Props.c09_elf_on_chimp_lossy"
   ],
   "note": "Proved for zeros, infinities and 1e-6 <= |v| < 1e9 with any log10, and for all |v| >= 1e9 if the platform's log10 is accurate to 2.6e-15 next to powers of ten (Log10Close, shown satisfiable). The full claim is false: 3.0000000000000004e-7 decodes to 3e-7 (witness)."
  },
  {
   "property": "C10",
   "status": "proved",
   "theorems": [
    "Ebi.Props.c10_rle_lossless",
    "Ebi.Props.c10_rle_iterator",
    "Ebi.Props.c10_rle_empty_panics"
   ],
   "note": ""
  },
  {
   "property": "C11",
   "status": "proved",
   "theorems": [
    "Ebi.Props.c11_uncompressed_lossless"
   ],
   "note": ""
  },
  {
   "property": "C12",
   "status": "proved",
   "theorems": [
    "Ebi.Props.c12_sprintz_lossless",
    "Ebi.Props.c12_scale_truncated",
    "Ebi.Props.c12_large_scale_fails",
    "Ebi.Props.c12_width",
    "Ebi.Props.c12_empty_panics",
    "Ebi.Props.c12_debug_panic_iff",
    "Ebi.Props.c12_no_debug_panic"
   ],
   "note": "For every interpretation of the float arithmetic, release (wrapping) i64. The scale is stored in 32 bits only: general form c12_scale_truncated, witness c12_large_scale_fails."
  },
  {
   "property": "C13",
   "status": "proved",
   "theorems": [
    "Ebi.Props.c13_fixed_round_trip",
    "Ebi.Props.c13_buff_round_trip",
    "Ebi.Props.c13_empty_panics"
   ],
   "note": "For every arithmetic and every list of i64, no range restriction. The scale-to-fraction-bits lookup uses an oracle for f32 log10."
  },
  {
   "property": "C14",
   "status": "proved",
   "theorems": [
    "Ebi.Props.c14_truncation",
    "Ebi.Props.c14_error_bound"
   ],
   "note": "Values truncated to zero lose their sign bit: the decoded value is never of the opposite sign."
  },
  {
   "property": "C15",
   "status": "partial",
   "theorems": [
    "Ebi.Props.c15_controlled_precision",
    "Ebi.Props.c15_not_above",
    "Ebi.Props.c15_error_bound_partial",
    "Ebi.Props.c15_bound_attained",
    "Ebi.Props.c15_decoder_materialize"
   ],
   "note": "c15_decoder_materialize is over whole files through the decoder API. Full bound on the stored integers for every chunk; never above the decoded value in doubles; strict bound in doubles when the integers are below 2^53. Beyond, rounding makes the error exactly 2^-b: witness."
  },
  {
   "property": "C16",
   "status": "proved",
   "theorems": [
    "Ebi.Props.c16_zigzag_bijection",
    "Ebi.Props.c16_zigzag_code"
   ],
   "note": ""
  },
  {
   "property": "C17",
   "status": "partial",
   "theorems": [
    "Ebi.Props.c17_gorilla",
    "Ebi.Props.c17_chimp",
    "Ebi.Props.c17_chimp128_partial",
    "Ebi.Props.c17_chimp128_wraps",
    "Ebi.Props.c17_elf_partial",
    "Ebi.Props.c17_elf_wrapper_undercounts"
   ],
   "note": "Full for Gorilla and Chimp, for Chimp128 in streams below 2^32 bits (its counter is a u32; c17_chimp128_wraps holds always); for Elf the XOR back end only (c17_elf_partial). The Elf erasing wrapper around the XOR layer reports only its own flag bits (witness); its result is unused."
  },
  {
   "property": "C18",
   "status": "partial",
   "theorems": [
    "Ebi.Props.c18_gorilla",
    "Ebi.Props.c18_chimp",
    "Ebi.Props.c18_chimp128_partial",
    "Ebi.Props.c18_chimp128_too_small",
    "Ebi.Props.c18_chimp128_violated",
    "Ebi.Props.c18_gorilla_over_estimates",
    "Ebi.Props.c18_rle",
    "Ebi.Props.c18_uncompressed",
    "Ebi.Props.c18_sprintz",
    "Ebi.Props.c18_buff",
    "Ebi.Props.c18_elf",
    "Ebi.Props.c18_elf_on_chimp",
    "Ebi.Props.c18_external"
   ],
   "note": "Proved for every codec, for Chimp128 below 512 MiB. Violated beyond (general theorems): Chimp128 counts bits in a u32, so a chunk of 2^29 or more values is announced too small (a debug build panics)."
  },
  {
   "property": "C19",
   "status": "proved",
   "theorems": [
    "Ebi.Props.c19_rle_append",
    "Ebi.Props.c19_uncompressed_append"
   ],
   "note": ""
  },
  {
   "property": "C20",
   "status": "partial",
   "theorems": [
    "Ebi.Props.c20_rle_refines_list",
    "Ebi.Props.c20_rle_rewind_undoes",
    "Ebi.Props.c20_rle_rewind_too_far",
    "Ebi.Props.c20_uncompressed_partial",
    "Ebi.Props.c20_uncompressed_total_in_wrong"
   ],
   "note": "Full for RLE; for Uncompressed bytes, buffered size and later appends (c20_uncompressed_partial), but it leaves total_bytes_in unchanged on rewind (witness)."
  },
  {
   "property": "C21",
   "status": "partial",
   "theorems": [
    "Ebi.Props.c21_gorilla_reuse",
    "Ebi.Props.c21_chimp_reuse",
    "Ebi.Props.c21_chimp128_reuse",
    "Ebi.Props.c21_chimp128_announced",
    "Ebi.Props.c21_rle_reuse",
    "Ebi.Props.c21_uncompressed_reuse",
    "Ebi.Props.c21_sprintz_reuse",
    "Ebi.Props.c21_sprintz_total_in",
    "Ebi.Props.c21_buff_reuse",
    "Ebi.Props.c21_buff_total_in_leaks",
    "Ebi.Props.c21_elf_reuse",
    "Ebi.Props.c21_elf_on_chimp_reuse"
   ],
   "note": "Proved for all schemes after reset, which the encoder does before each chunk. Partial because BUFF without reset accumulates total_bytes_in over compress calls (witness c21_buff_total_in_leaks); its bytes are the same always."
  },
  {
   "property": "C22",
   "status": "proved",
   "theorems": [
    "Ebi.Props.c22_header",
    "Ebi.Props.c22_chunk_option",
    "Ebi.Props.c22_config",
    "Ebi.Props.c22_config_injective",
    "Ebi.Props.c22_scheme",
    "Ebi.Props.c22_footer",
    "Ebi.Props.c22_file"
   ],
   "note": ""
  },
  {
   "property": "C23",
   "status": "proved",
   "theorems": [
    "Ebi.Props.c23_file_round_trip",
    "Ebi.Props.c23_lossless_schemes",
    "Ebi.Props.c23_every_scheme",
    "Ebi.Props.scheme_law"
   ],
   "note": "c23_every_scheme is through the decoder API for every configuration of all 13 schemes and the inputs it accepts. For every scheme obeying its chunk law; c23_lossless_schemes instantiates it to Uncompressed, RLE, Gorilla, Chimp, Chimp128, and Zstd/Gzip/Snappy/ALP with the external library as a parameter assumed to invert itself."
  },
  {
   "property": "C24",
   "status": "proved",
   "theorems": [
    "Ebi.Props.c24_directory"
   ],
   "note": ""
  },
  {
   "property": "C25",
   "status": "partial",
   "theorems": [
    "Ebi.Props.c25_chunk_sizes_partial",
    "Ebi.Props.c25_zero_drops",
    "Ebi.Props.c25_huge_panics",
    "Ebi.Props.c25_count_wraps",
    "Ebi.Props.c25_estimate_rounds",
    "Ebi.Props.c25_view_in_buffer"
   ],
   "note": "Holds for every record count from 1 to 2^60-1 and every byte size from 1 to 2^51-1, every scheme, every input. Outside it is false: counts that are multiples of 2^61 and ByteSize(0) silently drop the input, byte counts from 2^63 panic (both proved for every scheme and input), 2^61+c acts like c and the float estimate rounds (witnesses)."
  },
  {
   "property": "C26",
   "status": "partial",
   "theorems": [
    "Ebi.Props.c26_delivery_partial",
    "Ebi.Props.c26_full_interrupted",
    "Ebi.Props.c26_interrupted_fails",
    "Ebi.Props.c26_interrupted_loses"
   ],
   "note": "Short reads never matter. Interrupted does: encoding fails or silently drops data (witnesses)."
  },
  {
   "property": "C27",
   "status": "proved",
   "theorems": [
    "Ebi.Props.c27_trailing_partial_record"
   ],
   "note": ""
  },
  {
   "property": "C28",
   "status": "partial",
   "theorems": [
    "Ebi.Props.c28_empty_input_partial",
    "Ebi.Props.c28_empty_input_panics"
   ],
   "note": "The code violates the claim: the encoder writes a well-formed empty file but opening it panics (proved for every scheme); the partial theorem says what the file contains."
  },
  {
   "property": "C29",
   "status": "partial",
   "theorems": [
    "Ebi.Props.c29_crash_partial",
    "Ebi.Props.c29_full_never_accepted",
    "Ebi.Props.c29_crash_accepted"
   ],
   "note": "Full is always rejected. With RecordCount/ByteSize a crashed file can be accepted with made-up data: witness."
  },
  {
   "property": "C30",
   "status": "proved",
   "theorems": [
    "Ebi.Props.c30_materialize",
    "Ebi.Props.c30_materialize_chunk",
    "Ebi.Props.c30_every_scheme"
   ],
   "note": "c30_every_scheme covers all 13 schemes through the decoder API."
  },
  {
   "property": "C31",
   "status": "proved",
   "theorems": [
    "Ebi.Props.c31_filter",
    "Ebi.Props.c31_decoder_filter"
   ],
   "note": "Readers with the default queries; c31_decoder_filter is through the decoder API."
  },
  {
   "property": "C32",
   "status": "proved",
   "theorems": [
    "Ebi.Props.c32_filter_then_materialize",
    "Ebi.Props.c32_decoder"
   ],
   "note": "Readers with the default queries; c32_decoder is through the decoder API."
  },
  {
   "property": "C33",
   "status": "proved",
   "theorems": [
    "Ebi.Props.c33_min",
    "Ebi.Props.c33_max",
    "Ebi.Props.c33_sum",
    "Ebi.Props.c33_empty_selection",
    "Ebi.Props.soft_minMax",
    "Ebi.Props.c33_decoder_min",
    "Ebi.Props.c33_decoder_max",
    "Ebi.Props.c33_decoder_sum"
   ],
   "note": "Readers with the default queries; f64::min/max laws are a hypothesis met by the soft float."
  },
  {
   "property": "C34",
   "status": "proved",
   "theorems": [
    "Ebi.Props.c34_materialize",
    "Ebi.Props.c34_filter",
    "Ebi.Props.c34_filter_materialize",
    "Ebi.Props.c34_min",
    "Ebi.Props.c34_max",
    "Ebi.Props.c34_sum",
    "Ebi.Props.soft_zeroLaw"
   ],
   "note": "Readers with the default queries."
  },
  {
   "property": "C35",
   "status": "proved",
   "theorems": [
    "Ebi.Props.c35_comparisons",
    "Ebi.Props.c35_eq_ne",
    "Ebi.Props.c35_range",
    "Ebi.Props.c35_nan",
    "Ebi.Props.c35_zeros"
   ],
   "note": ""
  },
  {
   "property": "C36",
   "status": "partial",
   "theorems": [
    "Ebi.Props.c36_filter_partial",
    "Ebi.Props.c36_range_unmasked",
    "Ebi.Props.c36_ignores_bitmask",
    "Ebi.Props.c36_equal_aliases",
    "Ebi.Props.c36_decoder_filter_partial",
    "Ebi.Props.c36_decoder_range",
    "Ebi.Props.c36_decoder_ignores_bitmask"
   ],
   "note": "The c36_decoder theorems are over whole files through the decoder API. Correct on every selected record, for every chunk, bitmask and predicate whose equality constant is not above the chunk maximum; exact for ranges without bitmask. The code violates the rest: records outside the bitmask are returned when the constant is outside the chunk's range, and Eq compares only the low bits (witnesses)."
  },
  {
   "property": "C37",
   "status": "proved",
   "theorems": [
    "Ebi.Props.c37_split",
    "Ebi.Props.c37_equal_column",
    "Ebi.Props.c37_compare_column",
    "Ebi.Props.c37_compare_masked"
   ],
   "note": "The AVX2 intrinsics are modelled as lane-wise signed comparisons and movemask."
  },
  {
   "property": "C38",
   "status": "partial",
   "theorems": [
    "Ebi.Props.c38_max",
    "Ebi.Props.c38_min",
    "Ebi.Props.c38_empty",
    "Ebi.Props.c38_sum_partial",
    "Ebi.Props.c38_sum_no_overflow",
    "Ebi.Props.c38_sum_constant",
    "Ebi.Props.c38_sum_ignores_bitmask",
    "Ebi.Props.c38_decoder_max",
    "Ebi.Props.c38_decoder_min",
    "Ebi.Props.c38_decoder_sum",
    "Ebi.Props.c38_decoder_sum_ignores_bitmask",
    "Ebi.Props.soft_scale"
   ],
   "note": "The c38_decoder theorems are over whole files through the decoder API. Min and max in full. Sum for chunks with two different values; for constant chunks the code multiplies in floating point and ignores the bitmask (general form and witness)."
  },
  {
   "property": "C39",
   "status": "proved",
   "theorems": [
    "Ebi.Props.c39_filter",
    "Ebi.Props.c39_sum",
    "Ebi.Props.c39_max",
    "Ebi.Props.c39_min",
    "Ebi.Props.c39_decoder_filter",
    "Ebi.Props.c39_decoder_sum",
    "Ebi.Props.c39_decoder_max",
    "Ebi.Props.c39_decoder_min",
    "Ebi.Props.soft_scale",
    "Ebi.Props.c39_filter_materialize"
   ],
   "note": "The c39_decoder theorems are over whole files through the decoder API. On a reader that has not decompressed yet; predicate constants are rounded like the data. Sum of a chunk without selected record is NaN (part of the statement). After materialize see C40."
  },
  {
   "property": "C40",
   "status": "partial",
   "theorems": [
    "Ebi.Props.c40_default",
    "Ebi.Props.c40_default_answers",
    "Ebi.Props.c40_value_queries",
    "Ebi.Props.c40_buff",
    "Ebi.Props.c40_sprintz_partial",
    "Ebi.Props.c40_sprintz_cached",
    "Ebi.Props.c40_sprintz_garbage",
    "Ebi.Props.c40_buff_precision_cache",
    "Ebi.Props.c40_sprintz_min_after_materialize",
    "Ebi.Props.c40_sprintz_min_history",
    "Ebi.Props.c40_sprintz_filter_history",
    "Ebi.Props.c40_sprintz_predicate_rounded"
   ],
   "note": "Holds for every history of queries for 12 of 13 schemes at a fixed precision. DeltaSprintz violates it (witnesses); the partial theorem gives the histories for which it holds. Lowering BUFF precision keeps cached values (witness)."
  },
  {
   "property": "C41",
   "status": "partial",
   "theorems": [
    "Ebi.Props.c41_knn_partial",
    "Ebi.Props.c41_empty_target",
    "Ebi.Props.c41_straddling_wrong",
    "Ebi.Props.c41_any",
    "Ebi.Props.c41_numbers",
    "Ebi.Props.c41_index_bound",
    "Ebi.Props.c41_too_many",
    "Ebi.Props.c41_out_of_range"
   ],
   "note": "Holds when no vector straddles a chunk boundary. Otherwise the code gives a wrong answer (witness), even the number of a vector that does not exist (c41_out_of_range); c41_any is the exact answer for every file, scheme and chunking. An empty target loops for ever (proved for every data set)."
  },
  {
   "property": "C42",
   "status": "partial",
   "theorems": [
    "Ebi.Props.c42_matmul_partial",
    "Ebi.Props.c42_preconditions",
    "Ebi.Props.c42_zero_shape_panics",
    "Ebi.Props.c42_straddling_wrong",
    "Ebi.Props.c42_target_unchecked",
    "Ebi.Props.c42_any",
    "Ebi.Props.c42_result_size"
   ],
   "note": "Holds when no data matrix straddles a chunk boundary. Otherwise wrong (witness); a zero shape panics; the length of the target is not checked. c42_any is the exact answer for every file, scheme, chunking and target length."
  },
  {
   "property": "C43",
   "status": "partial",
   "theorems": [
    "Ebi.Props.c43_pointwise_partial",
    "Ebi.Props.c43_files_partial",
    "Ebi.Props.c43_literals_rejected",
    "Ebi.Props.c43_constant_part_rejected",
    "Ebi.Props.c43_max_index",
    "Ebi.Props.c43_constant_part_witness"
   ],
   "note": "Holds for expressions without an all-literal operation inside; (1+2)*x is rejected although it has a column (proved in general and witness)."
  },
  {
   "property": "C44",
   "status": "partial",
   "theorems": [
    "Ebi.Props.c44_compound",
    "Ebi.Props.c44_none",
    "Ebi.Props.c44_max",
    "Ebi.Props.c44_min",
    "Ebi.Props.c44_sum",
    "Ebi.Props.c44_rejected",
    "Ebi.Props.c44_together",
    "Ebi.Props.c44_bare",
    "Ebi.Props.c44_bare_max",
    "Ebi.Props.c44_bare_min",
    "Ebi.Props.c44_bare_sum",
    "Ebi.Props.c44_bare_none_panics",
    "Ebi.Props.c44_together_panics",
    "Ebi.Props.c44_nothing_panics"
   ],
   "note": "Proved for files of equal chunk sizes, expressions as in C43. A bare column without aggregation panics; columns with different numbers of chunks work alone and panic together (witnesses)."
  },
  {
   "property": "C45",
   "status": "proved",
   "theorems": [
    "Ebi.Props.c45_duration",
    "Ebi.Props.c45_times"
   ],
   "note": ""
  },
  {
   "property": "C46",
   "status": "proved",
   "theorems": [
    "Ebi.Props.c46_gorilla",
    "Ebi.Props.c46_chimp",
    "Ebi.Props.c46_chimp128",
    "Ebi.Props.c46_elf_xor",
    "Ebi.Props.c46_elf",
    "Ebi.Props.c46_elf_on_chimp"
   ],
   "note": ""
  },
  {
   "property": "C47",
   "status": "proved",
   "theorems": [
    "Ebi.Props.c47_sizes"
   ],
   "note": ""
  },
  {
   "property": "C48",
   "status": "partial",
   "theorems": [
    "Ebi.Props.c48_foreign_partial",
    "Ebi.Props.c48_not_verified"
   ],
   "note": "The code violates the claim: neither magic nor checksum is verified (witness for any accepted file); the partial theorem gives what opening does check."
  },
  {
   "property": "C49",
   "status": "partial",
   "theorems": [
    "Ebi.Props.c36_decoder_filter_materialize",
    "Ebi.Props.c32_sprintz_differs"
   ],
   "note": "Holds for BUFF where the filter is proved. DeltaSprintz violates it: filter compares rounded integers, filter_materialize compares the decoded doubles with the unrounded constant (witness)."
  },
  {
   "property": "C50",
   "status": "proved",
   "theorems": [
    "Ebi.Props.c50_success_is_complete",
    "Ebi.Props.c50_buffered_success_is_complete",
    "Ebi.Props.c50_short_writes",
    "Ebi.Props.c50_terminates",
    "Ebi.Props.c50_interrupted_write",
    "Ebi.Props.c50_append_broken"
   ],
   "note": "Output at position 0, as from_file and from_vec give it. From another position encode reports success and the two absolute seeks destroy the file (c50_append_broken)."
  },
  {
   "property": "C51",
   "status": "proved",
   "theorems": [
    "Ebi.Props.c51_failure_leaves",
    "Ebi.Props.c51_buffered_failure_leaves",
    "Ebi.Props.c51_torn_elapsed",
    "Ebi.Props.c51_full_rejected",
    "Ebi.Props.c51_library_refuses"
   ],
   "note": "The partly written footer offset is not shown to be rejected: like the states of C29 it may be accepted."
  },
  {
   "property": "C52",
   "status": "proved",
   "theorems": [
    "Ebi.Props.c52_open",
    "Ebi.Props.c52_queries",
    "Ebi.Props.c52_knn_matmul",
    "Ebi.Props.c52_aggregations",
    "Ebi.Props.c52_overwritten"
   ],
   "note": ""
  },
  {
   "property": "C53",
   "status": "partial",
   "theorems": [
    "Ebi.Props.c53_materialize",
    "Ebi.Props.c53_filter_materialize",
    "Ebi.Props.c53_buffered_partial",
    "Ebi.Props.c53_buffered_lost"
   ],
   "note": "Proved for an output written directly. Violated for a buffered one: the queries never flush, so Ok does not mean that the values reached the device; c53_buffered_lost is the witness, c53_buffered_partial needs a successful flush by the caller."
  },
  {
   "property": "C54",
   "status": "partial",
   "theorems": [
    "Ebi.Props.c54_no_bitmask_partial",
    "Ebi.Props.c54_last_chunk_ignored",
    "Ebi.Props.c54_full_ignored",
    "Ebi.Props.c54_filter_wrong_record"
   ],
   "note": "Without a bitmask the values are right for every size. Otherwise violated (general theorems): if the number of records is a multiple of 2^32 every query with a bitmask silently ignores the last chunk, although all record numbers fit 32 bits; filter reports record numbers modulo 2^32, so it can name records that do not match."
  },
  {
   "property": "C55",
   "status": "proved",
   "theorems": [
    "Ebi.Props.c55_gorilla_worst",
    "Ebi.Props.c55_chimp_worst",
    "Ebi.Props.c55_chimp128_worst",
    "Ebi.Props.c55_elf_worst",
    "Ebi.Props.c55_elf_on_chimp_worst",
    "Ebi.Props.c55_worst_reached",
    "Ebi.Props.c55_uncompressed_size",
    "Ebi.Props.c55_sprintz_worst",
    "Ebi.Props.c55_buff_size",
    "Ebi.Props.c55_buff_worst",
    "Ebi.Props.c55_gorilla_repeat",
    "Ebi.Props.c55_chimp_repeat",
    "Ebi.Props.c55_elf_xor_repeat",
    "Ebi.Props.c55_chimp128_cost",
    "Ebi.Props.c55_chimp128_recall",
    "Ebi.Props.c55_chimp128_repeat",
    "Ebi.Props.c55_chimp128_forgets",
    "Ebi.Props.c55_runs_exist",
    "Ebi.Props.c55_rle_size",
    "Ebi.Props.c55_rle_worst"
   ],
   "note": "The bounds for the XOR codecs are reached (c55_worst_reached); the external codecs (Zstd, Gzip, Snappy, ALP) are not covered."
  },
  {
   "property": "C56",
   "status": "proved",
   "theorems": [
    "Ebi.Props.c56_local",
    "Ebi.Props.c56_open",
    "Ebi.Props.c56_isolated",
    "Ebi.Props.c56_recover",
    "Ebi.Props.c56_undetected"
   ],
   "note": ""
  },
  {
   "property": "C57",
   "status": "proved",
   "theorems": [
    "Ebi.Props.c57_sprintz",
    "Ebi.Props.c57_sprintz_calls",
    "Ebi.Props.c57_buff_header",
    "Ebi.Props.c57_read_chunk",
    "Ebi.Props.c57_read_unaligned",
    "Ebi.Props.c57_equal_simd",
    "Ebi.Props.c57_comp_simd",
    "Ebi.Props.c57_expr_index",
    "Ebi.Props.c57_expr_records",
    "Ebi.Props.c57_expr_leak",
    "Ebi.Props.c57_rules"
   ],
   "note": "Foreign code (ALP) and the presence of AVX2 are outside."
  },
  {
   "property": "C58",
   "status": "proved",
   "theorems": [
    "Ebi.Props.c58_lossless",
    "Ebi.Props.c58_codec",
    "Ebi.Props.c58_buffer",
    "Ebi.Props.c58_buffer_overrun",
    "Ebi.Props.c58_truncated",
    "Ebi.Props.c58_load_rd",
    "Ebi.Props.c58_load_alp",
    "Ebi.Props.c58_load_group"
   ],
   "note": "The numeric kernels are in a submodule that is not in the repository; they are a parameter, assumed lossless on one vector of 1024 values."
  },
  {
   "property": "C59",
   "status": "partial",
   "theorems": [
    "Ebi.Props.c59_chunk",
    "Ebi.Props.c59_aligned",
    "Ebi.Props.c59_files_partial",
    "Ebi.Props.c59_short_panics",
    "Ebi.Props.c59_silently_wrong",
    "Ebi.Props.c59_unrelated_file"
   ],
   "note": "The code violates the claim: chunk i of every file is combined by rank, chunks beyond those of the first file are ignored, all without an error (witnesses; c59_files_partial says exactly what is computed for files cut in any way); a file with fewer chunks than the first makes it panic, even if the expression does not use it."
  },
  {
   "property": "C60",
   "status": "partial",
   "theorems": [
    "Ebi.Opened.attempt_erase",
    "Ebi.Opened.attempt_erase_library",
    "Ebi.Props.c60_stays_failed",
    "Ebi.Props.c60_buff",
    "Ebi.Props.c60_sprintz_starts_over",
    "Ebi.Props.c60_sprintz_partial",
    "Ebi.Props.c60_library_answers_next_chunk",
    "Ebi.Props.c60_elf_makes_up",
    "Ebi.Props.c60_sprintz_wide"
   ],
   "note": "The code violates the claim for Elf, for Zstd/Gzip/Snappy and for DeltaSprintz with a damaged width byte (witnesses, and a general theorem for the libraries: the retry answers with the values of the bytes after the chunk); it holds for the other schemes. The first two theorems tie this model, which keeps the state after an error, to the one the other properties use."
  },
  {
   "property": "C61",
   "status": "partial",
   "theorems": [
    "Ebi.Props.c61_never_other",
    "Ebi.Props.c61_reported_partial",
    "Ebi.Props.c61_xor_cuts",
    "Ebi.Props.c61_two_bytes",
    "Ebi.Props.c61_uncompressed_cuts",
    "Ebi.Props.c61_rle_cuts",
    "Ebi.Props.c61_sprintz_cuts",
    "Ebi.Props.c61_buff_panics",
    "Ebi.Props.c61_library_cuts",
    "Ebi.Props.c61_zstd_zeros",
    "Ebi.Props.c61_buff_witness",
    "Ebi.Props.c61_beyond_end",
    "Ebi.Props.c61_iterator"
   ],
   "note": "The code violates the claim for BUFF (the plain decoder panics on every cut of a written chunk) and, depending on the library, for Zstd; ALP is C58. No other scheme panics because of a cut, and no scheme of the repository, BUFF included, answers anything the whole chunk does not answer. A chunk beyond the end of the file is an error, for BUFF and Chimp128 a panic (c61_beyond_end)."
  },
  {
   "property": "C62",
   "status": "partial",
   "theorems": [
    "Ebi.Props.c62_h06_partial",
    "Ebi.Props.c62_q6_rows",
    "Ebi.Props.c62_h01_partial",
    "Ebi.Props.c62_h01_mislabelled",
    "Ebi.Props.c62_h01_simplified",
    "Ebi.Props.c62_extract",
    "Ebi.Props.c62_all_schemes",
    "Ebi.Props.c62_buff_wrong",
    "Ebi.Props.c62_null_lost",
    "Ebi.Props.c62_no_column",
    "Ebi.Props.c62_unwritten"
   ],
   "note": "The code violates the claim: averages of query 1 misnamed, BUFF filters of query 6 lose the bitmask (C36), nulls lost in the XOR schemes. Proved: what each query returns on carried tables with every scheme, for BUFF with quantities on both sides of 24. Parquet reading and decimal to double conversion are a parameter."
  },
  {
   "property": "C63",
   "status": "partial",
   "theorems": [
    "Ebi.Props.c63_matmul_partial",
    "Ebi.Props.c63_transposed",
    "Ebi.Props.c63_gemm",
    "Ebi.Props.c63_sizes",
    "Ebi.Props.c63_refused",
    "Ebi.Props.c63_preconditions",
    "Ebi.Props.c63_zero_shape_panics",
    "Ebi.Props.c63_no_columns_panics",
    "Ebi.Props.c63_larger_buffer_panics",
    "Ebi.Props.c63_layouts_differ"
   ],
   "note": "The code violates the claim (layout of the target, straddling matrices, no columns). Proved: what it computes for every device that multiplies column-major matrices, equality with matmul of the transposed target for a device that adds in order, exactly when the size checks pass. That memcpy_dtoh asserts lengths is taken from cudarc 0.16."
  },
  {
   "property": "C64",
   "status": "partial",
   "theorems": [
    "Ebi.Props.c64_precision_partial",
    "Ebi.Props.c64_needed_enough",
    "Ebi.Props.c64_needed_least",
    "Ebi.Props.c64_upper_exponent",
    "Ebi.Props.c64_precision_fails",
    "Ebi.Props.c64_large_exponent",
    "Ebi.Props.c64_chosen",
    "Ebi.Props.c64_few_above",
    "Ebi.Props.c64_chosen_exact",
    "Ebi.Props.c64_chosen_some",
    "Ebi.Props.c64_file_exact",
    "Ebi.Props.c64_file",
    "Ebi.Props.c64_file_some",
    "Ebi.Props.c64_lines",
    "Ebi.Props.c64_trim",
    "Ebi.Props.c64_fields",
    "Ebi.Props.c64_space",
    "Ebi.Props.c64_no_panic",
    "Ebi.Props.c64_default_scale"
   ],
   "note": "The code violates the claim for upper-case E and exponents beyond i32 (proved, with what it returns instead). Proved for all other literals; the selection is proved in full, with IEEE arithmetic: fl(a/n) < 0.01 iff 100 a < n for n <= 2^52."
  },
  {
   "property": "C65",
   "status": "proved",
   "theorems": [
    "Ebi.Props.c65_parse",
    "Ebi.Props.c65_csv2bin",
    "Ebi.Props.c65_readBack",
    "Ebi.Props.c65_file",
    "Ebi.Props.c65_end_to_end",
    "Ebi.Props.c65_filter",
    "Ebi.Props.c65_round_by_scale",
    "Ebi.Props.c65_wide_scale",
    "Ebi.Props.c65_negative_zero",
    "Ebi.Props.c65_large_fails",
    "Ebi.Props.c65_upper_exponent_lost",
    "Ebi.Props.c65_all_numbers",
    "Ebi.Props.c65_accepted"
   ],
   "note": "IEEE arithmetic (Soft.ops). f64::from_str is modelled as the documented grammar with correct rounding."
  },
  {
   "property": "C66",
   "status": "partial",
   "theorems": [
    "Ebi.Props.c66_accuracy_partial",
    "Ebi.Props.c66_no_distance",
    "Ebi.Props.c66_no_repetition",
    "Ebi.Props.c66_same_accuracy",
    "Ebi.Props.c66_slurp",
    "Ebi.Props.c66_scale_cast",
    "Ebi.Props.c66_text_partial",
    "Ebi.Props.c66_one_series",
    "Ebi.Props.c66_delta_reads_back",
    "Ebi.Props.c66_first_lost",
    "Ebi.Props.c66_wrong_rounding",
    "Ebi.Props.c66_missing",
    "Ebi.Props.c66_malformed",
    "Ebi.Props.c66_no_scale"
   ],
   "note": "The code violates the claim on the whole files: c66_first_lost proves the negation. Proved in full for the series after the first of each file and at most nine decimals; the other violations are theorems of their own. IEEE arithmetic (Soft.ops) where text is involved."
  },
  {
   "property": "C67",
   "status": "proved",
   "theorems": [
    "Ebi.Props.c67_unique",
    "Ebi.Props.c67_created",
    "Ebi.Props.c67_not_created",
    "Ebi.Props.c67_distinct",
    "Ebi.Props.c67_constant",
    "Ebi.Props.c67_filter",
    "Ebi.Props.c67_filter_delta",
    "Ebi.Props.c67_experiment",
    "Ebi.Props.c67_json_moved"
   ],
   "note": "The number that serde_json reads back is a parameter; c67_experiment assumes it gives the constants back, c67_json_moved says what happens when it does not. Sorting is modelled as insertion sort: the theorems use only that the result is sorted, and constants are unique up to the sign of zero."
  },
  {
   "property": "C68",
   "status": "partial",
   "theorems": [
    "Ebi.Props.c68_check",
    "Ebi.Props.c68_safe_partial",
    "Ebi.Props.c68_clipped",
    "Ebi.Props.c68_skipped",
    "Ebi.Props.c68_negative",
    "Ebi.Props.c68_tail"
   ],
   "note": "The code violates the claim for negative records (c68_negative, the negation). c68_check is the exact condition of the check, c68_safe_partial the claim for records that are at least zero, c68_skipped the other direction in full. IEEE arithmetic (Soft.ops)."
  },
  {
   "property": "C69",
   "status": "partial",
   "theorems": [
    "Ebi.Props.c69_filters",
    "Ebi.Props.c69_history",
    "Ebi.Props.c69_once_partial",
    "Ebi.Props.c69_path",
    "Ebi.Props.c69_patched",
    "Ebi.Props.c69_all_partial",
    "Ebi.Props.c69_twice",
    "Ebi.Props.c69_again",
    "Ebi.Props.c69_kept",
    "Ebi.Props.c69_left_out",
    "Ebi.Props.c69_no_resume",
    "Ebi.Props.c69_average_nan",
    "Ebi.Props.c69_throughput_halved"
   ],
   "note": "The code violates the claim: c69_twice (the negation for data sets and compressors patched together), c69_again, c69_left_out, c69_no_resume. c69_history is the exact content of every cell; the claim is proved in full for data sets done once from an empty table (c69_once_partial, c69_all_partial). Averages in IEEE arithmetic (Soft.ops)."
  },
  {
   "property": "C70",
   "status": "partial",
   "theorems": [
    "Ebi.Props.c70_values",
    "Ebi.Props.c70_full",
    "Ebi.Props.c70_error",
    "Ebi.Props.c70_half_unit_partial",
    "Ebi.Props.c70_no_such_precision",
    "Ebi.Props.c70_in_situ",
    "Ebi.Props.c70_filter_materialize",
    "Ebi.Props.c70_ignored",
    "Ebi.Props.c70_rounds_differently",
    "Ebi.Props.c70_disagree",
    "Ebi.Props.c70_written_outside"
   ],
   "note": "The code violates the documented claim: c70_rounds_differently is its negation, c70_half_unit_partial what remains of it. c70_disagree: materialized values against filter and max on one decoder. filter_materialize at a reduced precision: c70_filter_materialize (below BUFF's largest representable numbers, as in C36), and c70_written_outside, where it writes a number that does not meet the predicate."
  },
  {
   "property": "C71",
   "status": "proved",
   "theorems": [
    "Ebi.Props.c71_sizes",
    "Ebi.Props.c71_generated",
    "Ebi.Props.c71_products",
    "Ebi.Props.c71_delta",
    "Ebi.Props.c71_buff"
   ],
   "note": "Elf only for numbers it is proved to carry (zero or at least a millionth, C09); the logarithm of the scale is eight (libm); files below 2^63 bytes."
  },
  {
   "property": "C72",
   "status": "partial",
   "theorems": [
    "Ebi.Props.c72_materialize",
    "Ebi.Props.c72_filter",
    "Ebi.Props.c72_extrema",
    "Ebi.Props.c72_knn",
    "Ebi.Props.c72_matmul",
    "Ebi.Props.c72_sum_error",
    "Ebi.Props.c72_sum_close",
    "Ebi.Props.c72_sum_exact",
    "Ebi.Props.c72_sum_same",
    "Ebi.Props.c72_sum_differs"
   ],
   "note": "The sum of the same records does depend on the chunks (c72_sum_differs: 0 in one chunk, 1 in two), so sums are stated with an error bound and with a condition under which they are exact. Soft floats for sums. Sums of absolute values up to half the largest double."
  },
  {
   "property": "C73",
   "status": "proved",
   "theorems": [
    "Ebi.Props.c73_rounded_unique",
    "Ebi.Props.c73_add",
    "Ebi.Props.c73_sub",
    "Ebi.Props.c73_mul",
    "Ebi.Props.c73_div",
    "Ebi.Props.c73_casts",
    "Ebi.Props.c73_nan",
    "Ebi.Props.c73_infinities",
    "Ebi.Props.c73_min_max",
    "Ebi.Props.c73_compare",
    "Ebi.Props.c73_round",
    "Ebi.Props.c73_to_i64",
    "Ebi.Props.c73_decimal"
   ],
   "note": "A NaN result is always the canonical one in the model (hardware may keep a payload); the sign of a zero from f64::min and f64::max is left open by Rust, and theorems about extrema are stated for every choice."
  },
  {
   "property": "C74",
   "status": "proved",
   "theorems": [
    "Ebi.Props.c74_items",
    "Ebi.Props.c74_blank_field",
    "Ebi.Props.c74_outcome",
    "Ebi.Props.c74_extrema",
    "Ebi.Props.c74_ranges",
    "Ebi.Props.c74_exponent",
    "Ebi.Props.c74_precision_average",
    "Ebi.Props.c74_exponent_average",
    "Ebi.Props.c74_exponent_sum",
    "Ebi.Props.c74_value_average",
    "Ebi.Props.c74_xor_average",
    "Ebi.Props.c74_ratio",
    "Ebi.Props.c74_deviation",
    "Ebi.Props.c74_report",
    "Ebi.Props.c74_nan_loses_all",
    "Ebi.Props.c74_exponent_wraps"
   ],
   "note": "The square root is a parameter; of the deviations only the case of one value and the sign of what is under the root are stated. Release build (sums wrap)."
  },
  {
   "property": "C75",
   "status": "proved",
   "theorems": [
    "Ebi.Props.c75_precision",
    "Ebi.Props.c75_scale",
    "Ebi.Props.c75_cut",
    "Ebi.Props.c75_supported",
    "Ebi.Props.c75_configs",
    "Ebi.Props.c75_repetition",
    "Ebi.Props.c75_ratio",
    "Ebi.Props.c75_lossless",
    "Ebi.Props.c75_results",
    "Ebi.Props.c75_missing_precision",
    "Ebi.Props.c75_empty",
    "Ebi.Props.c75_ten_decimals"
   ],
   "note": "Data sets of whole records; values a configuration accepts as in C23; `c75_supported` assumes the f32 logarithm gives k for 10^k, k <= 12. Clocks and the directory walk are not modelled."
  },
  {
   "property": "C76",
   "status": "proved",
   "theorems": [
    "Ebi.Props.c76_extension",
    "Ebi.Props.c76_no_extension",
    "Ebi.Props.c76_numbered",
    "Ebi.Props.c76_free",
    "Ebi.Props.c76_save",
    "Ebi.Props.c76_sequence",
    "Ebi.Props.c76_race",
    "Ebi.Props.c76_safely",
    "Ebi.Props.c76_ucr_names",
    "Ebi.Props.c76_ucr_meet",
    "Ebi.Props.c76_saved",
    "Ebi.Props.c76_saved_name",
    "Ebi.Props.c76_compressed",
    "Ebi.Props.c76_compress",
    "Ebi.Props.c76_reported",
    "Ebi.Props.c76_lost"
   ],
   "note": "One directory at a time; JSON texts and encoder are parameters; stem, extension and with_extension as in std."
  },
  {
   "property": "C77",
   "status": "proved",
   "theorems": [
    "Ebi.Props.c77_new",
    "Ebi.Props.c77_reset",
    "Ebi.Props.c77_compress",
    "Ebi.Props.c77_prepare",
    "Ebi.Props.c77_sequence",
    "Ebi.Props.c77_chunk"
   ],
   "note": ""
  },
  {
   "property": "C78",
   "status": "proved",
   "theorems": [
    "Ebi.Props.c78_transpose",
    "Ebi.Props.c78_count",
    "Ebi.Props.c78_methods",
    "Ebi.Props.c78_involution",
    "Ebi.Props.c78_map",
    "Ebi.Props.c78_aggregate",
    "Ebi.Props.c78_aggregate_all",
    "Ebi.Props.c78_average_order",
    "Ebi.Props.c78_decompression_nan",
    "Ebi.Props.c78_decompression_halved",
    "Ebi.Props.c78_decompression_counted"
   ],
   "note": "HashMap = list of entries with distinct keys in any order."
  },
  {
   "property": "C79",
   "status": "partial",
   "theorems": [
    "Ebi.Props.c79_timer",
    "Ebi.Props.c79_answers",
    "Ebi.Props.c79_query",
    "Ebi.Props.c79_kinds",
    "Ebi.Props.c79_again",
    "Ebi.Props.c79_whole_file",
    "Ebi.Props.c79_sum_mislabelled",
    "Ebi.Props.c79_sum_elsewhere",
    "Ebi.Props.c79_knn",
    "Ebi.Props.c79_matmul",
    "Ebi.Props.c79_multiple",
    "Ebi.Props.c79_compute",
    "Ebi.Props.c79_column_unreported",
    "Ebi.Props.c79_reads_unreported",
    "Ebi.Props.c79_encoder",
    "Ebi.Props.c79_footer",
    "Ebi.Props.c79_compression_unmeasured"
   ],
   "note": "Proved for queries, nearest neighbour, matrix products and the encoder. The code violates it for expressions and bare columns: c79_multiple and c79_compute say exactly what is lost, c79_reads_unreported, c79_column_unreported and c79_sum_mislabelled are the violations. How much code a measurement encloses is not modelled."
  },
  {
   "property": "C80",
   "status": "partial",
   "theorems": [
    "Ebi.Props.c80_records",
    "Ebi.Props.c80_same",
    "Ebi.Props.c80_others",
    "Ebi.Props.c80_success",
    "Ebi.Props.c80_failed",
    "Ebi.Props.c80_materialize",
    "Ebi.Props.c80_filter",
    "Ebi.Props.c80_max",
    "Ebi.Props.c80_round_trip",
    "Ebi.Props.c80_input_lost",
    "Ebi.Props.c80_save_dir",
    "Ebi.Props.c80_save_shared"
   ],
   "note": "Proved for every file and request unless the output has the name of the input, where the code loses the input (c80_input_lost). c80_filter and c80_max are for schemes other than BUFF and DeltaSprintz, whose queries have their own claims. The directory the results go to must have two components above it, else the program panics after the work is done (c80_save_dir)."
  },
  {
   "property": "C81",
   "status": "proved",
   "theorems": [
    "Ebi.Props.c81_materialize",
    "Ebi.Props.c81_filter_materialize",
    "Ebi.Props.c81_filter",
    "Ebi.Props.c81_max",
    "Ebi.Props.c81_min",
    "Ebi.Props.c81_sum",
    "Ebi.Props.c81_beyond",
    "Ebi.Props.c81_as_bitmask",
    "Ebi.Props.c81_commands",
    "Ebi.Props.c81_command_sum"
   ],
   "note": "The first seven hold for any file and every scheme. c81_as_bitmask has materialize for every scheme and the other queries for all but BUFF and DeltaSprintz, whose in-situ queries have their own claims."
  },
  {
   "property": "C82",
   "status": "proved",
   "theorems": [
    "Ebi.Props.c82_chain",
    "Ebi.Props.c82_order",
    "Ebi.Props.c82_values",
    "Ebi.Props.c82_aggregates"
   ],
   "note": "For the schemes whose filter compares the decoded values; BUFF and DeltaSprintz compare quantised values (C36, C39)."
  },
  {
   "property": "C83",
   "status": "partial",
   "theorems": [
    "Ebi.Props.c83_names",
    "Ebi.Props.c83_created",
    "Ebi.Props.c83_fresh",
    "Ebi.Props.c83_found",
    "Ebi.Props.c83_again",
    "Ebi.Props.c83_current_partial",
    "Ebi.Props.c83_stale",
    "Ebi.Props.c83_stale_fails",
    "Ebi.Props.c83_all",
    "Ebi.Props.c83_ends",
    "Ebi.Props.c83_comes_to_end",
    "Ebi.Props.c83_csv",
    "Ebi.Props.c83_csv_shadowed",
    "Ebi.Props.c83_exact"
   ],
   "note": "c83_created, c83_fresh, c83_again and c83_all hold for all texts and directories. That the configurations in the directory are those of the data holds up to 19 decimals (c83_current_partial) and is false beyond (c83_stale, c83_stale_fails). One empty binary file or one without CSV file ends the whole command (c83_ends)."
  }
 ]
}